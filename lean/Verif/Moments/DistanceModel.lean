import Mathlib.Analysis.SpecialFunctions.Pow.Real

/-! Model of `_corr_to_distance`, `src/skfolio/distance/_distance.py` L549-586, from which the Pearson, Kendall, Spearman and covariance distances are computed. -/
set_option autoImplicit false

namespace Skfolio.Moments

variable {n : Nat}

/-- The codependence and the distance of one pair of assets. `np.power` is the real power; for a negative base with a power that is not an integer numpy returns NaN, which is outside the model. -/
noncomputable def corrToDistance (absolute : Bool) (power : ℝ) (corr : Fin n → Fin n → ℝ) : (Fin n → Fin n → ℝ) × (Fin n → Fin n → ℝ) :=
  let bounds : Fin 3 → ℝ := ![-1, 0, 1]
  let corr1 := if absolute then fun i j => |corr i j| else corr
  let bounds1 := if absolute then fun k => |bounds k| else bounds
  let corr2 := fun i j => corr1 i j ^ power
  let bounds2 := fun k => bounds1 k ^ power
  let scaler := 1 / (1 - min (min (bounds2 0) (bounds2 1)) (bounds2 2))
  (corr2, fun i j => Real.sqrt (min (max (scaler * (1 - corr2 i j)) 0) 1))

end Skfolio.Moments
