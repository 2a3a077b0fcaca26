import Mathlib.Analysis.SpecialFunctions.Pow.Real
import Mathlib.Algebra.BigOperators.Fin

/-!
Model of `DistanceCorrelation` (`src/skfolio/distance/_distance.py` L350-422).

The returns of an asset are a function of the observations `Fin (N + 1)`: `validate_data` refuses an empty sample and missing values. Real arithmetic; `none`
stands for NaN.
-/
set_option autoImplicit false

namespace Skfolio.Distance

open Finset

variable {N n : Nat}

/-- `scd.squareform(scd.pdist(x.reshape(-1, 1)))`, L389: the Euclidean distances of the observations of one asset. -/
def pairDist (x : Fin (N + 1) → ℝ) (s t : Fin (N + 1)) : ℝ := |x s - x t|

/-- L391: `x - x.mean(axis=0)[np.newaxis, :] - x.mean(axis=1)[:, np.newaxis] + x.mean()`. -/
noncomputable def centre (d : Fin (N + 1) → Fin (N + 1) → ℝ) (s t : Fin (N + 1)) : ℝ :=
  d s t - (∑ i, d i t) / (N + 1) - (∑ j, d s j) / (N + 1) + (∑ i, ∑ j, d i j) / ((N + 1) * (N + 1))

/-- `(x * y).sum()`. -/
noncomputable def sumProd (a b : Fin (N + 1) → Fin (N + 1) → ℝ) : ℝ := ∑ s, ∑ t, a s t * b s t

/-- `np.sqrt`: NaN for a negative number. -/
noncomputable def npSqrt (v : ℝ) : Option ℝ := if v < 0 then none else some (Real.sqrt v)

/-- Division of two floats that are not negative, the first being 0 if the second is (which the theorems show): `0 / 0` is NaN. -/
noncomputable def npDiv (a b : ℝ) : Option ℝ := if b = 0 then none else some (a / b)

/-- `DistanceCorrelation._dcorr`, L386-395. -/
noncomputable def dcorr (x y : Fin (N + 1) → ℝ) : Option ℝ :=
  let a := centre (pairDist x)
  let b := centre (pairDist y)
  (npSqrt (sumProd a b)).bind fun num =>
    (npSqrt (Real.sqrt (sumProd a a) * Real.sqrt (sumProd b b))).bind fun den => npDiv num den

/-- `np.clip(v, a_min=0.0, a_max=1.0)`. -/
noncomputable def clip01 (v : ℝ) : ℝ := min (max v 0) 1

/-- `DistanceCorrelation.fit`, L397-422: `codependence_` and `distance_`. The entries with `i < j` are computed and copied; the diagonal is set to 1. -/
noncomputable def dcorrFit (_threshold : ℝ) (X : Fin n → Fin (N + 1) → ℝ) : (Fin n → Fin n → Option ℝ) × (Fin n → Fin n → Option ℝ) :=
  let corr := fun i j : Fin n => if i < j then dcorr (X i) (X j) else if j < i then dcorr (X j) (X i) else some 1
  (corr, fun i j => (corr i j).bind fun c => npSqrt (clip01 (1 - c)))

end Skfolio.Distance
