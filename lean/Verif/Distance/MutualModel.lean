import Mathlib.Analysis.SpecialFunctions.Log.NegMulLog
import Mathlib.Analysis.SpecialFunctions.Pow.Real
import Mathlib.Algebra.BigOperators.Fin
import Mathlib.Data.List.Sort
import Mathlib.Data.Finset.Lattice.Fold

/-!
Model of `MutualInformation.fit` (`src/skfolio/distance/_distance.py` L490-546) and `n_bins_freedman` (`src/skfolio/utils/stats.py` L59-85).

The returns of an asset are a function of the observations `Fin (N + 1)`: `validate_data` refuses an empty sample and missing values. `np.histogram`, `np.histogram2d`
and `np.percentile` are modelled by their definitions, `mutual_info_score` of scikit-learn and `scipy.stats.entropy` by their formulas over the contingency table, without the
rounding of terms below the machine precision. The optimum of Knuth's rule is a parameter (any function). Real arithmetic; `none` stands for NaN.
-/
set_option autoImplicit false

namespace Skfolio.Distance

open Finset

variable {N n : Nat}

/-- `np.min(x)`. -/
noncomputable def lo (x : Fin (N + 1) → ℝ) : ℝ := univ.inf' ⟨0, mem_univ 0⟩ x

/-- `np.max(x)`. -/
noncomputable def hi (x : Fin (N + 1) → ℝ) : ℝ := univ.sup' ⟨0, mem_univ 0⟩ x

/-- The bin of an observation in `np.histogram(x, bins)`: `bins` intervals of equal length between the minimum and the maximum (widened by 1/2 on both sides if they
are equal), closed on the left, the last one on both sides. -/
noncomputable def binOf (bins : Nat) (x : Fin (N + 1) → ℝ) (t : Fin (N + 1)) : Nat :=
  let a := if lo x = hi x then lo x - 1 / 2 else lo x
  let b := if lo x = hi x then hi x + 1 / 2 else hi x
  min (bins - 1) ⌊(x t - a) * bins / (b - a)⌋₊

/-- `np.histogram(x, bins)[0]`. -/
noncomputable def histogram (bins : Nat) (x : Fin (N + 1) → ℝ) (a : Nat) : Nat := (univ.filter fun t => binOf bins x t = a).card

/-- `np.histogram2d(x, y, bins)[0]`. -/
noncomputable def histogram2d (bins : Nat) (x y : Fin (N + 1) → ℝ) (a b : Nat) : Nat :=
  (univ.filter fun t => binOf bins x t = a ∧ binOf bins y t = b).card

/-- `scipy.stats.entropy` of the counts of the bins: normalised to probabilities, `-Σ p log p`. -/
noncomputable def entropyOf (bins : Nat) (c : Nat → Nat) : ℝ :=
  ∑ a ∈ range bins, Real.negMulLog ((c a : ℝ) / ∑ a ∈ range bins, (c a : ℝ))

/-- `mutual_info_score(None, None, contingency=c)`. -/
noncomputable def mutualInfoScore (bins : Nat) (c : Nat → Nat → Nat) : ℝ :=
  let s : ℝ := ∑ a ∈ range bins, ∑ b ∈ range bins, (c a b : ℝ)
  let pi := fun a => ∑ b ∈ range bins, (c a b : ℝ)
  let pj := fun b => ∑ a ∈ range bins, (c a b : ℝ)
  if bins = 1 then 0
  else max 0 (∑ a ∈ range bins, ∑ b ∈ range bins, if c a b = 0 then 0 else
    (c a b : ℝ) / s * (Real.log (c a b) - Real.log s) + (c a b : ℝ) / s * (-Real.log (pi a * pj b) + Real.log s + Real.log s))

/-- The entries of `corr` and `dist` for two assets, L526-543. `0 / 0` is NaN and Python's `max(0.0, nan)` is `0.0`. -/
noncomputable def pairEntry (normalize : Bool) (bins : Nat) (x y : Fin (N + 1) → ℝ) : Option ℝ × ℝ :=
  let mi := mutualInfoScore bins (histogram2d bins x y)
  let hx := entropyOf bins (histogram bins x)
  let hy := entropyOf bins (histogram bins y)
  if normalize then
    (if min hx hy = 0 then none else some (mi / min hx hy),
      if hx + hy - mi = 0 then 0 else max 0 ((hx + hy - 2 * mi) / (hx + hy - mi)))
  else (some mi, max 0 (hx + hy - 2 * mi))

/-- `np.percentile(x, 100 q)` with the default linear interpolation. -/
noncomputable def percentile (q : ℝ) (x : Fin (N + 1) → ℝ) : ℝ :=
  let s := (List.ofFn x).insertionSort (· ≤ ·)
  let v := q * N
  let k := ⌊v⌋₊
  s.getD k 0 + (v - k) * (s.getD (min (k + 1) N) 0 - s.getD k 0)

/-- `n_bins_freedman`, `utils/stats.py` L59-85. -/
noncomputable def freedman (x : Fin (N + 1) → ℝ) : Nat :=
  let d := 2 * (percentile (3 / 4) x - percentile (1 / 4) x) / ((N + 1 : Nat) : ℝ) ^ ((1 : ℝ) / 3)
  if d = 0 then 5 else max 1 ⌈(hi x - lo x) / d⌉.toNat

inductive NBinsMethod where
  | freedman
  | knuth

/-- `n_bins_list`, L508-519. -/
noncomputable def nBinsOf (knuth : (Fin (N + 1) → ℝ) → Nat) (method : NBinsMethod) (nBins : Option Nat) (x : Fin (N + 1) → ℝ) : Nat :=
  match nBins with
  | some b => b
  | none =>
    match method with
    | .freedman => freedman x
    | .knuth => knuth x

inductive MutualErr where
  /-- numpy: "`bins` must be positive" -/
  | bins

/-- `MutualInformation.fit`, L490-546: `codependence_` and `distance_`. The entries with `i ≤ j` are computed and copied. -/
noncomputable def mutualFit (knuth : (Fin (N + 1) → ℝ) → Nat) (method : NBinsMethod) (nBins : Option Nat) (normalize : Bool) (X : Fin n → Fin (N + 1) → ℝ) :
    Except MutualErr ((Fin n → Fin n → Option ℝ) × (Fin n → Fin n → ℝ)) :=
  open Classical in
  let bins := fun i => nBinsOf knuth method nBins (X i)
  let entry := fun i j : Fin n =>
    if i ≤ j then pairEntry normalize (max (bins i) (bins j)) (X i) (X j) else pairEntry normalize (max (bins j) (bins i)) (X j) (X i)
  if ∃ i j, max (bins i) (bins j) = 0 then .error .bins
  else .ok (fun i j => (entry i j).1, fun i j => (entry i j).2)

end Skfolio.Distance
