import Mathlib.Algebra.BigOperators.Group.Finset.Basic
import Mathlib.Data.Fintype.Basic
import Mathlib.Data.Rat.Init
import Mathlib.Algebra.Order.Field.Rat

/-!
Model of `compute_pseudo_observations` and `empirical_tail_concentration`, `src/skfolio/distribution/copula/_utils.py`.
-/
set_option autoImplicit false

namespace Skfolio.Copula

/-- `st.rankdata(x)` with its default method "average", for one column of `n` values: one for every smaller value, and the middle of the places of the equal values.
The algorithm of scipy (a sort) is not modelled; `C40_rank_is_mean_place` shows that this is the mean of the places that the equal values take in any sorted order. -/
def rank {α : Type*} [LinearOrder α] {n : Nat} (x : Fin n → α) (i : Fin n) : ℚ :=
  ((Finset.univ.filter fun j => x j < x i).card : ℚ) + (((Finset.univ.filter fun j => x j = x i).card : ℚ) + 1) / 2

/-- `compute_pseudo_observations`, L50-84, of one column (`axis=0` ranks the columns separately). -/
def pseudo {α : Type*} [LinearOrder α] {n : Nat} (x : Fin n → α) (i : Fin n) : ℚ := rank x i / (n + 1)

/-- The inner function of `empirical_tail_concentration`, L128-137, for one quantile: the number of observations with the first value in the tail, and unless this is zero the number with both values in the tail divided by it. -/
def tailFunc (X : List (ℚ × ℚ)) (q : ℚ) (isLower : Bool) : ℚ :=
  let op := fun a : ℚ => if isLower then decide (a ≤ q) else decide (a ≥ q)
  let count := X.countP fun x => op x.1
  if count ≠ 0 then (X.countP fun x => op x.1 && op x.2 : ℚ) / count else count

/-- `empirical_tail_concentration`, L86-143: an error unless all the data and all the quantiles are in [0, 1] (`none` for the `ValueError`s of L121 and L125; that the data have two columns is a matter of the type);
the lower tail for a quantile up to 0.5, else the upper tail. -/
def tailConcentration (X : List (ℚ × ℚ)) (quantiles : List ℚ) : Option (List ℚ) :=
  if ¬ (X.all fun x => decide (0 ≤ x.1 ∧ x.1 ≤ 1) && decide (0 ≤ x.2 ∧ x.2 ≤ 1)) then none
  else if ¬ (quantiles.all fun q => decide (0 ≤ q ∧ q ≤ 1)) then none
  else some (quantiles.map fun q => if q ≤ 1 / 2 then tailFunc X q true else tailFunc X q false)

end Skfolio.Copula
