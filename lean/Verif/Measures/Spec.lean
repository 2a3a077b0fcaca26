import Verif.Measures.Model
import Mathlib.Data.Finset.Lattice.Fold
import Mathlib.Algebra.BigOperators.Group.Finset.Basic

/-! Independent specification of the measures: textbook definitions, not using the code's helpers. -/
set_option autoImplicit false

namespace Skfolio.Measures

section
variable {K : Type} [Field K] [LinearOrder K]

/-- The objective of Rockafellar and Uryasev: `alpha + 1/((1-beta) n) * sum max(0, loss - alpha)`. -/
def ruObjective (r : List K) (beta alpha : K) : K := alpha + (r.map fun x => max 0 (-x - alpha)).sum / ((1 - beta) * (r.length : K))

/-- `v` is the loss at level `beta`: fewer than `(1-beta) n` losses exceed it, at least `(1-beta) n` reach it. -/
def IsLossQuantile (r : List K) (beta v : K) : Prop :=
  ((r.countP fun x => decide (v < -x) : Nat) : K) < (1 - beta) * (r.length : K) ∧
  (1 - beta) * (r.length : K) ≤ ((r.countP fun x => decide (v ≤ -x) : Nat) : K)

/-- `v` is the largest loss. -/
def IsLargestLoss (r : List K) (v : K) : Prop := (∃ x ∈ r, v = -x) ∧ ∀ x ∈ r, -x ≤ v

/-- Wealth at time `t` from reinvested (`compounded`) or summed returns. -/
def wealth (r : List K) (compounded : Bool) (t : Nat) : K :=
  if compounded then 1000 * ((r.take (t + 1)).map fun x => 1 + x).prod else (r.take (t + 1)).sum

/-- Highest wealth up to time `t`. -/
def peak (r : List K) (compounded : Bool) (t : Nat) : K :=
  (Finset.range (t + 1)).sup' ⟨0, by simp⟩ (wealth r compounded)

/-- Shortfall of the wealth at time `t` from its running maximum, as a non-positive number (relative if compounded). -/
def shortfall (r : List K) (compounded : Bool) (t : Nat) : K :=
  if compounded then wealth r compounded t / peak r compounded t - 1 else wealth r compounded t - peak r compounded t

/-- Mean absolute difference over ordered pairs of distinct observations. -/
def meanAbsDifference (r : List K) : K :=
  ((List.range r.length).map fun i => ((List.range r.length).map fun j => |r.getD i 0 - r.getD j 0|).sum).sum /
    ((r.length : K) * ((r.length : K) - 1))

end

end Skfolio.Measures
