import Verif.Convex.WeightModel

/-! Specification of the weight limits a user asks for. -/
set_option autoImplicit false

namespace Skfolio.Convex

section
variable {K : Type} [Field K] [LinearOrder K] {n : Nat}

/-- The weights are within the bounds, caps, budgets and linear constraints. -/
structure RespectsLimits (p : Params K n) (w : Fin n → K) : Prop where
  atLeast : ∀ m, p.minWeights = some m → ∀ i, m i ≤ w i
  atMost : ∀ m, p.maxWeights = some m → ∀ i, w i ≤ m i
  long : ∀ m, p.maxLong = some m → ∑ i, max (w i) 0 ≤ m
  short : ∀ m, p.maxShort = some m → ∑ i, max (-w i) 0 ≤ m
  minBudget : ∀ m, p.minBudget = some m → m ≤ ∑ i, w i
  maxBudget : ∀ m, p.maxBudget = some m → ∑ i, w i ≤ m
  budget : ∀ m, p.budget = some m → ∑ i, w i = m
  equations : ∀ row ∈ p.eqRows, ∑ i, row.1 i * w i = row.2
  inequalities : ∀ row ∈ p.ineqRows, ∑ i, row.1 i * w i ≤ row.2
  matrix : ∀ rows, p.inequality = some rows → ∀ row ∈ rows, ∑ i, row.1 i * w i ≤ row.2

/-- Number of invested assets among those for which `g` is true. -/
def invested (w : Fin n → K) (g : Fin n → Bool) : Nat := (Finset.univ.filter fun i => g i = true ∧ w i ≠ 0).card

/-- Cardinality and threshold limits: at most `cardinality` invested assets, at most the given number in each group, every long position at least its threshold, every
short position at most (that is, beyond) its threshold. -/
structure RespectsCardinality (p : Params K n) (w : Fin n → K) : Prop where
  cardinality : ∀ c, p.cardinality = some c → invested w (fun _ => true) ≤ c
  groups : ∀ rows, p.groupCardinalities = some rows → ∀ row ∈ rows, invested w row.1 ≤ row.2
  long : ∀ th, p.thresholdLong = some th → ∀ i, 0 < w i → th i ≤ w i
  short : ∀ th, p.thresholdShort = some th → ∀ i, w i < 0 → w i ≤ th i

end

end Skfolio.Convex
