import Verif.Convex.RiskModel

/-! Specification for C17: what it means that a program computes a measure of the portfolio's net returns. -/
set_option autoImplicit false

namespace Skfolio.Convex

section
variable {K : Type} [Field K] [LinearOrder K] {n T : Nat}

/-- `m` is the minimum of the program: it is attained and nothing feasible is smaller. -/
def IsOptimalValue (p : Program K) (m : K) : Prop := (∃ x, p.feasible x ∧ p.risk x = m) ∧ ∀ x, p.feasible x → m ≤ p.risk x

/-- Net return of weights `w` at time `t`: the assets' returns, less what is traded from the previous weights, less the fees. With `k ≠ 1` the
previous weights are scaled, as the weights are. -/
def netReturn (d : Data K n T) (w : Fin n → K) (k : K) (t : Fin T) : K :=
  (∑ i, w i * d.returns t i) - (∑ i, |d.transactionCosts i| * |w i - k * d.previousWeights i|) - ∑ i, w i * d.managementFees i

/-- The series of net returns. -/
def netReturns (d : Data K n T) (w : Fin n → K) (k : K) : List K := List.ofFn (netReturn d w k)

/-- The series of returns before costs. -/
def grossReturns (d : Data K n T) (w : Fin n → K) : List K := List.ofFn fun t => ∑ i, w i * d.returns t i

/-- Drawdowns (uncompounded) measured from the initial wealth: those of the series preceded by a zero return. -/
def drawdownsFromStart (r : List K) : List K := (Skfolio.Measures.drawdowns (0 :: r) false).tail

end

end Skfolio.Convex
