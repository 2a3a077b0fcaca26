import Verif.Convex.MeanRiskModel

/-!
Model of `RiskBudgeting.fit`, `src/skfolio/optimization/convex/_risk_budgeting.py` L436-573.

The prior model, the risk parameters, the weight limits and the scales are those of `MeanRisk` (its objective, regularisation, tracking error, turnover, risk limits and uncertainty set are not read).
Not modelled here: `overwrite_expected_return`, `add_objective`, `add_constraints` (see `CustomModel`), several values of `min_return` at once, the solver.
-/
set_option autoImplicit false

namespace Skfolio.Convex

section
variable {n T : Nat}

/-- The parameters. `budget` is `risk_budget` after `_clean_input`, `None` by default. -/
structure RiskBudgeting (n T : Nat) where
  base : MeanRisk n T
  budget : Option (Fin n → ℝ)
  minReturn : Option ℝ

/-- L484-494: equal budgets by default; a budget of zero is replaced by `1e-10`. -/
noncomputable def riskBudget (m : RiskBudgeting n T) (i : Fin n) : ℝ :=
  match m.budget with
  | none => 1
  | some b => if b i = 0 then 1 / 10 ^ 10 else b i

/-- The `factor` given to the risk function, L536-540: the constant 1 but for the first lower partial moment. -/
noncomputable def riskFactor (r : RiskMeasure) (k : ℝ) : ℝ := if r = .firstLowerPartialMoment then k else 1

/-- `expected_return`, L501-506. -/
noncomputable def budgetReturn (m : MeanRisk n T) (w : Fin n → ℝ) (k : ℝ) : ℝ := (∑ i, m.data.mu i * w i) - transactionCost m.data w k - managementFee m.data w

/-- The constraints, L508-545; `k` is `factor`, `c` the auxiliary variable (`nonneg`), `cs` the weight constraints. The logarithm of CVXPY is minus infinity outside of its domain, the positive numbers. -/
structure BudgetFeasible (m : RiskBudgeting n T) (cs : List (Constraint ℝ n)) (w : Fin n → ℝ) (k c : ℝ) (a : (riskProgram m.base m.base.riskMeasure w (riskFactor m.base.riskMeasure k)).Aux) : Prop where
  positive : ∀ i, 0 < w i
  budget : (∑ i, riskBudget m i * Real.log (w i)) * m.base.scale ≥ c * m.base.scale
  nonneg : 0 ≤ c
  weight : ∀ f ∈ cs, f w k
  return' : ∀ x, m.minReturn = some x → budgetReturn m.base w k * m.base.scale ≥ x * k * m.base.scale
  aux : (riskProgram m.base m.base.riskMeasure w (riskFactor m.base.riskMeasure k)).feasible a

/-- What a solver that reports an optimum guarantees, L552-556: the objective is the risk. -/
def BudgetOptimum (m : RiskBudgeting n T) (cs : List (Constraint ℝ n)) (w : Fin n → ℝ) (k c : ℝ) (a : (riskProgram m.base m.base.riskMeasure w (riskFactor m.base.riskMeasure k)).Aux) : Prop :=
  BudgetFeasible m cs w k c a ∧ ∀ w' k' c' a', BudgetFeasible m cs w' k' c' a' →
    (riskProgram m.base m.base.riskMeasure w (riskFactor m.base.riskMeasure k)).risk a * m.base.scaleObjective ≤
      (riskProgram m.base m.base.riskMeasure w' (riskFactor m.base.riskMeasure k')).risk a' * m.base.scaleObjective

end

end Skfolio.Convex
