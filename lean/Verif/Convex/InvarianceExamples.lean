import Verif.Convex.UnitsTheorems
import Verif.Convex.ScaleTheorems
import Verif.Convex.ShuffleTheorems
import Verif.Convex.RiskBudgetingFindings

/-! **C113** and **C114**: concrete fits of risk budgeting and of the distributionally robust CVaR that meet the hypotheses. -/
set_option autoImplicit false

namespace Skfolio.Convex

open Skfolio.Measures

/-- Returns in percent: the weights are still 2/3 and 1/3. -/
example : ∃ cs w k c, (∃ b, BudgetOptimum (budgetUnits 100 fourToOne) cs w k c b) ∧ returnedWeights w k = ![2 / 3, 1 / 3] ∧ (budgetUnits 100 fourToOne).base.cholesky 0 0 = 100 := by
  obtain ⟨cs, w, k, c, a, -, h, hw, -⟩ := fourToOne_optimum (sortPartition ℝ)
  refine ⟨cs, w, k, c, (C113_risk_budgeting 100 (by norm_num) _ cs w k c).2 ⟨a, h⟩, hw, ?_⟩
  norm_num [budgetUnits, inUnits, fourToOne, twoAssets]

/-- Scales of the user instead of 1 and 1: the weights are still 2/3 and 1/3. -/
example : ∃ cs w k c, (∃ b, CustomBudgetOptimum (budgetScales 3 (1 / 1000) fourToOne) cs [] (fun _ => 0) w k c b) ∧ returnedWeights w k = ![2 / 3, 1 / 3] := by
  obtain ⟨cs, w, k, c, a, -, h, hw, -⟩ := fourToOne_optimum (sortPartition ℝ)
  refine ⟨cs, w, k, c, (C114_risk_budgeting fourToOne 1 1 3 (1 / 1000) one_pos one_pos (by norm_num) (by norm_num) cs [] _ w k c).1 ⟨a, ⟨h.1, by simp⟩, fun w' k' c' a' h' _ => ?_⟩, hw⟩
  simp only [zero_mul, add_zero]
  exact h.2 w' k' c' a' h'

/-- The same for the distributionally robust CVaR, over two days. -/
example : ∃ cs, CustomRobustOptimum (robustScales 3 (1 / 1000) twoDays) cs [] (fun _ => 0) (fun _ => 1) twoDaysAux := by
  obtain ⟨cs, -, h1, h2⟩ := twoDays_optimum
  refine ⟨cs, (C114_distributionally_robust twoDays 1 1 3 (1 / 1000) one_pos one_pos (by norm_num) (by norm_num) cs [] _ _ _).1 ⟨⟨h1.1, h1.2, by simp⟩, fun w' p' h h' _ => ?_⟩⟩
  simp only [zero_mul, add_zero]
  exact h2 w' p' h h'

/-- Volatilities of 2 and 1 in one unit, 200 and 100 in another. -/
example : Naive.inverseVolatility ((100 : ℝ) ^ 2 • Matrix.of ![![4, 0], ![0, 1]]) = Naive.inverseVolatility (Matrix.of ![![(4 : ℝ), 0], ![0, 1]]) := C113_inverse_volatility 100 (by norm_num) _

end Skfolio.Convex
