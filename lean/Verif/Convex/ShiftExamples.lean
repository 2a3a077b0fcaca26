import Verif.Convex.ShiftTheorems
import Verif.Convex.TradeOffExamples

/-! **C121**: concrete fits that meet the hypotheses, and why the budget has to be fixed. -/
set_option autoImplicit false

namespace Skfolio.Convex

open Skfolio.Measures

/-- Every asset earns 1 % more: equal weights still have the least standard deviation. -/
theorem shifted_min (x y c : ℝ) (cs : List (Constraint ℝ 2)) (hcs : getWeightConstraints longOnly false true (1 : ℝ) = .ok cs) :
    IsOptimum (shifted (frontierAssets x y) 1 c) cs ![1 / 2, 1 / 2] 1 (Real.sqrt (1 / 2)) := by
  have e : ∀ w k (v : ℝ), Feasible (shifted (frontierAssets x y) 1 c) cs w k v ↔ Feasible { frontierAssets x y with objective := .minimizeRisk } cs w k v := by
    intro w k v
    constructor
    · exact fun h => ⟨h.factor, fun x hx => (by cases hx), h.turnover, h.weight, fun x hx => (by cases hx), fun r x hx => (by cases hx), h.aux, fun h => (by cases h)⟩
    · exact fun h => ⟨h.factor, fun x hx => (by cases hx), h.turnover, h.weight, fun x hx => (by cases hx), fun r x hx => (by cases hx), h.aux, fun h => (by cases h)⟩
  have h := frontier_min x y cs hcs
  exact ⟨(e _ _ _).2 h.1, fun w' k' (v : ℝ) hv => h.2 w' k' v ((e _ _ _).1 hv)⟩

example : ∃ (cs : List (Constraint ℝ 2)) (R R' : (Fin 2 → ℝ) → ℝ) (a : ℝ), BetasOk (frontierAssets (4 / 100) (2 / 100)) ∧ (frontierAssets (4 / 100) (2 / 100)).weights.budget = some 1 ∧
    (∀ r, isDrawdown r = true → (frontierAssets (4 / 100) (2 / 100)).riskLimits r = none) ∧ isDrawdown (frontierAssets (4 / 100) (2 / 100)).riskMeasure = false ∧
    getWeightConstraints (frontierAssets (4 / 100) (2 / 100)).weights (factorIsVariable (frontierAssets (4 / 100) (2 / 100))) true 1 = .ok cs ∧
    IsRiskOf (sortPartition ℝ) (frontierAssets (4 / 100) (2 / 100)) .standardDeviation R ∧ IsRiskOf (sortPartition ℝ) (shifted (frontierAssets (4 / 100) (2 / 100)) 1 (1 / 100)) .standardDeviation R' ∧
    IsOptimum (shifted (frontierAssets (4 / 100) (2 / 100)) 1 (1 / 100)) cs ![1 / 2, 1 / 2] 1 a := by
  obtain ⟨cs, hcs⟩ := frontier_ok
  exact ⟨cs, _, _, Real.sqrt (1 / 2), tradeoff_betas, rfl, fun _ _ => rfl, rfl, hcs, fun w x => Iff.rfl, fun w x => Iff.rfl, shifted_min _ _ _ cs hcs⟩

/-- Without the same budget, portfolios do not earn the same more: nothing invested earns nothing, everything in one asset 1 % more. -/
example : netExpectedReturn (shifted (frontierAssets 0 0) 1 (1 / 100)) ![0, 0] = 0 ∧ netExpectedReturn (shifted (frontierAssets 0 0) 1 (1 / 100)) ![1, 0] = 1 / 100 := by
  constructor <;> simp [netExpectedReturn, shifted, frontierAssets, twoAssets, muUncertainty, Fin.sum_univ_two]

end Skfolio.Convex
