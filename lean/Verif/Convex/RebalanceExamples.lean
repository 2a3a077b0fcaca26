import Verif.Convex.RebalanceTheorems
import Verif.Convex.RobustnessExamples

/-! **C135**: concrete fits that meet the hypotheses. -/
set_option autoImplicit false

namespace Skfolio.Convex

open Skfolio.Measures

/-- Expected returns of 4 % and 2 %; everything is already in the first asset, and trading costs 1 %. -/
noncomputable def settledAssets : MeanRisk 2 2 :=
  { frontierAssets (4 / 100) (2 / 100) with
    objective := .maximizeReturn
    data := { (frontierAssets (4 / 100) (2 / 100)).data with previousWeights := ![1, 0], transactionCosts := fun _ => 1 / 100 } }

theorem settled_feasible (cs : List (Constraint ℝ 2)) (hcs : getWeightConstraints longOnly false true (1 : ℝ) = .ok cs) (w : Fin 2 → ℝ) (k v : ℝ) :
    Feasible (withCosts settledAssets 0) cs w k v ↔ k = 1 ∧ 0 ≤ w 0 ∧ 0 ≤ w 1 ∧ w 0 + w 1 = 1 ∧ 0 ≤ v ∧ Real.sqrt (w 0 ^ 2 + w 1 ^ 2) ≤ v := by
  have key := frontier_feasible (4 / 100) (2 / 100) .maximizeReturn (by decide) [] cs hcs w k v
  have e : Feasible (withCosts settledAssets 0) cs w k v ↔ Feasible { frontierAssets (4 / 100) (2 / 100) with objective := .maximizeReturn, minReturns := [] } cs w k v := by
    constructor
    · exact fun h => ⟨h.factor, h.tracking, fun x hx => (by cases hx), h.weight, fun x hx => (by cases hx), fun r x hx => (by cases hx), h.aux, fun h => (by cases h)⟩
    · exact fun h => ⟨h.factor, h.tracking, fun x hx => (by cases hx), h.weight, fun x hx => (by cases hx), fun r x hx => (by cases hx), h.aux, fun h => (by cases h)⟩
  rw [e, key]
  simp

theorem settled_expected (w : Fin 2 → ℝ) : expectedReturn (withCosts settledAssets 0) w 1 = 4 / 100 * w 0 + 2 / 100 * w 1 := by
  rw [expected_one]
  simp [netExpectedReturn, withCosts, settledAssets, frontierAssets, twoAssets, muUncertainty, Fin.sum_univ_two]
  ring

/-- The previous weights are the optimum without costs. -/
theorem settled_optimum (cs : List (Constraint ℝ 2)) (hcs : getWeightConstraints longOnly false true (1 : ℝ) = .ok cs) : IsOptimum (withCosts settledAssets 0) cs settledAssets.data.previousWeights 1 (1 : ℝ) := by
  refine ⟨(settled_feasible cs hcs _ _ _).2 ⟨rfl, by simp [settledAssets], by simp [settledAssets], by simp [settledAssets], zero_le_one, by simp [settledAssets]⟩, ?_⟩
  intro w' k' (x : ℝ) h
  obtain ⟨rfl, g0, g1, hs, -⟩ := (settled_feasible cs hcs _ _ _).1 h
  change -(expectedReturn (withCosts settledAssets 0) ![1, 0] 1 * 1 - (0 * _ + 0 * _) * 1) ≤ -(expectedReturn (withCosts settledAssets 0) w' 1 * 1 - (0 * _ + 0 * _) * 1)
  rw [settled_expected, settled_expected]
  simp only [Matrix.cons_val_zero, Matrix.cons_val_one]
  linarith

/-- `C135_stays`: with costs of 1 %, the previous weights are optimal, and nothing else is. -/
example : ∃ cs, getWeightConstraints settledAssets.weights (factorIsVariable settledAssets) true settledAssets.scale = .ok cs ∧ (∃ a, IsOptimum settledAssets cs ![1, 0] 1 a) ∧
    ∀ w k a, IsOptimum settledAssets cs w k a → returnedWeights w k = ![1, 0] := by
  obtain ⟨cs, hcs⟩ := frontier_ok
  obtain ⟨h1, h2⟩ := C135_stays settledAssets one_pos one_pos le_rfl (by decide) cs _ (settled_optimum cs hcs)
  exact ⟨cs, hcs, h1, fun w k a h => funext fun i => h2 (.inl rfl) w k a h i (by norm_num [settledAssets])⟩

/-- `C135_no_trade`: everything is in the second asset, the first has 2 % more expected return, and buying and selling cost 2 % each. The hypotheses hold, an optimum exists, and it is to trade nothing. -/
example : ∃ (cs : List (Constraint ℝ 2)), getWeightConstraints (withCosts costlyAssets (2 / 100)).weights (factorIsVariable (withCosts costlyAssets (2 / 100))) true (withCosts costlyAssets (2 / 100)).scale = .ok cs ∧
    (∃ a, IsOptimum (withCosts costlyAssets (2 / 100)) cs ![0, 1] 1 a) ∧ ∀ w k a, IsOptimum (withCosts costlyAssets (2 / 100)) cs w k a → returnedWeights w k = ![0, 1] := by
  obtain ⟨cs, hcs⟩ := frontier_ok
  have hR : IsRiskOf (sortPartition ℝ) (withCosts costlyAssets (2 / 100)) (withCosts costlyAssets (2 / 100)).riskMeasure (fun w => Real.sqrt (∑ i, ∑ j, w i * covarianceOf costlyAssets i j * w j)) := fun w x => Iff.rfl
  refine ⟨cs, hcs, ⟨(1 : ℝ), (costly_feasible (2 / 100) cs hcs _ _ _).2 ⟨rfl, by simp, by simp, by simp, zero_le_one, by simp⟩, ?_⟩, fun w k a h => ?_⟩
  · intro w' k' (x : ℝ) h
    obtain ⟨rfl, g0, g1, hs, -⟩ := (costly_feasible (2 / 100) cs hcs _ _ _).1 h
    change -(expectedReturn (withCosts costlyAssets (2 / 100)) ![0, 1] 1 * 1 - (0 * _ + 0 * _) * 1) ≤ -(expectedReturn (withCosts costlyAssets (2 / 100)) w' 1 * 1 - (0 * _ + 0 * _) * 1)
    rw [costly_expected _ (by norm_num), costly_expected _ (by norm_num)]
    simp only [Matrix.cons_val_zero, Matrix.cons_val_one, abs_zero, sub_self]
    linarith [le_abs_self (w' 0), neg_abs_le (w' 1 - 1)]
  · have hprev : Comparable (sortPartition ℝ) (withCosts costlyAssets (2 / 100)) (withCosts costlyAssets (2 / 100)).data.previousWeights := by
      have hw := (feasible_within (sortPartition ℝ) (withCosts costlyAssets (2 / 100)) one_pos le_rfl tradeoff_betas (by decide) cs hcs ![0, 1] 1 (1 : ℝ)
        ((costly_feasible (2 / 100) cs hcs _ _ _).2 ⟨rfl, by simp, by simp, by simp, zero_le_one, by simp⟩)).2
      exact ⟨hw, fun r _ x hx => (by cases hx), fun hm => (by cases hm)⟩
    refine C135_no_trade (sortPartition ℝ) (withCosts costlyAssets (2 / 100)) one_pos one_pos le_rfl tradeoff_betas cs hcs _ hR hprev rfl zero_le_one rfl rfl rfl ?_ ?_ w k a h
    · simp [withCosts, costlyAssets, frontierAssets, twoAssets, longOnly, noLimits, Fin.sum_univ_two]
    · intro i j
      fin_cases i <;> fin_cases j <;> norm_num [withCosts, costlyAssets, frontierAssets, twoAssets, returnVector]

/-- `C135_minimum_risk_ignores_costs`: with half in each asset as the least risk, it is also what is returned if everything was in the first asset and trading costs 100 %. -/
example : ∃ cs, getWeightConstraints longOnly false true (1 : ℝ) = .ok cs ∧ ∃ a, IsOptimum (withTrading (frontierAssets (4 / 100) (2 / 100)) ![1, 0] fun _ => 1) cs ![1 / 2, 1 / 2] 1 a := by
  obtain ⟨cs, hcs⟩ := frontier_ok
  exact ⟨cs, hcs, (C135_minimum_risk_ignores_costs (frontierAssets (4 / 100) (2 / 100)) rfl rfl rfl rfl (fun _ => rfl) ![1, 0] (fun _ => 1) cs ![1 / 2, 1 / 2] 1).2 ⟨_, frontier_min (4 / 100) (2 / 100) cs hcs⟩⟩

end Skfolio.Convex
