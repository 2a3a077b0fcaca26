import Verif.Convex.StabilityTheorems
import Verif.Convex.TradeOffExamples

/-! **C133**: concrete fits that meet the hypotheses. -/
set_option autoImplicit false

namespace Skfolio.Convex

open Skfolio.Measures

/-- The two assets, with returns 1 % higher at the second observation and expected returns 1/2 % higher. -/
noncomputable def nudgedAssets (x y : ℝ) : MeanRisk 2 2 :=
  { frontierAssets x y with
    data := { (frontierAssets x y).data with returns := fun t i => (frontierAssets x y).data.returns t i + (if t = 0 then 0 else 1 / 100), mu := fun i => (frontierAssets x y).data.mu i + 1 / 200 } }

theorem nudged_nudged (x y : ℝ) : Nudged (1 / 100) (1 / 200) 0 (frontierAssets x y) (nudgedAssets x y) := by
  refine ⟨rfl, fun t i => ?_, fun i => ?_, fun i j => ?_⟩
  · simp only [nudgedAssets]
    rw [sub_add_cancel_left, abs_neg]
    split <;> norm_num [abs_le]
  · simp only [nudgedAssets]
    rw [sub_add_cancel_left, abs_neg]
    norm_num [abs_le]
  · simp [covarianceOf, nudgedAssets]

theorem nudged_min (x y : ℝ) (cs : List (Constraint ℝ 2)) (hcs : getWeightConstraints longOnly false true (1 : ℝ) = .ok cs) : IsOptimum (nudgedAssets x y) cs ![1 / 2, 1 / 2] 1 (Real.sqrt (1 / 2)) := by
  have e : ∀ w k (v : ℝ), Feasible (nudgedAssets x y) cs w k v ↔ Feasible { frontierAssets x y with objective := .minimizeRisk } cs w k v := by
    intro w k v
    constructor
    · exact fun h => ⟨h.factor, fun x hx => (by cases hx), h.turnover, h.weight, fun x hx => (by cases hx), fun r x hx => (by cases hx), h.aux, fun h => (by cases h)⟩
    · exact fun h => ⟨h.factor, fun x hx => (by cases hx), h.turnover, h.weight, fun x hx => (by cases hx), fun r x hx => (by cases hx), h.aux, fun h => (by cases h)⟩
  have h := frontier_min x y cs hcs
  exact ⟨(e _ _ _).2 h.1, fun w' k' (v : ℝ) hv => h.2 w' k' v ((e _ _ _).1 hv)⟩

example : ∃ (cs : List (Constraint ℝ 2)) (a a' : ℝ), Nudged (1 / 100) (1 / 200) 0 (frontierAssets (4 / 100) (2 / 100)) (nudgedAssets (4 / 100) (2 / 100)) ∧
    NoDataLimits (frontierAssets (4 / 100) (2 / 100)) ∧ (∀ P w, Within P (frontierAssets (4 / 100) (2 / 100)) w → ∑ i, |w i| ≤ 1) ∧ BetasOk (frontierAssets (4 / 100) (2 / 100)) ∧
    getWeightConstraints (frontierAssets (4 / 100) (2 / 100)).weights (factorIsVariable (frontierAssets (4 / 100) (2 / 100))) true 1 = .ok cs ∧
    IsOptimum (frontierAssets (4 / 100) (2 / 100)) cs ![1 / 2, 1 / 2] 1 a ∧ IsOptimum (nudgedAssets (4 / 100) (2 / 100)) cs ![1 / 2, 1 / 2] 1 a' := by
  obtain ⟨cs, hcs⟩ := frontier_ok
  exact ⟨cs, Real.sqrt (1 / 2), Real.sqrt (1 / 2), nudged_nudged _ _, ⟨rfl, rfl, fun _ => rfl⟩,
    fun P w hw => (C133_long_only longOnly (fun _ => 0) rfl (fun _ => le_rfl) 1 rfl w hw.limits).le, tradeoff_betas, hcs, frontier_min _ _ cs hcs, nudged_min _ _ cs hcs⟩

end Skfolio.Convex
