import Verif.Convex.TradeOffTheorems

/-! **C118.** The efficient frontier is convex: between two targets the least risk is at most that on the straight line, and the greatest expected return is a concave function of a limit on the risk. -/
set_option autoImplicit false

namespace Skfolio.Convex

open Skfolio.Measures

section
variable {n T : Nat}

/-- The problem with the limit `x` on the risk measure `r` (`max_variance` and so on), in place of the limit on it if there is one. -/
def withRiskLimit (m : MeanRisk n T) (r : RiskMeasure) (x : ℝ) : MeanRisk n T := { m with riskLimits := fun q => if q = r then some x else m.riskLimits q }

section
variable (P : Partition ℝ) (m : MeanRisk n T) (hs : 0 < m.scale) (hso : 0 < m.scaleObjective) (hT : 2 ≤ T) (hb : BetasOk m) (hmip : isMip m.weights = false) (cs : List (Constraint ℝ n))
  (hcs : getWeightConstraints m.weights (factorIsVariable m) true m.scale = .ok cs) (R : (Fin n → ℝ) → ℝ) (hR : IsRiskOf P m m.riskMeasure R)
  (hu : ∀ kappa S, m.uncertainty = some (kappa, S) → 0 ≤ kappa) (hl1 : 0 ≤ m.l1Coef) (hl2 : 0 ≤ m.l2Coef)
include hs hso hT hb hmip hcs hu hl1 hl2

include hR in
/-- **C118.** The least risk (plus penalty) for a target return between two others is at most the mean of theirs, weighted like the targets: the frontier is convex. -/
theorem C118_risk_convex (ho : m.objective = .minimizeRisk) (x₁ x₂ t : ℝ) (h0 : 0 ≤ t) (h1 : t ≤ 1) (w₁ w₂ w : Fin n → ℝ) (a₁ : (riskProgram m m.riskMeasure w₁ 1).Aux) (a₂ : (riskProgram m m.riskMeasure w₂ 1).Aux)
    (a : (riskProgram m m.riskMeasure w 1).Aux) (h₁ : IsOptimum (withTarget m x₁) cs w₁ 1 a₁) (h₂ : IsOptimum (withTarget m x₂) cs w₂ 1 a₂) (h : IsOptimum (withTarget m ((1 - t) * x₁ + t * x₂)) cs w 1 a) :
    R w + penalty m w ≤ (1 - t) * (R w₁ + penalty m w₁) + t * (R w₂ + penalty m w₂) := by
  have hr : m.objective ≠ .maximizeRatio := by rw [ho]; decide
  obtain ⟨f₁, g₁⟩ := (feasible_target m x₁ hs cs w₁ a₁).1 h₁.1
  obtain ⟨f₂, g₂⟩ := (feasible_target m x₂ hs cs w₂ a₂).1 h₂.1
  have e := optimum_risk P m hs hso hT hb ho cs R hR _ w a h
  have e₁ := optimum_risk P m hs hso hT hb ho cs R hR _ w₁ a₁ h₁
  have e₂ := optimum_risk P m hs hso hT hb ho cs R hR _ w₂ a₂ h₂
  rcases h0.eq_or_lt with rfl | h0
  · have := optimum_le m hs hso ho cs _ w a h w₁ a₁ f₁ (by simpa using g₁)
    rw [e, e₁] at this
    linarith
  rcases h1.eq_or_lt with rfl | h1
  · have := optimum_le m hs hso ho cs _ w a h w₂ a₂ f₂ (by simpa using g₂)
    rw [e, e₂] at this
    linarith
  obtain ⟨c, hc, hle⟩ := feasible_mix m hs hT hr hmip cs hcs hu t h0 h1 w₁ w₂ a₁ f₁ a₂ f₂
  have hret := return_mix m hu t h0.le h1.le w₁ w₂
  have hpen := penalty_mix m hl1 hl2 t h0.le h1.le w₁ w₂
  have h3 : (1 - t) * x₁ + t * x₂ ≤ netExpectedReturn m (mix t w₁ w₂) := by
    have := mul_le_mul_of_nonneg_left g₁ (sub_pos.2 h1).le
    have := mul_le_mul_of_nonneg_left g₂ h0.le
    linarith
  have := optimum_le m hs hso ho cs _ w a h _ c hc h3
  rw [e] at this
  rw [e₁, e₂] at hle
  linarith

include hR in
/-- **C118.** On the frontier that `efficient_frontier_size` computes, the risk (plus penalty) of every inner portfolio is at most the mean of those of its two neighbours. -/
theorem C118_frontier (ho : m.objective = .minimizeRisk) (size : Int) (w0 w1 : Fin n → ℝ) (targets : List ℝ) (ws : List (Fin n → ℝ)) (h : FrontierRun m cs size w0 w1 targets ws) (i : Nat) (hi : i + 2 < ws.length) :
    R ws[i + 1] + penalty m ws[i + 1] ≤ ((R ws[i] + penalty m ws[i]) + (R ws[i + 2] + penalty m ws[i + 2])) / 2 := by
  have hlen := h.points.length_eq
  obtain ⟨a₁, h₁⟩ := h.points.get (i := i) (by omega) (by omega)
  obtain ⟨a, h'⟩ := h.points.get (i := i + 1) (by omega) (by omega)
  obtain ⟨a₂, h₂⟩ := h.points.get (i := i + 2) (by omega) (by omega)
  obtain ⟨-, -, -, d, hd⟩ := (C68_targets m.objective _ _ size).2 targets h.targets_eq
  have d1 := hd i (by omega)
  have d2 := hd (i + 1) (by omega)
  simp only [List.get_eq_getElem] at h₁ h' h₂
  have e : (1 - 1 / 2) * targets[i]'(by omega) + 1 / 2 * targets[i + 2]'(by omega) = targets[i + 1]'(by omega) := by linarith
  have : R ws[i + 1] + penalty m ws[i + 1] ≤ (1 - 1 / 2) * (R ws[i] + penalty m ws[i]) + 1 / 2 * (R ws[i + 2] + penalty m ws[i + 2]) := C118_risk_convex P m hs hso hT hb hmip cs hcs R hR hu hl1 hl2 ho _ _ (1 / 2) (by norm_num) (by norm_num) _ _ _ a₁ a₂ a h₁ h₂ (by rw [e]; exact h')
  linarith

omit hb in
/-- **C118.** The greatest expected return (less penalty) under a limit on a risk measure is a concave function of the limit. -/
theorem C118_return_concave (ho : m.objective = .maximizeReturn) (r : RiskMeasure) (x₁ x₂ t : ℝ) (h0 : 0 < t) (h1 : t < 1) (w₁ w₂ w : Fin n → ℝ) (k₁ k₂ k : ℝ)
    (a₁ : (riskProgram m m.riskMeasure w₁ k₁).Aux) (a₂ : (riskProgram m m.riskMeasure w₂ k₂).Aux) (a : (riskProgram m m.riskMeasure w k).Aux)
    (h₁ : IsOptimum (withRiskLimit m r x₁) cs w₁ k₁ a₁) (h₂ : IsOptimum (withRiskLimit m r x₂) cs w₂ k₂ a₂) (h : IsOptimum (withRiskLimit m r ((1 - t) * x₁ + t * x₂)) cs w k a) :
    (1 - t) * (netExpectedReturn m (returnedWeights w₁ k₁) - penalty m (returnedWeights w₁ k₁)) + t * (netExpectedReturn m (returnedWeights w₂ k₂) - penalty m (returnedWeights w₂ k₂)) ≤
      netExpectedReturn m (returnedWeights w k) - penalty m (returnedWeights w k) := by
  have hr : m.objective ≠ .maximizeRatio := by rw [ho]; decide
  obtain rfl : k₁ = 1 := h₁.1.factor hr
  obtain rfl : k₂ = 1 := h₂.1.factor hr
  obtain rfl : k = 1 := h.1.factor hr
  rw [returned_one, returned_one, returned_one]
  -- without the limit on `r`
  have free : ∀ x (v : Fin n → ℝ) (b : (riskProgram m m.riskMeasure v 1).Aux), Feasible (withRiskLimit m r x) cs v 1 b →
      Feasible { m with riskLimits := fun q => if q = r then none else m.riskLimits q } cs v 1 b := by
    intro x v b hv
    refine ⟨hv.factor, hv.tracking, hv.turnover, hv.weight, hv.return', fun q y hy => ?_, hv.aux, hv.ratio⟩
    by_cases hq : q = r
    · have : (if q = r then none else m.riskLimits q) = some y := hy
      rw [if_pos hq] at this
      cases this
    · have h' : (if q = r then none else m.riskLimits q) = some y := hy
      rw [if_neg hq] at h'
      exact hv.risks q y (by change (if q = r then some x else m.riskLimits q) = some y; rw [if_neg hq, h'])
  have limit : ∀ x (v : Fin n → ℝ) (b : (riskProgram m m.riskMeasure v 1).Aux), Feasible (withRiskLimit m r x) cs v 1 b → ∃ c, (riskProgram m r v 1).feasible c ∧ (riskProgram m r v 1).risk c ≤ x := by
    intro x v b hv
    obtain ⟨c, hc, hle⟩ := hv.risks r x (by change (if r = r then some x else m.riskLimits r) = some x; rw [if_pos rfl])
    refine ⟨c, hc, ?_⟩
    have hle : (riskProgram m r v 1).risk c * m.scale ≤ x * 1 * m.scale := hle
    rwa [mul_le_mul_iff_left₀ hs, mul_one] at hle
  obtain ⟨c, hc, -⟩ := feasible_mix { m with riskLimits := fun q => if q = r then none else m.riskLimits q } hs hT hr hmip cs hcs hu t h0 h1 w₁ w₂ a₁ (free _ _ _ h₁.1) a₂ (free _ _ _ h₂.1)
  obtain ⟨b₁, hb₁, le₁⟩ := limit _ _ _ h₁.1
  obtain ⟨b₂, hb₂, le₂⟩ := limit _ _ _ h₂.1
  obtain ⟨b, hb', le⟩ := program_convex m hs hT r w₁ w₂ t h0 h1 b₁ hb₁ b₂ hb₂
  have hfeas : Feasible (withRiskLimit m r ((1 - t) * x₁ + t * x₂)) cs (mix t w₁ w₂) 1 c := by
    refine ⟨hc.factor, hc.tracking, hc.turnover, hc.weight, hc.return', fun q y hy => ?_, hc.aux, hc.ratio⟩
    have hy : (if q = r then some ((1 - t) * x₁ + t * x₂) else m.riskLimits q) = some y := hy
    by_cases hq : q = r
    · subst hq
      rw [if_pos rfl] at hy
      cases hy
      refine ⟨b, hb', ?_⟩
      change (riskProgram m q (mix t w₁ w₂) 1).risk b * m.scale ≤ _ * 1 * m.scale
      rw [mul_le_mul_iff_left₀ hs, mul_one]
      have := mul_le_mul_of_nonneg_left le₁ (sub_pos.2 h1).le
      have := mul_le_mul_of_nonneg_left le₂ h0.le
      linarith
    · rw [if_neg hq] at hy
      exact hc.risks q y (by change (if q = r then none else m.riskLimits q) = some y; rw [if_neg hq, hy])
  have hopt := h.2 _ _ c hfeas
  unfold objectiveValue at hopt
  have ho' : ∀ x, (withRiskLimit m r x).objective = .maximizeReturn := fun _ => ho
  simp only [ho'] at hopt
  change -(expectedReturn m w 1 * m.scaleObjective - penalty m w * m.scaleObjective) ≤ -(expectedReturn m (mix t w₁ w₂) 1 * m.scaleObjective - penalty m (mix t w₁ w₂) * m.scaleObjective) at hopt
  rw [neg_le_neg_iff, ← sub_mul, ← sub_mul, mul_le_mul_iff_left₀ hso, expected_one, expected_one] at hopt
  have hret := return_mix m hu t h0.le h1.le w₁ w₂
  have hpen := penalty_mix m hl1 hl2 t h0.le h1.le w₁ w₂
  linarith

end

end

end Skfolio.Convex
