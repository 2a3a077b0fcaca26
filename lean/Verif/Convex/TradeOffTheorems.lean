import Verif.Convex.UniqueTheorems
import Verif.Convex.FrontierExamples

/-!
**C117.** Parameters that trade one goal against another move the portfolio in the direction of their name, and the portfolios of all objectives are efficient. **C118.** The efficient frontier is convex.
-/
set_option autoImplicit false

namespace Skfolio.Convex

open Skfolio.Measures

section
variable {n T : Nat}

/-! ### Specification -/

/-- What an objective asks to be small, apart from the penalty: the risk, the expected return with the sign changed, or the utility with the sign changed. The ratio is not of this form and is left out. -/
noncomputable def criterion (m : MeanRisk n T) (R : (Fin n → ℝ) → ℝ) (w : Fin n → ℝ) : ℝ :=
  match m.objective with
  | .minimizeRisk => R w
  | .maximizeReturn => -netExpectedReturn m w
  | .maximizeUtility => -(netExpectedReturn m w - m.riskAversion * R w)
  | .maximizeRatio => 0

/-! ### The optimum minimises criterion and penalty -/

theorem other_aux {m : MeanRisk n T} {cs : List (Constraint ℝ n)} {w : Fin n → ℝ} {k : ℝ} {a : (riskProgram m m.riskMeasure w k).Aux} (h : Feasible m cs w k a)
    (b : (riskProgram m m.riskMeasure w k).Aux) (hb : (riskProgram m m.riskMeasure w k).feasible b) : Feasible m cs w k b :=
  ⟨h.factor, h.tracking, h.turnover, h.weight, h.return', h.risks, hb, h.ratio⟩

/-- The optimum has the least criterion plus penalty of all points of the problem. -/
theorem optimum_criterion (P : Partition ℝ) (m : MeanRisk n T) (hs : 0 < m.scale) (hso : 0 < m.scaleObjective) (hT : 2 ≤ T) (hb : BetasOk m) (cs : List (Constraint ℝ n)) (R : (Fin n → ℝ) → ℝ)
    (hR : IsRiskOf P m m.riskMeasure R) (hr : m.objective ≠ .maximizeRatio) (ha0 : 0 ≤ m.riskAversion) (w : Fin n → ℝ) (a : (riskProgram m m.riskMeasure w 1).Aux) (h : IsOptimum m cs w 1 a)
    (w' : Fin n → ℝ) (a' : (riskProgram m m.riskMeasure w' 1).Aux) (h' : Feasible m cs w' 1 a') : criterion m R w + penalty m w ≤ criterion m R w' + penalty m w' := by
  obtain ⟨x, y, hx, hy, hform, hc⟩ : ∃ x y : ℝ, 0 ≤ x ∧ 0 ≤ y ∧
      (∀ (w : Fin n → ℝ) a, objectiveValue m w 1 a = (x * (riskProgram m m.riskMeasure w 1).risk a - y * netExpectedReturn m w + penalty m w) * m.scaleObjective) ∧
      ∀ w, criterion m R w = x * R w - y * netExpectedReturn m w := by
    unfold criterion objectiveValue
    simp only [expected_one, penalty_eq]
    cases ho : m.objective with
    | maximizeReturn => exact ⟨0, 1, le_rfl, zero_le_one, fun w a => by ring, fun w => by ring⟩
    | minimizeRisk => exact ⟨1, 0, zero_le_one, le_rfl, fun w a => by ring, fun w => by ring⟩
    | maximizeUtility => exact ⟨m.riskAversion, 1, ha0, zero_le_one, fun w a => by ring, fun w => by ring⟩
    | maximizeRatio => exact absurd ho hr
  have hopt : ∀ b, (riskProgram m m.riskMeasure w' 1).feasible b →
      x * (riskProgram m m.riskMeasure w 1).risk a - y * netExpectedReturn m w + penalty m w ≤ x * (riskProgram m m.riskMeasure w' 1).risk b - y * netExpectedReturn m w' + penalty m w' := by
    intro b hb'
    have := h.2 w' 1 b (other_aux h' b hb')
    rw [hform, hform] at this
    exact (mul_le_mul_iff_left₀ hso).1 this
  have h1 := mul_le_mul_of_nonneg_left ((risk_glb P m hs hT hb _ R hR w).1 a h.1.aux) hx
  rw [hc, hc]
  rcases hx.eq_or_lt with h0 | h0
  · have := hopt a' h'.aux
    rw [← h0] at this ⊢
    linarith
  · have key : (x * R w - y * netExpectedReturn m w + penalty m w + y * netExpectedReturn m w' - penalty m w') / x ≤ R w' := by
      refine (risk_glb P m hs hT hb _ R hR w').2 _ fun b hb' => ?_
      rw [div_le_iff₀ h0]
      linarith [hopt b hb']
    rw [div_le_iff₀ h0] at key
    linarith

/-! ### C117 -/

/-- If `x₁` minimises `F + c₁ G` and `x₂` minimises `F + c₂ G` with `c₁ < c₂`, then `x₂` has the smaller `G` and, for `c₁ ≥ 0`, the greater `F`. -/
theorem parametric {F₁ F₂ G₁ G₂ c₁ c₂ : ℝ} (hc : c₁ < c₂) (h₁ : F₁ + c₁ * G₁ ≤ F₂ + c₁ * G₂) (h₂ : F₂ + c₂ * G₂ ≤ F₁ + c₂ * G₁) : G₂ ≤ G₁ ∧ (0 ≤ c₁ → F₁ ≤ F₂) := by
  have h : G₂ ≤ G₁ := by
    by_contra hlt
    nlinarith [not_le.1 hlt]
  exact ⟨h, fun h0 => by nlinarith [mul_le_mul_of_nonneg_left h h0]⟩

section
variable (P : Partition ℝ) (m : MeanRisk n T) (hs : 0 < m.scale) (hso : 0 < m.scaleObjective) (hT : 2 ≤ T) (hb : BetasOk m) (cs : List (Constraint ℝ n)) (R : (Fin n → ℝ) → ℝ)
  (hR : IsRiskOf P m m.riskMeasure R)
include hs hso hT hb hR

/-- **C117.** `MAXIMIZE_UTILITY`: a greater `risk_aversion` gives a portfolio with no more risk and no more expected return (less penalty). -/
theorem C117_risk_aversion (ho : m.objective = .maximizeUtility) (c₁ c₂ : ℝ) (h0 : 0 ≤ c₁) (hc : c₁ < c₂) (w₁ w₂ : Fin n → ℝ) (k₁ k₂ : ℝ) (a₁ : (riskProgram m m.riskMeasure w₁ k₁).Aux) (a₂ : (riskProgram m m.riskMeasure w₂ k₂).Aux)
    (h₁ : IsOptimum { m with riskAversion := c₁ } cs w₁ k₁ a₁) (h₂ : IsOptimum { m with riskAversion := c₂ } cs w₂ k₂ a₂) :
    R (returnedWeights w₂ k₂) ≤ R (returnedWeights w₁ k₁) ∧
      netExpectedReturn m (returnedWeights w₂ k₂) - penalty m (returnedWeights w₂ k₂) ≤ netExpectedReturn m (returnedWeights w₁ k₁) - penalty m (returnedWeights w₁ k₁) := by
  have hr : m.objective ≠ .maximizeRatio := by rw [ho]; decide
  obtain rfl : k₁ = 1 := h₁.1.factor hr
  obtain rfl : k₂ = 1 := h₂.1.factor hr
  rw [returned_one, returned_one]
  have hf₁ : Feasible { m with riskAversion := c₂ } cs w₁ 1 a₁ := ⟨h₁.1.factor, h₁.1.tracking, h₁.1.turnover, h₁.1.weight, h₁.1.return', h₁.1.risks, h₁.1.aux, h₁.1.ratio⟩
  have hf₂ : Feasible { m with riskAversion := c₁ } cs w₂ 1 a₂ := ⟨h₂.1.factor, h₂.1.tracking, h₂.1.turnover, h₂.1.weight, h₂.1.return', h₂.1.risks, h₂.1.aux, h₂.1.ratio⟩
  have g₁ := optimum_criterion P { m with riskAversion := c₁ } hs hso hT hb cs R hR hr h0 w₁ a₁ h₁ w₂ a₂ hf₂
  have g₂ := optimum_criterion P { m with riskAversion := c₂ } hs hso hT hb cs R hR hr (h0.trans hc.le) w₂ a₂ h₂ w₁ a₁ hf₁
  unfold criterion at g₁ g₂
  simp only [ho] at g₁ g₂
  change -(netExpectedReturn m w₁ - c₁ * R w₁) + penalty m w₁ ≤ -(netExpectedReturn m w₂ - c₁ * R w₂) + penalty m w₂ at g₁
  change -(netExpectedReturn m w₂ - c₂ * R w₂) + penalty m w₂ ≤ -(netExpectedReturn m w₁ - c₂ * R w₁) + penalty m w₁ at g₂
  obtain ⟨g, g'⟩ := parametric (F₁ := penalty m w₁ - netExpectedReturn m w₁) (F₂ := penalty m w₂ - netExpectedReturn m w₂) (G₁ := R w₁) (G₂ := R w₂) hc (by linarith) (by linarith)
  exact ⟨g, by linarith [g' h0]⟩

/-- **C117.** A greater `l2_coef` gives weights with no greater sum of squares, and no better criterion (with the other penalty), for every objective other than the ratio. -/
theorem C117_l2 (hr : m.objective ≠ .maximizeRatio) (ha0 : 0 ≤ m.riskAversion) (c₁ c₂ : ℝ) (hc : c₁ < c₂) (w₁ w₂ : Fin n → ℝ) (k₁ k₂ : ℝ) (a₁ : (riskProgram m m.riskMeasure w₁ k₁).Aux) (a₂ : (riskProgram m m.riskMeasure w₂ k₂).Aux)
    (h₁ : IsOptimum { m with l2Coef := c₁ } cs w₁ k₁ a₁) (h₂ : IsOptimum { m with l2Coef := c₂ } cs w₂ k₂ a₂) :
    ∑ i, returnedWeights w₂ k₂ i ^ 2 ≤ ∑ i, returnedWeights w₁ k₁ i ^ 2 ∧
      (0 ≤ c₁ → criterion m R (returnedWeights w₁ k₁) + m.l1Coef * ∑ i, |returnedWeights w₁ k₁ i| ≤ criterion m R (returnedWeights w₂ k₂) + m.l1Coef * ∑ i, |returnedWeights w₂ k₂ i|) := by
  obtain rfl : k₁ = 1 := h₁.1.factor hr
  obtain rfl : k₂ = 1 := h₂.1.factor hr
  rw [returned_one, returned_one]
  have hf₁ : Feasible { m with l2Coef := c₂ } cs w₁ 1 a₁ := ⟨h₁.1.factor, h₁.1.tracking, h₁.1.turnover, h₁.1.weight, h₁.1.return', h₁.1.risks, h₁.1.aux, h₁.1.ratio⟩
  have hf₂ : Feasible { m with l2Coef := c₁ } cs w₂ 1 a₂ := ⟨h₂.1.factor, h₂.1.tracking, h₂.1.turnover, h₂.1.weight, h₂.1.return', h₂.1.risks, h₂.1.aux, h₂.1.ratio⟩
  have g₁ := optimum_criterion P { m with l2Coef := c₁ } hs hso hT hb cs R hR hr ha0 w₁ a₁ h₁ w₂ a₂ hf₂
  have g₂ := optimum_criterion P { m with l2Coef := c₂ } hs hso hT hb cs R hR hr ha0 w₂ a₂ h₂ w₁ a₁ hf₁
  change criterion m R w₁ + (m.l1Coef * (∑ i, |w₁ i|) + c₁ * ∑ i, w₁ i ^ 2) ≤ criterion m R w₂ + (m.l1Coef * (∑ i, |w₂ i|) + c₁ * ∑ i, w₂ i ^ 2) at g₁
  change criterion m R w₂ + (m.l1Coef * (∑ i, |w₂ i|) + c₂ * ∑ i, w₂ i ^ 2) ≤ criterion m R w₁ + (m.l1Coef * (∑ i, |w₁ i|) + c₂ * ∑ i, w₁ i ^ 2) at g₂
  exact parametric hc (by linarith) (by linarith)

/-- **C117.** A greater `l1_coef` gives weights with no greater sum of absolute values, and no better criterion (with the other penalty), for every objective other than the ratio. -/
theorem C117_l1 (hr : m.objective ≠ .maximizeRatio) (ha0 : 0 ≤ m.riskAversion) (c₁ c₂ : ℝ) (hc : c₁ < c₂) (w₁ w₂ : Fin n → ℝ) (k₁ k₂ : ℝ) (a₁ : (riskProgram m m.riskMeasure w₁ k₁).Aux) (a₂ : (riskProgram m m.riskMeasure w₂ k₂).Aux)
    (h₁ : IsOptimum { m with l1Coef := c₁ } cs w₁ k₁ a₁) (h₂ : IsOptimum { m with l1Coef := c₂ } cs w₂ k₂ a₂) :
    ∑ i, |returnedWeights w₂ k₂ i| ≤ ∑ i, |returnedWeights w₁ k₁ i| ∧
      (0 ≤ c₁ → criterion m R (returnedWeights w₁ k₁) + m.l2Coef * ∑ i, returnedWeights w₁ k₁ i ^ 2 ≤ criterion m R (returnedWeights w₂ k₂) + m.l2Coef * ∑ i, returnedWeights w₂ k₂ i ^ 2) := by
  obtain rfl : k₁ = 1 := h₁.1.factor hr
  obtain rfl : k₂ = 1 := h₂.1.factor hr
  rw [returned_one, returned_one]
  have hf₁ : Feasible { m with l1Coef := c₂ } cs w₁ 1 a₁ := ⟨h₁.1.factor, h₁.1.tracking, h₁.1.turnover, h₁.1.weight, h₁.1.return', h₁.1.risks, h₁.1.aux, h₁.1.ratio⟩
  have hf₂ : Feasible { m with l1Coef := c₁ } cs w₂ 1 a₂ := ⟨h₂.1.factor, h₂.1.tracking, h₂.1.turnover, h₂.1.weight, h₂.1.return', h₂.1.risks, h₂.1.aux, h₂.1.ratio⟩
  have g₁ := optimum_criterion P { m with l1Coef := c₁ } hs hso hT hb cs R hR hr ha0 w₁ a₁ h₁ w₂ a₂ hf₂
  have g₂ := optimum_criterion P { m with l1Coef := c₂ } hs hso hT hb cs R hR hr ha0 w₂ a₂ h₂ w₁ a₁ hf₁
  change criterion m R w₁ + (c₁ * (∑ i, |w₁ i|) + m.l2Coef * ∑ i, w₁ i ^ 2) ≤ criterion m R w₂ + (c₁ * (∑ i, |w₂ i|) + m.l2Coef * ∑ i, w₂ i ^ 2) at g₁
  change criterion m R w₂ + (c₂ * (∑ i, |w₂ i|) + m.l2Coef * ∑ i, w₂ i ^ 2) ≤ criterion m R w₁ + (c₂ * (∑ i, |w₁ i|) + m.l2Coef * ∑ i, w₁ i ^ 2) at g₂
  exact parametric hc (by linarith) (by linarith)

/-- **C117.** The portfolio of greatest utility is efficient: no portfolio within the limits with at least its expected return (less penalty) has less risk, and none with at most its risk has a greater expected return (less penalty). -/
theorem C117_utility_efficient (hcs : getWeightConstraints m.weights (factorIsVariable m) true m.scale = .ok cs) (ho : m.objective = .maximizeUtility) (ha : 0 < m.riskAversion) (w : Fin n → ℝ) (k : ℝ)
    (a : (riskProgram m m.riskMeasure w k).Aux) (h : IsOptimum m cs w k a) (w' : Fin n → ℝ) (hw' : Comparable P m w') :
    (netExpectedReturn m (returnedWeights w k) - penalty m (returnedWeights w k) ≤ netExpectedReturn m w' - penalty m w' → R (returnedWeights w k) ≤ R w') ∧
      (R w' ≤ R (returnedWeights w k) → netExpectedReturn m w' - penalty m w' ≤ netExpectedReturn m (returnedWeights w k) - penalty m (returnedWeights w k)) := by
  have key := (C67_maximize_utility P m hs hso hT hb cs hcs R hR ho ha.le w k a h).2 w' hw'
  constructor
  · intro hret
    by_contra hlt
    nlinarith [mul_lt_mul_of_pos_left (not_le.1 hlt) ha]
  · intro hrisk
    nlinarith [mul_le_mul_of_nonneg_left hrisk ha.le]

end

/-- **C117.** Without risk aversion the utility is the expected return. -/
theorem C117_no_aversion (m : MeanRisk n T) (cs : List (Constraint ℝ n)) (w : Fin n → ℝ) (k : ℝ) (a : (riskProgram m m.riskMeasure w k).Aux) :
    IsOptimum { m with objective := .maximizeUtility, riskAversion := 0 } cs w k a ↔ IsOptimum { m with objective := .maximizeReturn } cs w k a := by
  have hf : ∀ w' k' (a' : (riskProgram m m.riskMeasure w' k').Aux), Feasible { m with objective := .maximizeUtility, riskAversion := 0 } cs w' k' a' ↔ Feasible { m with objective := .maximizeReturn } cs w' k' a' := by
    intro w' k' a'
    constructor
    · exact fun h => ⟨fun _ => h.factor (by simp), h.tracking, h.turnover, h.weight, h.return', h.risks, h.aux, fun h => (by cases h)⟩
    · exact fun h => ⟨fun _ => h.factor (by simp), h.tracking, h.turnover, h.weight, h.return', h.risks, h.aux, fun h => (by cases h)⟩
  have hv : ∀ w' k' (a' : (riskProgram m m.riskMeasure w' k').Aux), objectiveValue { m with objective := .maximizeUtility, riskAversion := 0 } w' k' a' = objectiveValue { m with objective := .maximizeReturn } w' k' a' := by
    intro w' k' a'
    change -(expectedReturn m w' k' * m.scaleObjective - 0 * (riskProgram m m.riskMeasure w' k').risk a' * m.scaleObjective - regularization m w' * m.scaleObjective) =
      -(expectedReturn m w' k' * m.scaleObjective - regularization m w' * m.scaleObjective)
    ring
  constructor
  · refine fun h => ⟨(hf w k a).1 h.1, fun w' k' a' h' => ?_⟩
    have := h.2 w' k' a' ((hf w' k' a').2 h')
    exact (hv w k a).symm.le.trans (this.trans (hv w' k' a').le)
  · refine fun h => ⟨(hf w k a).2 h.1, fun w' k' a' h' => ?_⟩
    have := h.2 w' k' a' ((hf w' k' a').1 h')
    exact (hv w k a).le.trans (this.trans (hv w' k' a').symm.le)

/-- **C117.** The portfolio of greatest ratio is efficient: no portfolio within the limits with at least its excess return has less risk (with penalty), and none with at most its risk has a greater excess return. -/
theorem C117_ratio_efficient (m : MeanRisk n T) (hs : 0 < m.scale) (hso : 0 < m.scaleObjective) (cs : List (Constraint ℝ n)) (hr : m.objective = .maximizeRatio)
    (hcs : getWeightConstraints m.weights (factorIsVariable m) true m.scale = .ok cs) (hte : m.maxTrackingError = none) (hvar : m.riskLimits .variance = none) (hsv : m.riskLimits .semiVariance = none)
    (h1 : degree m.riskMeasure = 1 → m.l2Coef = 0) (h2 : degree m.riskMeasure = 2 → m.l1Coef = 0) (hmip : isMip m.weights = false)
    (w : Fin n → ℝ) (k : ℝ) (hk : 0 < k) (a : (riskProgram m m.riskMeasure w k).Aux) (h : IsOptimum m cs w k a)
    (rho : ℝ) (hrho : IsOptimalValue (riskProgram m m.riskMeasure (returnedWeights w k) 1) rho)
    (w' : Fin n → ℝ) (hw' : Allowed m w') (he : 0 < excessReturn m w')
    (rho' : ℝ) (hrho' : IsOptimalValue (riskProgram m m.riskMeasure w' 1) rho') (hpos : 0 ≤ penalised m rho' w') :
    (excessReturn m (returnedWeights w k) ≤ excessReturn m w' → penalised m rho (returnedWeights w k) ≤ penalised m rho' w') ∧
      (0 < penalised m rho (returnedWeights w k) → penalised m rho' w' ≤ penalised m rho (returnedWeights w k) → excessReturn m w' ≤ excessReturn m (returnedWeights w k)) := by
  obtain ⟨hE, key⟩ := C18_ratio m hs hso cs hr hcs hte hvar hsv h1 h2 w k hk a h rho hrho w' hw' he (fun hm => by rw [hmip] at hm; cases hm) rho' hrho' (Or.inr hpos)
  have hd : degree m.riskMeasure ≠ 0 := by cases m.riskMeasure <;> decide
  constructor
  · intro hret
    by_contra hlt
    have hlt := not_le.1 hlt
    have g1 := mul_le_mul_of_nonneg_right (pow_le_pow_left₀ hE.le hret (degree m.riskMeasure)) (hpos.trans hlt.le)
    have g2 := mul_lt_mul_of_pos_left hlt (pow_pos hE (degree m.riskMeasure))
    linarith
  · intro h0 hle
    have g1 := mul_le_mul_of_nonneg_left hle (pow_nonneg hE.le (degree m.riskMeasure))
    exact (pow_le_pow_iff_left₀ he.le hE.le hd).1 ((mul_le_mul_iff_left₀ h0).1 (key.trans g1))

end

end Skfolio.Convex
