import Verif.Convex.Homogeneous
import Verif.Convex.MeanRiskSpec
import Verif.Convex.MipTheorems

/-! C18 and C19. -/
set_option autoImplicit false

namespace Skfolio.Convex

open Skfolio.Measures

section
variable {n T : Nat}

/-! ### the programs at scale 1 are the measures -/

theorem atMost_of_optimal {p : Program ℝ} {v : ℝ} (h : IsOptimalValue p v) (x : ℝ) : (∃ a, p.feasible a ∧ p.risk a ≤ x) ↔ v ≤ x := by
  constructor
  · rintro ⟨a, ha, hx⟩
    exact (h.2 a ha).trans hx
  · intro hx
    obtain ⟨a, ha, he⟩ := h.1
    exact ⟨a, ha, he.trans_le hx⟩

theorem atMost_of_some {p : Program ℝ} {o : Option ℝ} (h : ∃ v, o = some v ∧ IsOptimalValue p v) (x : ℝ) :
    (∃ a, p.feasible a ∧ p.risk a ≤ x) ↔ ∃ v, o = some v ∧ v ≤ x := by
  obtain ⟨v, rfl, hv⟩ := h
  rw [atMost_of_optimal hv]
  constructor
  · exact fun h => ⟨v, rfl, h⟩
  · rintro ⟨u, hu, hx⟩
    rw [Option.some.inj hu]
    exact hx

/-- Admissible confidence levels. -/
def BetasOk (m : MeanRisk n T) : Prop :=
  (0 ≤ m.cvarBeta ∧ m.cvarBeta < 1) ∧ (0 ≤ m.evarBeta ∧ m.evarBeta < 1) ∧ (0 ≤ m.cdarBeta ∧ m.cdarBeta < 1) ∧ 0 ≤ m.edarBeta ∧ m.edarBeta < 1

theorem semiDeviation_gross (d : Data ℝ n T) (w : Fin n → ℝ) (mr : Mar ℝ n) (s : ℝ) (hs : 0 < s) (hT : 2 ≤ T) :
    IsOptimalValue (semiDeviationRisk d w mr s) (Real.sqrt (semiVariance (grossReturns d w) (some (∑ i, marOf d mr i * w i)))) := by
  obtain ⟨⟨v, hv, hv'⟩, hmin⟩ := C17_semi_variance_gross d w mr s hs hT
  have hr : ∀ v : Fin T → ℝ, (semiDeviationRisk d w mr s).risk v = Real.sqrt ((semiVarianceRisk d w mr s).risk v) := by
    intro v
    simp only [semiDeviationRisk, semiVarianceRisk]
    rw [Real.sqrt_div (Finset.sum_nonneg fun t _ => sq_nonneg _)]
  refine ⟨⟨v, hv, ?_⟩, fun v hv => ?_⟩
  · rw [← hv']
    exact hr v
  · exact (Real.sqrt_le_sqrt (hmin v hv)).trans_eq (hr v).symm

/-- A risk program at scale 1 can be brought to `x` only if the measure is at most `x`; and, EVaR and EDaR apart, if it is. -/
theorem program_atMost (P : Partition ℝ) (m : MeanRisk n T) (hs : 0 < m.scale) (hT : 2 ≤ T) (hb : BetasOk m) (r : RiskMeasure) (w : Fin n → ℝ) (x : ℝ) :
    ((∃ a, (riskProgram m r w 1).feasible a ∧ (riskProgram m r w 1).risk a ≤ x) → RiskAtMost P m r w x) ∧
    (r ≠ .evar → r ≠ .edar → RiskAtMost P m r w x → ∃ a, (riskProgram m r w 1).feasible a ∧ (riskProgram m r w 1).risk a ≤ x) := by
  have hT0 : 0 < T := by omega
  obtain ⟨⟨c0, c1⟩, ⟨e0, e1⟩, ⟨d0, d1⟩, f0, f1⟩ := hb
  suffices H : r ≠ .evar → r ≠ .edar → ((∃ a, (riskProgram m r w 1).feasible a ∧ (riskProgram m r w 1).risk a ≤ x) ↔ RiskAtMost P m r w x) by
    refine ⟨fun h => ?_, fun h1 h2 => (H h1 h2).2⟩
    by_cases h1 : r = .evar
    · subst h1
      obtain ⟨a, ha, hx⟩ := h
      intro b hb
      have := (C17_evar { m.data with transactionCosts := fun _ => 0 } w 1 m.scale hs hT0 m.evarBeta e0 e1 (fun _ => rfl) b).2 hb
      exact (this a ha).trans hx
    · by_cases h2 : r = .edar
      · subst h2
        obtain ⟨a, ha, hx⟩ := h
        intro b hb
        exact ((C17_edar m.data w 1 m.scale hs hT0 m.edarBeta f0 f1 b).2 hb a ha).trans hx
      · exact (H h1 h2).1 h
  intro h1 h2
  cases r with
  | meanAbsoluteDeviation => exact atMost_of_optimal (C17_mean_absolute_deviation_gross m.data w m.minAcceptableReturn m.scale hs) x
  | firstLowerPartialMoment =>
    have := C17_first_lower_partial_moment_gross m.data w m.minAcceptableReturn 1 m.scale hs
    rw [mul_one] at this
    exact atMost_of_optimal this x
  | standardDeviation => exact atMost_of_optimal (C17_standard_deviation m.cholesky (covarianceOf m) (fun _ _ => rfl) w m.scale hs) x
  | variance => exact atMost_of_optimal (C17_variance m.cholesky (covarianceOf m) (fun _ _ => rfl) w m.scale hs) x
  | semiVariance => exact atMost_of_optimal (C17_semi_variance_gross m.data w m.minAcceptableReturn m.scale hs hT) x
  | semiDeviation => exact atMost_of_optimal (semiDeviation_gross m.data w m.minAcceptableReturn m.scale hs hT) x
  | worstRealization => exact atMost_of_some (C17_worst_realization m.data w 1 m.scale hs hT0) x
  | cvar => exact atMost_of_some (C17_cvar P m.data w 1 m.scale hs hT0 m.cvarBeta c0 c1) x
  | evar => exact absurd rfl h1
  | maxDrawdown => exact atMost_of_some (C17_max_drawdown P m.data w 1 m.scale hs hT0) x
  | averageDrawdown => exact atMost_of_some (C17_average_drawdown P m.data w 1 m.scale hs hT0) x
  | cdar => exact atMost_of_some (C17_cdar P m.data w 1 m.scale hs hT0 m.cdarBeta d0 d1) x
  | edar => exact absurd rfl h2
  | ulcerIndex => exact atMost_of_optimal (C17_ulcer_index m.data w 1 m.scale hs) x
  | giniMeanDifference => exact atMost_of_optimal (C17_gini_mean_difference m.data w 1 m.scale hs hT) x

/-! ### scaling -/

theorem scaled_returned (w : Fin n → ℝ) (k : ℝ) (hk : 0 < k) : scaled k (returnedWeights w k) = w := by
  funext i
  simp only [scaled, returnedWeights]
  rw [mul_div_cancel₀ _ hk.ne']

theorem returned_eq_scaled (w : Fin n → ℝ) (k : ℝ) : returnedWeights w k = scaled k⁻¹ w := by
  funext i
  simp only [scaled, returnedWeights]
  rw [div_eq_inv_mul]

/-- The auxiliary values of a feasible point can be carried to the returned weights at scale 1. -/
theorem program_down (m : MeanRisk n T) (r : RiskMeasure) (w : Fin n → ℝ) (k : ℝ) (hk : 0 < k) (a : (riskProgram m r w k).Aux)
    (h : (riskProgram m r w k).feasible a) :
    ∃ a', (riskProgram m r (returnedWeights w k) 1).feasible a' ∧
      k ^ degree r * (riskProgram m r (returnedWeights w k) 1).risk a' = (riskProgram m r w k).risk a := by
  have := program_scaled m r w k k⁻¹ (inv_pos.2 hk) a h
  rw [inv_mul_cancel₀ hk.ne', ← returned_eq_scaled] at this
  obtain ⟨a', ha', he⟩ := this
  refine ⟨a', ha', ?_⟩
  rw [he, inv_pow, mul_inv_cancel_left₀ (pow_ne_zero _ hk.ne')]

/-- … and those of a portfolio at scale 1 to any positive scale. -/
theorem program_up (m : MeanRisk n T) (r : RiskMeasure) (w : Fin n → ℝ) (k : ℝ) (hk : 0 < k) (a : (riskProgram m r w 1).Aux)
    (h : (riskProgram m r w 1).feasible a) :
    ∃ a', (riskProgram m r (scaled k w) k).feasible a' ∧
      (riskProgram m r (scaled k w) k).risk a' = k ^ degree r * (riskProgram m r w 1).risk a := by
  have := program_scaled m r w 1 k hk a h
  rw [mul_one] at this
  exact this

theorem uncertainty_scaled (m : MeanRisk n T) (l : ℝ) (hl : 0 < l) (w : Fin n → ℝ) : muUncertainty m (scaled l w) = l * muUncertainty m w := by
  unfold muUncertainty
  cases m.uncertainty with
  | none => simp
  | some u =>
    have e : ∀ j, ∑ i, u.2 j i * scaled l w i = l * ∑ i, u.2 j i * w i := by
      intro j
      rw [Finset.mul_sum]
      exact Finset.sum_congr rfl fun i _ => by simp only [scaled]; ring
    simp only [e]
    rw [sqrt_scaled l hl]
    ring

theorem expected_scaled (m : MeanRisk n T) (l : ℝ) (hl : 0 < l) (w : Fin n → ℝ) (k : ℝ) :
    expectedReturn m (scaled l w) (l * k) = l * expectedReturn m w k := by
  unfold expectedReturn
  rw [cost_scaled m.data l hl, fee_scaled, uncertainty_scaled m l hl]
  have : ∑ i, returnVector m i * scaled l w i = l * ∑ i, returnVector m i * w i := by
    rw [Finset.mul_sum]
    exact Finset.sum_congr rfl fun i _ => by simp only [scaled]; ring
  rw [this]
  ring

theorem expected_one (m : MeanRisk n T) (w : Fin n → ℝ) : expectedReturn m w 1 = netExpectedReturn m w := by
  unfold expectedReturn netExpectedReturn transactionCost managementFee
  congr 1
  congr 1
  · congr 1
    · exact Finset.sum_congr rfl fun i _ => mul_comm _ _
    · refine Finset.sum_congr rfl fun i _ => ?_
      rw [abs_mul, mul_one, abs_sub_comm]
  · exact Finset.sum_congr rfl fun i _ => mul_comm _ _

theorem expected_returned (m : MeanRisk n T) (w : Fin n → ℝ) (k : ℝ) (hk : 0 < k) :
    expectedReturn m w k = k * netExpectedReturn m (returnedWeights w k) := by
  conv_lhs => rw [← scaled_returned w k hk, ← mul_one k]
  rw [mul_one, ← expected_one]
  conv_lhs => rw [show k = k * 1 by ring]
  rw [← expected_scaled m k hk]
  simp

theorem tracking_returned (m : MeanRisk n T) (w : Fin n → ℝ) (k : ℝ) (hk : 0 < k) :
    trackingError m w k = k * activeRisk m (returnedWeights w k) := by
  unfold trackingError activeRisk
  have e : ∀ t, ptfReturns m.data w t - m.benchmark t * k = k * ((∑ i, returnedWeights w k i * m.data.returns t i) - m.benchmark t) := by
    intro t
    rw [mul_sub, Finset.mul_sum, ptfReturns]
    congr 1
    · refine Finset.sum_congr rfl fun i _ => ?_
      simp only [returnedWeights]
      field_simp
    · ring
  simp only [e]
  rw [sqrt_scaled k hk, Real.sqrt_div (Finset.sum_nonneg fun t _ => sq_nonneg _)]
  ring

/-! ### C19 -/

/-- **C19.** Whatever the objective, a feasible point with positive scale gives weights within the weight limits, the cardinality limits, the turnover
and return limits; its risks are within their limits for every risk measure that is homogeneous of degree 1. -/
theorem C19_limits (P : Partition ℝ) (m : MeanRisk n T) (hs : 0 < m.scale) (hT : 2 ≤ T) (hb : BetasOk m) (cs : List (Constraint ℝ n))
    (hcs : getWeightConstraints m.weights (factorIsVariable m) true m.scale = .ok cs)
    (w : Fin n → ℝ) (k : ℝ) (hk : 0 < k) (a : (riskProgram m m.riskMeasure w k).Aux) (h : Feasible m cs w k a) :
    RespectsLimits m.weights (returnedWeights w k) ∧ RespectsCardinality m.weights (returnedWeights w k) ∧
      RespectsReturnLimits m (returnedWeights w k) ∧
      ∀ r x, m.riskLimits r = some x → r ≠ .variance → r ≠ .semiVariance → RiskAtMost P m r (returnedWeights w k) x := by
  have hk1 : factorIsVariable m = false → k = 1 := by
    intro hf
    exact h.factor (by simpa [factorIsVariable] using hf)
  refine ⟨C19_weight_limits_mip m.weights _ true m.scale k hs hk w cs hcs h.weight, C20_sound m.weights _ true m.scale k hs hk hk1 w cs hcs h.weight,
    ⟨fun x hx i => ?_, fun x hx => ?_⟩, fun r x hx h1 h2 => ?_⟩
  · have := h.turnover x hx i
    rw [mul_le_mul_iff_left₀ hs] at this
    have e : returnedWeights w k i - m.data.previousWeights i = (w i - m.data.previousWeights i * k) / k := by
      simp only [returnedWeights]
      field_simp
    rw [e, abs_div, abs_of_pos hk, div_le_iff₀ hk]
    exact this
  · have := h.return' x hx
    rw [ge_iff_le, mul_le_mul_iff_left₀ hs, expected_returned m w k hk, mul_comm] at this
    exact (mul_le_mul_iff_right₀ hk).1 this
  · obtain ⟨b, hbf, hbx⟩ := h.risks r x hx
    rw [mul_le_mul_iff_left₀ hs] at hbx
    obtain ⟨b', hb', he⟩ := program_down m r w k hk b hbf
    refine (program_atMost P m hs hT hb r _ x).1 ⟨b', hb', ?_⟩
    have hd : degree r = 1 := by
      cases r <;> first | rfl | exact absurd rfl h1 | exact absurd rfl h2
    rw [hd, pow_one] at he
    rw [← he, mul_comm x k] at hbx
    exact (mul_le_mul_iff_right₀ hk).1 hbx

/-- **C19.** Unless the ratio is maximised, the tracking error and all risk limits hold. -/
theorem C19_limits_no_ratio (P : Partition ℝ) (m : MeanRisk n T) (hs : 0 < m.scale) (hT : 2 ≤ T) (hb : BetasOk m) (cs : List (Constraint ℝ n))
    (w : Fin n → ℝ) (k : ℝ) (a : (riskProgram m m.riskMeasure w k).Aux) (h : Feasible m cs w k a) (hr : m.objective ≠ .maximizeRatio) :
    (∀ x, m.maxTrackingError = some x → activeRisk m (returnedWeights w k) ≤ x) ∧
      ∀ r x, m.riskLimits r = some x → RiskAtMost P m r (returnedWeights w k) x := by
  have hk := h.factor hr
  subst hk
  constructor
  · intro x hx
    have := h.tracking x hx
    rwa [mul_le_mul_iff_left₀ hs, tracking_returned m w 1 one_pos, one_mul] at this
  · intro r x hx
    obtain ⟨b, hbf, hbx⟩ := h.risks r x hx
    rw [mul_le_mul_iff_left₀ hs, mul_one] at hbx
    obtain ⟨b', hb', he⟩ := program_down m r w 1 one_pos b hbf
    refine (program_atMost P m hs hT hb r _ x).1 ⟨b', hb', ?_⟩
    rw [one_pow, one_mul] at he
    rw [he]
    exact hbx

/-- **C19**, when the ratio is maximised: what the tracking error constraint and the limits on variance and semi-variance say about the returned weights is a
bound divided by the scale `k` that the solver happened to choose, instead of the user's bound. -/
theorem C19_ratio_partial (P : Partition ℝ) (m : MeanRisk n T) (hs : 0 < m.scale) (hT : 2 ≤ T) (hb : BetasOk m) (cs : List (Constraint ℝ n))
    (w : Fin n → ℝ) (k : ℝ) (hk : 0 < k) (a : (riskProgram m m.riskMeasure w k).Aux) (h : Feasible m cs w k a) :
    (∀ x, m.maxTrackingError = some x → activeRisk m (returnedWeights w k) ≤ x / k) ∧
      ∀ r x, m.riskLimits r = some x → r = .variance ∨ r = .semiVariance → RiskAtMost P m r (returnedWeights w k) (x / k) := by
  constructor
  · intro x hx
    have := h.tracking x hx
    rwa [mul_le_mul_iff_left₀ hs, tracking_returned m w k hk, mul_comm, ← le_div_iff₀ hk] at this
  · intro r x hx hr
    obtain ⟨b, hbf, hbx⟩ := h.risks r x hx
    rw [mul_le_mul_iff_left₀ hs] at hbx
    obtain ⟨b', hb', he⟩ := program_down m r w k hk b hbf
    refine (program_atMost P m hs hT hb r _ _).1 ⟨b', hb', ?_⟩
    have hd : degree r = 2 := by
      rcases hr with rfl | rfl <;> rfl
    rw [hd] at he
    rw [← he, sq, mul_assoc, mul_comm x k, mul_le_mul_iff_right₀ hk, mul_comm] at hbx
    exact (le_div_iff₀ hk).2 hbx

end

end Skfolio.Convex
