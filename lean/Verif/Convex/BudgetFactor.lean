import Verif.Convex.RiskBudgetingFindings

/-!
**C60** for the first lower partial moment with any risk-free rate: the factor given to the risk function makes the risk of the scaled weights proportional to that of the weights returned.
-/
set_option autoImplicit false

namespace Skfolio.Convex

open Skfolio.Measures

section
variable {n T : Nat}

/-- The shortfall of the returns of weights `v` below the same capital at the risk-free rate and the acceptable return. -/
noncomputable def cashShortfall (m : MeanRisk n T) (v : Fin n → ℝ) : ℝ := firstLowerPartialMoment (grossReturns m.data v) (some (m.data.riskFreeRate * ∑ i, v i + target m v))

/-- For a fully invested portfolio it is the first lower partial moment. -/
theorem cashShortfall_invested (P : Partition ℝ) (m : MeanRisk n T) (v : Fin n → ℝ) (hv : ∑ i, v i = 1) (x : ℝ) : RiskAtMost P m .firstLowerPartialMoment v x ↔ cashShortfall m v ≤ x := by
  unfold cashShortfall
  rw [hv, mul_one]
  exact Iff.rfl

theorem cashShortfall_eq (m : MeanRisk n T) (v : Fin n → ℝ) : cashShortfall m v = (∑ t, max 0 (-∑ i, (m.data.returns t i - marOf m.data m.minAcceptableReturn i - m.data.riskFreeRate) * v i)) / (T : ℝ) := by
  unfold cashShortfall
  rw [grossReturns, flpm_ofFn]
  congr 1
  refine Finset.sum_congr rfl fun t _ => ?_
  rw [mar_some]
  congr 2
  unfold target
  have : ∑ i, (m.data.returns t i - marOf m.data m.minAcceptableReturn i - m.data.riskFreeRate) * v i = ∑ i, m.data.returns t i * v i - ∑ i, marOf m.data m.minAcceptableReturn i * v i - m.data.riskFreeRate * ∑ i, v i := by
    rw [Finset.mul_sum, ← Finset.sum_sub_distrib, ← Finset.sum_sub_distrib]
    exact Finset.sum_congr rfl fun i _ => by ring
  rw [this]
  have hg : ∑ i, m.data.returns t i * v i = ∑ i, v i * m.data.returns t i := Finset.sum_congr rfl fun i _ => mul_comm _ _
  linarith

theorem cashShortfall_add (m : MeanRisk n T) (v v' : Fin n → ℝ) : cashShortfall m (v + v') ≤ cashShortfall m v + cashShortfall m v' := by
  rw [cashShortfall_eq, cashShortfall_eq, cashShortfall_eq, ← add_div, ← Finset.sum_add_distrib]
  refine div_le_div_of_nonneg_right (Finset.sum_le_sum fun t _ => ?_) (Nat.cast_nonneg T)
  simp only [Pi.add_apply, mul_add, Finset.sum_add_distrib, neg_add]
  refine max_le (add_nonneg (le_max_left _ _) (le_max_left _ _)) (add_le_add (le_max_right _ _) (le_max_right _ _))

theorem cashShortfall_scaled (m : MeanRisk n T) (l : ℝ) (v : Fin n → ℝ) (hl : 0 < l) : cashShortfall m (scaled l v) = l * cashShortfall m v := by
  rw [cashShortfall_eq, cashShortfall_eq, ← mul_div_assoc, Finset.mul_sum]
  congr 1
  refine Finset.sum_congr rfl fun t _ => ?_
  rw [mul_max_of_nonneg _ _ hl.le, mul_zero, mul_neg, Finset.mul_sum]
  congr 2
  exact Finset.sum_congr rfl fun i _ => by rw [scaled]; ring

/-- **C60.** With the first lower partial moment, any risk-free rate, any acceptable return, any costs and any previous weights: the weights that `RiskBudgeting` returns are positive and add up to one, the optimal value is the
shortfall of the scaled weights, and the numbers `ρ(x) (b_i / B) / x_i` are a subgradient of the shortfall at the weights returned. -/
theorem C60_first_lower_partial_moment (m : RiskBudgeting n T) (hm : m.base.riskMeasure = .firstLowerPartialMoment) (hs : 0 < m.base.scale) (hso : 0 < m.base.scaleObjective) (hlim : NoLimits m.base.weights) (hret : m.minReturn = none)
    (hbud : ∀ i, 0 < riskBudget m i) (hn : 0 < n) (cs : List (Constraint ℝ n)) (hcs : getWeightConstraints m.base.weights true false m.base.scale = .ok cs) (w : Fin n → ℝ) (k c : ℝ)
    (a : (riskProgram m.base m.base.riskMeasure w (riskFactor m.base.riskMeasure k)).Aux) (h : BudgetOptimum m cs w k c a) :
    (∀ i, 0 < returnedWeights w k i) ∧ ∑ i, returnedWeights w k i = 1 ∧
      (riskProgram m.base m.base.riskMeasure w (riskFactor m.base.riskMeasure k)).risk a = k * cashShortfall m.base (returnedWeights w k) ∧
      ∀ v : Fin n → ℝ, cashShortfall m.base (returnedWeights w k) * ∑ i, share (riskBudget m) i * (v i / returnedWeights w k i) ≤ cashShortfall m.base v := by
  obtain ⟨hfe, hmin⟩ := h
  have hne : Nonempty (Fin n) := ⟨⟨0, hn⟩⟩
  have hk : ∑ i, w i = k := factor_eq_sum _ hlim.1 _ _ _ hs cs hcs w k hfe.weight
  have hk0 : 0 < k := by
    rw [← hk]
    exact Finset.sum_pos (fun i _ => hfe.positive i) Finset.univ_nonempty
  -- the program computes the shortfall
  have hopt : ∀ v : Fin n → ℝ, IsOptimalValue (riskProgram m.base m.base.riskMeasure v (riskFactor m.base.riskMeasure (∑ i, v i))) (cashShortfall m.base v) := by
    intro v
    have := C17_first_lower_partial_moment_gross m.base.data v m.base.minAcceptableReturn (∑ i, v i) m.base.scale hs
    rw [hm]
    simp only [riskFactor, if_true]
    exact this
  have hlog : 0 ≤ ∑ i, riskBudget m i * Real.log (w i) := hfe.nonneg.trans (le_of_mul_le_mul_right hfe.budget hs)
  have hle : ∀ v : Fin n → ℝ, (∀ i, 0 < v i) → 0 ≤ ∑ i, riskBudget m i * Real.log (v i) → (riskProgram m.base m.base.riskMeasure w (riskFactor m.base.riskMeasure k)).risk a ≤ cashShortfall m.base v := by
    intro v hv hvl
    have hv0 : 0 < ∑ i, v i := Finset.sum_pos (fun i _ => hv i) Finset.univ_nonempty
    obtain ⟨a', ha', he⟩ := (hopt v).1
    rw [← he]
    refine le_of_mul_le_mul_right (hmin v (∑ i, v i) 0 a' ⟨hv, by rw [zero_mul]; exact mul_nonneg hvl hs.le, le_refl _, ?_, fun x hx => (by rw [hret] at hx; cases hx), ha'⟩) hso
    refine (C19_weight_limits m.base.weights true false m.base.scale (∑ i, v i) hs hv0 v cs hcs hlim.2.1).2 (hlim.2.2 _ (fun i => div_pos (hv i) hv0) ?_)
    rw [← Finset.sum_div, div_self hv0.ne']
  have hRw : cashShortfall m.base w ≤ (riskProgram m.base m.base.riskMeasure w (riskFactor m.base.riskMeasure k)).risk a := by
    have h1 := (hopt w).2
    rw [hk] at h1
    exact h1 a hfe.aux
  obtain ⟨-, -, c3⟩ := budget_core (cashShortfall m.base) (cashShortfall_add m.base) (cashShortfall_scaled m.base) (riskBudget m) hbud hn w hfe.positive hlog (fun v hv hvl => hRw.trans (hle v hv hvl))
  have hroot : cashShortfall m.base w = k * cashShortfall m.base (returnedWeights w k) := by
    conv_lhs => rw [← scaled_returned w k hk0]
    exact cashShortfall_scaled m.base k _ hk0
  refine ⟨fun i => div_pos (hfe.positive i) hk0, ?_, ?_, fun v => ?_⟩
  · simp only [returnedWeights]
    rw [← Finset.sum_div, hk, div_self hk0.ne']
  · rw [← hroot]
    exact le_antisymm (hle w hfe.positive hlog) hRw
  · refine le_trans (le_of_eq ?_) (c3 v)
    rw [hroot]
    have : ∑ i, share (riskBudget m) i * (v i / returnedWeights w k i) = k * ∑ i, share (riskBudget m) i * (v i / w i) := by
      rw [Finset.mul_sum]
      refine Finset.sum_congr rfl fun i _ => ?_
      have hw := (hfe.positive i).ne'
      simp only [returnedWeights]
      field_simp
    rw [this]
    ring

/-- Two assets that return 0 and 1, a risk-free rate of 1/10 and an acceptable return of 0. -/
noncomputable def cashCase : RiskBudgeting 2 2 :=
  ⟨{ fourToOne.base with riskMeasure := .firstLowerPartialMoment, minAcceptableReturn := .scalar 0, data := { fourToOne.base.data with returns := fun t _ => if t = 0 then 0 else 1, riskFreeRate := 1 / 10 } }, none, none⟩

/-- The hypotheses are met with a risk-free rate that is not zero: the shortfall of one half of each is 1/20. -/
example : ∃ cs : List (Constraint ℝ 2), getWeightConstraints cashCase.base.weights true false cashCase.base.scale = .ok cs ∧
    ∃ (w : Fin 2 → ℝ) (k c : ℝ) (a : (riskProgram cashCase.base cashCase.base.riskMeasure w (riskFactor cashCase.base.riskMeasure k)).Aux), BudgetOptimum cashCase cs w k c a ∧ cashShortfall cashCase.base (returnedWeights w k) = 1 / 20 := by
  obtain ⟨cs, hcs⟩ := longOnly_ok'
  have hbud : ∀ i, riskBudget cashCase i = 1 := fun i => rfl
  have hfac : ∀ x : ℝ, riskFactor cashCase.base.riskMeasure x = x := fun x => if_pos rfl
  refine ⟨cs, hcs, fun _ => 1, 2, 0, (![1 / 5, 0] : Fin 2 → ℝ), ⟨⟨fun _ => one_pos, ?_, le_refl _, ?_, fun x hx => (by cases hx), ?_⟩, ?_⟩, ?_⟩
  · simp
  · refine (C19_weight_limits cashCase.base.weights true false 1 2 one_pos two_pos (fun _ => 1) cs hcs longOnly_noLimits.2.1).2 (longOnly_noLimits.2.2 _ (fun i => by norm_num) ?_)
    norm_num [Fin.sum_univ_two]
  · rw [hfac]
    change (∀ t, 0 ≤ (![1 / 5, 0] : Fin 2 → ℝ) t) ∧ ∀ t : Fin 2, (1 / 10 : ℝ) * 2 * 1 - (∑ i : Fin 2, ((if t = 0 then (0 : ℝ) else 1) - 0) * 1) * 1 ≤ (![1 / 5, 0] : Fin 2 → ℝ) t * 1
    refine ⟨fun t => ?_, fun t => ?_⟩ <;> fin_cases t <;> norm_num [Fin.sum_univ_two]
  · intro w' k' c' a' h
    have hk : ∑ i, w' i = k' := factor_eq_sum _ longOnly_noLimits.1 _ _ _ one_pos cs hcs w' k' h.weight
    have h0 := h.positive 0
    have h1 := h.positive 1
    have hlog : 0 ≤ Real.log (w' 0) + Real.log (w' 1) := by
      have e1 : (∑ i, riskBudget cashCase i * Real.log (w' i)) * 1 ≥ c' * 1 := h.budget
      have e2 := h.nonneg
      simp only [hbud, Fin.sum_univ_two, one_mul, mul_one] at e1
      linarith
    rw [← Real.log_mul h0.ne' h1.ne'] at hlog
    have hprod : 1 ≤ w' 0 * w' 1 := by
      by_contra hc
      have := Real.log_neg (mul_pos h0 h1) (lt_of_not_ge hc)
      linarith
    rw [Fin.sum_univ_two] at hk
    have hk2 : 2 ≤ k' := by
      rw [← hk]
      nlinarith [sq_nonneg (w' 0 - w' 1)]
    have haux := h.aux
    revert haux
    revert a'
    rw [hfac]
    intro (v : Fin 2 → ℝ) _ haux
    have haux' : (∀ t, 0 ≤ v t) ∧ ∀ t : Fin 2, (1 / 10 : ℝ) * k' * 1 - (∑ i : Fin 2, ((if t = 0 then (0 : ℝ) else 1) - 0) * w' i) * 1 ≤ v t * 1 := haux
    have b0 := haux'.2 0
    have b1 := haux'.1 1
    simp at b0
    change (∑ t, (![1 / 5, 0] : Fin 2 → ℝ) t) / ((2 : ℕ) : ℝ) * 1 ≤ (∑ t, v t) / ((2 : ℕ) : ℝ) * 1
    rw [Fin.sum_univ_two, Fin.sum_univ_two]
    norm_num
    linarith
  · rw [cashShortfall_eq]
    change (∑ t : Fin 2, max (0 : ℝ) (-∑ i : Fin 2, ((if t = 0 then (0 : ℝ) else 1) - 0 - 1 / 10) * (1 / 2))) / ((2 : ℕ) : ℝ) = 1 / 20
    norm_num [Fin.sum_univ_two]

end

end Skfolio.Convex
