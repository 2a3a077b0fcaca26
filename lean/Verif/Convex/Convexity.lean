import Verif.Convex.ObjectiveTheorems

/-! The points of a `MeanRisk` problem without ratio and without mixed-integer constraints form a convex set, on which the risk is convex and the expected return concave. -/
set_option autoImplicit false

namespace Skfolio.Convex

open Skfolio.Measures

section
variable {n T : Nat}

/-- The portfolio a part `t` of the way from `w` to `v`. -/
def mix (t : ℝ) (w v : Fin n → ℝ) : Fin n → ℝ := scaled (1 - t) w + scaled t v

theorem mix_apply (t : ℝ) (w v : Fin n → ℝ) (i : Fin n) : mix t w v i = (1 - t) * w i + t * v i := rfl

theorem program_risk_nonneg (m : MeanRisk n T) (hT : 2 ≤ T) (r : RiskMeasure) (hd : degree r = 2) (w : Fin n → ℝ) (k : ℝ) (a : (riskProgram m r w k).Aux) : 0 ≤ (riskProgram m r w k).risk a := by
  have hT' : (2 : ℝ) ≤ T := by exact_mod_cast hT
  cases r with
  | variance => exact sq_nonneg (show ℝ from a)
  | semiVariance => exact div_nonneg (Finset.sum_nonneg fun t _ => sq_nonneg _) (by linarith)
  | _ => simp [degree] at hd

/-- The risk programs are jointly convex. -/
theorem program_convex (m : MeanRisk n T) (hs : 0 < m.scale) (hT : 2 ≤ T) (r : RiskMeasure) (w v : Fin n → ℝ) (t : ℝ) (h0 : 0 < t) (h1 : t < 1)
    (a : (riskProgram m r w 1).Aux) (ha : (riskProgram m r w 1).feasible a) (b : (riskProgram m r v 1).Aux) (hb : (riskProgram m r v 1).feasible b) :
    ∃ c, (riskProgram m r (mix t w v) 1).feasible c ∧ (riskProgram m r (mix t w v) 1).risk c ≤ (1 - t) * (riskProgram m r w 1).risk a + t * (riskProgram m r v 1).risk b := by
  have h1' : 0 < 1 - t := by linarith
  obtain ⟨a', ha', hea⟩ := program_scaled m r w 1 (1 - t) h1' a ha
  obtain ⟨b', hb', heb⟩ := program_scaled m r v 1 t h0 b hb
  obtain ⟨c, hc, hle⟩ := program_add m hs r _ _ _ _ a' ha' b' hb'
  have H : ∃ c, (riskProgram m r (mix t w v) ((1 - t) * 1 + t * 1)).feasible c ∧ root r ((riskProgram m r (mix t w v) ((1 - t) * 1 + t * 1)).risk c) ≤
      root r ((1 - t) ^ degree r * (riskProgram m r w 1).risk a) + root r (t ^ degree r * (riskProgram m r v 1).risk b) := by
    refine ⟨c, hc, ?_⟩
    rw [← hea, ← heb]
    exact hle
  rw [show (1 - t) * 1 + t * 1 = 1 by ring] at H
  obtain ⟨c, hc, hle⟩ := H
  refine ⟨c, hc, ?_⟩
  rcases degree_cases r with hd | hd
  · simpa [root, hd] using hle
  · have hx := program_risk_nonneg m hT r hd w 1 a
    have hy := program_risk_nonneg m hT r hd v 1 b
    have hz := program_risk_nonneg m hT r hd (mix t w v) 1 c
    simp only [root, hd, if_true] at hle
    rw [Real.sqrt_mul (sq_nonneg _), Real.sqrt_mul (sq_nonneg _), Real.sqrt_sq h1'.le, Real.sqrt_sq h0.le] at hle
    obtain ⟨x, hxe⟩ : ∃ x, x = Real.sqrt ((riskProgram m r w 1).risk a) := ⟨_, rfl⟩
    obtain ⟨y, hye⟩ : ∃ y, y = Real.sqrt ((riskProgram m r v 1).risk b) := ⟨_, rfl⟩
    have hx2 : (riskProgram m r w 1).risk a = x ^ 2 := by rw [hxe, Real.sq_sqrt hx]
    have hy2 : (riskProgram m r v 1).risk b = y ^ 2 := by rw [hye, Real.sq_sqrt hy]
    rw [← hxe, ← hye] at hle
    rw [hx2, hy2]
    have hsq := pow_le_pow_left₀ (Real.sqrt_nonneg _) hle 2
    rw [Real.sq_sqrt hz] at hsq
    refine hsq.trans ?_
    nlinarith [mul_nonneg (mul_nonneg h1'.le h0.le) (sq_nonneg (x - y))]

/-! ### Limits -/

theorem sum_mix (t : ℝ) (w v c : Fin n → ℝ) : ∑ i, c i * mix t w v i = (1 - t) * (∑ i, c i * w i) + t * ∑ i, c i * v i := by
  rw [Finset.mul_sum, Finset.mul_sum, ← Finset.sum_add_distrib]
  refine Finset.sum_congr rfl fun i _ => ?_
  rw [mix_apply]
  ring

theorem sum_convex (t : ℝ) (w v : Fin n → ℝ) (f : Fin n → ℝ → ℝ) (hf : ∀ i, f i (mix t w v i) ≤ (1 - t) * f i (w i) + t * f i (v i)) : ∑ i, f i (mix t w v i) ≤ (1 - t) * (∑ i, f i (w i)) + t * ∑ i, f i (v i) := by
  rw [Finset.mul_sum, Finset.mul_sum, ← Finset.sum_add_distrib]
  exact Finset.sum_le_sum fun i _ => hf i

theorem abs_mix (t : ℝ) (h0 : 0 ≤ t) (h1 : t ≤ 1) (x y c : ℝ) : |(1 - t) * x + t * y - c| ≤ (1 - t) * |x - c| + t * |y - c| := by
  have e : (1 - t) * x + t * y - c = (1 - t) * (x - c) + t * (y - c) := by ring
  rw [e]
  refine (abs_add_le _ _).trans ?_
  rw [abs_mul, abs_mul, abs_of_nonneg h0, abs_of_nonneg (by linarith : 0 ≤ 1 - t)]

theorem between_le {t x y m : ℝ} (h0 : 0 ≤ t) (h1 : t ≤ 1) (hx : x ≤ m) (hy : y ≤ m) : (1 - t) * x + t * y ≤ m := by
  nlinarith [mul_le_mul_of_nonneg_left hx (by linarith : 0 ≤ 1 - t), mul_le_mul_of_nonneg_left hy h0]

theorem le_between {t x y m : ℝ} (h0 : 0 ≤ t) (h1 : t ≤ 1) (hx : m ≤ x) (hy : m ≤ y) : m ≤ (1 - t) * x + t * y := by
  nlinarith [mul_le_mul_of_nonneg_left hx (by linarith : 0 ≤ 1 - t), mul_le_mul_of_nonneg_left hy h0]

theorem limits_mix (p : Params ℝ n) (t : ℝ) (h0 : 0 ≤ t) (h1 : t ≤ 1) (w v : Fin n → ℝ) (hw : RespectsLimits p w) (hv : RespectsLimits p v) : RespectsLimits p (mix t w v) := by
  have h1' : 0 ≤ 1 - t := by linarith
  have hsum : ∑ i, mix t w v i = (1 - t) * (∑ i, w i) + t * ∑ i, v i := by
    have := sum_mix t w v fun _ => 1
    simpa using this
  have hmax : ∀ x y : ℝ, max ((1 - t) * x + t * y) 0 ≤ (1 - t) * max x 0 + t * max y 0 := by
    intro x y
    refine max_le (add_le_add (mul_le_mul_of_nonneg_left (le_max_left _ _) h1') (mul_le_mul_of_nonneg_left (le_max_left _ _) h0)) ?_
    exact add_nonneg (mul_nonneg h1' (le_max_right _ _)) (mul_nonneg h0 (le_max_right _ _))
  refine ⟨fun m hm i => le_between h0 h1 (hw.atLeast m hm i) (hv.atLeast m hm i), fun m hm i => between_le h0 h1 (hw.atMost m hm i) (hv.atMost m hm i), fun m hm => ?_, fun m hm => ?_, fun m hm => ?_, fun m hm => ?_, fun m hm => ?_, fun row hr => ?_, fun row hr => ?_, fun rows hrs row hr => ?_⟩
  · exact (sum_convex t w v (fun _ x => max x 0) fun i => hmax _ _).trans (between_le h0 h1 (hw.long m hm) (hv.long m hm))
  · refine (sum_convex t w v (fun _ x => max (-x) 0) fun i => ?_).trans (between_le h0 h1 (hw.short m hm) (hv.short m hm))
    have := hmax (-w i) (-v i)
    rw [mix_apply]
    rwa [show -((1 - t) * w i + t * v i) = (1 - t) * -w i + t * -v i by ring]
  · rw [hsum]
    exact le_between h0 h1 (hw.minBudget m hm) (hv.minBudget m hm)
  · rw [hsum]
    exact between_le h0 h1 (hw.maxBudget m hm) (hv.maxBudget m hm)
  · rw [hsum, hw.budget m hm, hv.budget m hm]
    ring
  · rw [sum_mix, hw.equations row hr, hv.equations row hr]
    ring
  · rw [sum_mix]
    exact between_le h0 h1 (hw.inequalities row hr) (hv.inequalities row hr)
  · rw [sum_mix]
    exact between_le h0 h1 (hw.matrix rows hrs row hr) (hv.matrix rows hrs row hr)

theorem penalty_mix (m : MeanRisk n T) (hl1 : 0 ≤ m.l1Coef) (hl2 : 0 ≤ m.l2Coef) (t : ℝ) (h0 : 0 ≤ t) (h1 : t ≤ 1) (w v : Fin n → ℝ) : penalty m (mix t w v) ≤ (1 - t) * penalty m w + t * penalty m v := by
  have e1 := sum_convex t w v (fun _ x => |x|) fun i => by
    have := abs_mix t h0 h1 (w i) (v i) 0
    simpa [mix_apply] using this
  have e2 := sum_convex t w v (fun _ x => x ^ 2) fun i => by
    rw [mix_apply]
    nlinarith [mul_nonneg (mul_nonneg (by linarith : 0 ≤ 1 - t) h0) (sq_nonneg (w i - v i))]
  have g1 := mul_le_mul_of_nonneg_left e1 hl1
  have g2 := mul_le_mul_of_nonneg_left e2 hl2
  unfold penalty
  calc _ ≤ _ := add_le_add g1 g2
    _ = _ := by ring

/-- The expected return after costs and worst case is concave. -/
theorem return_mix (m : MeanRisk n T) (hu : ∀ kappa S, m.uncertainty = some (kappa, S) → 0 ≤ kappa) (t : ℝ) (h0 : 0 ≤ t) (h1 : t ≤ 1) (w v : Fin n → ℝ) :
    (1 - t) * netExpectedReturn m w + t * netExpectedReturn m v ≤ netExpectedReturn m (mix t w v) := by
  have h1' : 0 ≤ 1 - t := by linarith
  have e1 : ∑ i, mix t w v i * m.overwrite.getD m.data.mu i = (1 - t) * (∑ i, w i * m.overwrite.getD m.data.mu i) + t * ∑ i, v i * m.overwrite.getD m.data.mu i := by
    have := sum_mix t w v (m.overwrite.getD m.data.mu)
    simp only [mul_comm (m.overwrite.getD m.data.mu _)] at this
    exact this
  have e2 : ∑ i, mix t w v i * m.data.managementFees i = (1 - t) * (∑ i, w i * m.data.managementFees i) + t * ∑ i, v i * m.data.managementFees i := by
    have := sum_mix t w v m.data.managementFees
    simp only [mul_comm (m.data.managementFees _)] at this
    exact this
  have e3 := sum_convex t w v (fun i x => |m.data.transactionCosts i| * |x - m.data.previousWeights i|) fun i => by
    have := mul_le_mul_of_nonneg_left (abs_mix t h0 h1 (w i) (v i) (m.data.previousWeights i)) (abs_nonneg (m.data.transactionCosts i))
    rw [mix_apply]
    refine this.trans_eq ?_
    ring
  have e4 : muUncertainty m (mix t w v) ≤ (1 - t) * muUncertainty m w + t * muUncertainty m v := by
    unfold muUncertainty
    split
    · simp
    · rename_i kappa S hS
      have hk := hu kappa S hS
      have := sqrt_add (fun l => (1 - t) * ∑ i, S l i * w i) fun l => t * ∑ i, S l i * v i
      have es : ∀ (c : ℝ) (f : Fin n → ℝ), 0 ≤ c → Real.sqrt (∑ l, (c * f l) ^ 2) = c * Real.sqrt (∑ l, f l ^ 2) := by
        intro c f hc
        simp only [mul_pow]
        rw [← Finset.mul_sum, Real.sqrt_mul (sq_nonneg c), Real.sqrt_sq hc]
      rw [es (1 - t) _ h1', es t _ h0] at this
      simp only [sum_mix]
      refine (mul_le_mul_of_nonneg_left this hk).trans_eq ?_
      ring
  unfold netExpectedReturn
  rw [e1, e2]
  linarith

theorem active_mix (m : MeanRisk n T) (t : ℝ) (h0 : 0 ≤ t) (h1 : t ≤ 1) (w v : Fin n → ℝ) : activeRisk m (mix t w v) ≤ (1 - t) * activeRisk m w + t * activeRisk m v := by
  have h1' : 0 ≤ 1 - t := by linarith
  unfold activeRisk
  have e : ∀ s, (∑ i, mix t w v i * m.data.returns s i) - m.benchmark s = (1 - t) * ((∑ i, w i * m.data.returns s i) - m.benchmark s) + t * ((∑ i, v i * m.data.returns s i) - m.benchmark s) := by
    intro s
    have := sum_mix t w v (m.data.returns s)
    simp only [mul_comm (m.data.returns s _)] at this
    rw [this]
    ring
  have := sqrt_add (fun s => (1 - t) * ((∑ i, w i * m.data.returns s i) - m.benchmark s)) fun s => t * ((∑ i, v i * m.data.returns s i) - m.benchmark s)
  have es : ∀ (c : ℝ) (f : Fin T → ℝ), 0 ≤ c → Real.sqrt (∑ l, (c * f l) ^ 2) = c * Real.sqrt (∑ l, f l ^ 2) := by
    intro c f hc
    simp only [mul_pow]
    rw [← Finset.mul_sum, Real.sqrt_mul (sq_nonneg c), Real.sqrt_sq hc]
  rw [es (1 - t) _ h1', es t _ h0] at this
  simp only [← e] at this
  rw [Real.sqrt_div (Finset.sum_nonneg fun _ _ => sq_nonneg _), Real.sqrt_div (Finset.sum_nonneg fun _ _ => sq_nonneg _), Real.sqrt_div (Finset.sum_nonneg fun _ _ => sq_nonneg _)]
  refine (div_le_div_of_nonneg_right this (Real.sqrt_nonneg _)).trans_eq ?_
  ring

/-- Two points of a problem without ratio give a point between them. -/
theorem feasible_mix (m : MeanRisk n T) (hs : 0 < m.scale) (hT : 2 ≤ T) (hr : m.objective ≠ .maximizeRatio) (hmip : isMip m.weights = false) (cs : List (Constraint ℝ n))
    (hcs : getWeightConstraints m.weights (factorIsVariable m) true m.scale = .ok cs) (hu : ∀ kappa S, m.uncertainty = some (kappa, S) → 0 ≤ kappa) (t : ℝ) (h0 : 0 < t) (h1 : t < 1)
    (w v : Fin n → ℝ) (a : (riskProgram m m.riskMeasure w 1).Aux) (ha : Feasible m cs w 1 a) (b : (riskProgram m m.riskMeasure v 1).Aux) (hb : Feasible m cs v 1 b) :
    ∃ c, Feasible m cs (mix t w v) 1 c ∧ (riskProgram m m.riskMeasure (mix t w v) 1).risk c ≤ (1 - t) * (riskProgram m m.riskMeasure w 1).risk a + t * (riskProgram m m.riskMeasure v 1).risk b := by
  obtain ⟨c, hc, hle⟩ := program_convex m hs hT m.riskMeasure w v t h0 h1 a ha.aux b hb.aux
  have e : ∀ u : Fin n → ℝ, (fun i => u i / 1) = u := fun u => by
    funext i
    simp
  refine ⟨c, ⟨fun _ => rfl, fun x hx => ?_, fun x hx i => ?_, ?_, fun x hx => ?_, fun r x hx => ?_, hc, fun h => absurd h hr⟩, hle⟩
  · have g1 := ha.tracking x hx
    have g2 := hb.tracking x hx
    rw [mul_le_mul_iff_left₀ hs, tracking_returned _ _ 1 one_pos, returned_one, one_mul] at g1 g2 ⊢
    exact (active_mix m t h0.le h1.le w v).trans (between_le h0.le h1.le g1 g2)
  · have g1 := ha.turnover x hx i
    have g2 := hb.turnover x hx i
    rw [mul_le_mul_iff_left₀ hs, mul_one, mul_one] at g1 g2 ⊢
    exact (abs_mix t h0.le h1.le (w i) (v i) _).trans (between_le h0.le h1.le g1 g2)
  · have g1 := (C19_weight_limits m.weights _ true m.scale 1 hs one_pos w cs hcs hmip).1 ha.weight
    have g2 := (C19_weight_limits m.weights _ true m.scale 1 hs one_pos v cs hcs hmip).1 hb.weight
    refine (C19_weight_limits m.weights _ true m.scale 1 hs one_pos _ cs hcs hmip).2 ?_
    rw [e] at g1 g2 ⊢
    exact limits_mix m.weights t h0.le h1.le w v g1 g2
  · have g1 := ha.return' x hx
    have g2 := hb.return' x hx
    rw [ge_iff_le, mul_le_mul_iff_left₀ hs, mul_one, expected_one] at g1 g2 ⊢
    exact (le_between h0.le h1.le g1 g2).trans (return_mix m hu t h0.le h1.le w v)
  · obtain ⟨a1, ha1, ha2⟩ := ha.risks r x hx
    obtain ⟨b1, hb1, hb2⟩ := hb.risks r x hx
    rw [mul_le_mul_iff_left₀ hs, mul_one] at ha2 hb2
    obtain ⟨c1, hc1, hc2⟩ := program_convex m hs hT r w v t h0 h1 a1 ha1 b1 hb1
    refine ⟨c1, hc1, ?_⟩
    rw [mul_le_mul_iff_left₀ hs, mul_one]
    exact hc2.trans (between_le h0.le h1.le ha2 hb2)

end

end Skfolio.Convex
