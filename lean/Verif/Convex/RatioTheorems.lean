import Verif.Convex.MeanRiskTheorems

/-! C18: maximising the ratio. -/
set_option autoImplicit false

namespace Skfolio.Convex

open Skfolio.Measures

section
variable {n T : Nat}

/-- The risk to which the ratio refers: the value `rho` of the risk measure plus the regularisation of the weights. -/
noncomputable def penalised (m : MeanRisk n T) (rho : ℝ) (w : Fin n → ℝ) : ℝ := rho + (m.l1Coef * (∑ i, |w i|) + m.l2Coef * ∑ i, w i ^ 2)

/-- A portfolio the user allows: it is within all limits. (The limit on a risk is met by some values of the auxiliary variables; by `program_atMost` that is the limit on the
measure, EVaR and EDaR excepted, where it is met if the infimum is below the limit or attained.) -/
structure Allowed (m : MeanRisk n T) (w : Fin n → ℝ) : Prop where
  limits : RespectsLimits m.weights w
  cardinality : RespectsCardinality m.weights w
  returns : RespectsReturnLimits m w
  risks : ∀ r x, m.riskLimits r = some x → ∃ a, (riskProgram m r w 1).feasible a ∧ (riskProgram m r w 1).risk a ≤ x

theorem homogenization_pos (mu : Fin n → ℝ) : 0 < homogenizationFactor mu := by
  unfold homogenizationFactor
  refine lt_min (by norm_num) (lt_max_of_lt_left (by norm_num))

theorem regularization_scaled (m : MeanRisk n T) (r : RiskMeasure) (h1 : degree r = 1 → m.l2Coef = 0) (h2 : degree r = 2 → m.l1Coef = 0) (l : ℝ)
    (hl : 0 < l) (w : Fin n → ℝ) : regularization m (scaled l w) = l ^ degree r * regularization m w := by
  have e1 : ∑ i, |scaled l w i| = l * ∑ i, |w i| := by
    rw [Finset.mul_sum]
    exact Finset.sum_congr rfl fun i _ => by simp only [scaled]; rw [abs_mul, abs_of_pos hl]
  have e2 : ∑ i, scaled l w i ^ 2 = l ^ 2 * ∑ i, w i ^ 2 := by
    rw [Finset.mul_sum]
    exact Finset.sum_congr rfl fun i _ => by simp only [scaled]; rw [mul_pow]
  unfold regularization
  rw [e1, e2]
  have hd : degree r = 1 ∨ degree r = 2 := by cases r <;> simp [degree]
  rcases hd with hd | hd
  · rw [h1 hd, hd]
    ring
  · rw [h2 hd, hd]
    ring

theorem weights_up (m : MeanRisk n T) (hs : 0 < m.scale) (cs : List (Constraint ℝ n)) (hr : m.objective = .maximizeRatio)
    (hcs : getWeightConstraints m.weights (factorIsVariable m) true m.scale = .ok cs) (l : ℝ) (hl : 0 < l) (w : Fin n → ℝ)
    (hlim : RespectsLimits m.weights w) (hcard : RespectsCardinality m.weights w)
    (hM : isMip m.weights = true → l ≤ 1000 ∧ ∀ i, |l * w i| ≤ 1000) : ∀ c ∈ cs, c (scaled l w) l := by
  have e : (fun i => scaled l w i / l) = w := by
    funext i
    simp only [scaled]
    rw [mul_div_cancel_left₀ _ hl.ne']
  cases hm : isMip m.weights with
  | false =>
    refine (C19_weight_limits m.weights _ true m.scale l hs hl (scaled l w) cs hcs hm).2 ?_
    rw [e]
    exact hlim
  | true =>
    obtain ⟨h1, h2⟩ := hM hm
    refine C20_complete m.weights _ true m.scale l hs hl (fun hf => ?_) (fun _ => h1) (scaled l w) h2 cs hcs ?_ ?_
    · simp [factorIsVariable, hr] at hf
    · rw [e]
      exact hlim
    · rw [e]
      exact hcard

/-- A portfolio the user allows with positive excess return, scaled so that its excess return is the normalisation constant, is a point of the homogenised problem. -/
theorem allowed_feasible (m : MeanRisk n T) (hs : 0 < m.scale) (cs : List (Constraint ℝ n)) (hr : m.objective = .maximizeRatio)
    (hcs : getWeightConstraints m.weights (factorIsVariable m) true m.scale = .ok cs) (hte : m.maxTrackingError = none)
    (hvar : m.riskLimits .variance = none) (hsv : m.riskLimits .semiVariance = none)
    (w : Fin n → ℝ) (hw : Allowed m w) (he : 0 < excessReturn m w) (l : ℝ) (hl : l = homogenizationFactor m.data.mu / excessReturn m w)
    (hM : isMip m.weights = true → l ≤ 1000 ∧ ∀ i, |l * w i| ≤ 1000) (a : (riskProgram m m.riskMeasure w 1).Aux)
    (ha : (riskProgram m m.riskMeasure w 1).feasible a) :
    ∃ a', Feasible m cs (scaled l w) l a' ∧
      (riskProgram m m.riskMeasure (scaled l w) l).risk a' = l ^ degree m.riskMeasure * (riskProgram m m.riskMeasure w 1).risk a := by
  have hl0 : 0 < l := by
    rw [hl]
    exact div_pos (homogenization_pos _) he
  obtain ⟨a', ha', hv⟩ := program_up m m.riskMeasure w l hl0 a ha
  have hexp : expectedReturn m (scaled l w) l = l * netExpectedReturn m w := by
    rw [← expected_one, ← expected_scaled m l hl0, mul_one]
  have hnorm : expectedReturn m (scaled l w) l * m.scale - m.data.riskFreeRate * l * m.scale = homogenizationFactor m.data.mu * m.scale := by
    rw [hexp, ← sub_mul]
    congr 1
    rw [mul_comm m.data.riskFreeRate, ← mul_sub, hl]
    exact div_mul_cancel₀ _ he.ne'
  refine ⟨a', ⟨fun h => absurd hr h, fun x hx => ?_, fun x hx i => ?_, weights_up m hs cs hr hcs l hl0 w hw.limits hw.cardinality hM, fun x hx => ?_,
    fun r x hx => ?_, ha', fun _ => ⟨fun _ => hnorm, fun _ => hnorm.ge⟩⟩, hv⟩
  · rw [hte] at hx
    cases hx
  · have := hw.returns.turnover x hx i
    rw [mul_le_mul_iff_left₀ hs]
    have e : scaled l w i - m.data.previousWeights i * l = l * (w i - m.data.previousWeights i) := by
      simp only [scaled]
      ring
    rw [e, abs_mul, abs_of_pos hl0, mul_comm x l]
    exact le_of_scaled l _ _ hl0 this
  · rw [ge_iff_le, mul_le_mul_iff_left₀ hs, hexp, mul_comm]
    exact le_of_scaled l _ _ hl0 (hw.returns.minReturn x hx)
  · obtain ⟨b, hb, hbx⟩ := hw.risks r x hx
    obtain ⟨b', hb', he'⟩ := program_up m r w l hl0 b hb
    refine ⟨b', hb', ?_⟩
    have hd : degree r = 1 := by
      cases r <;> first | rfl | (rw [hvar] at hx; cases hx) | (rw [hsv] at hx; cases hx)
    rw [mul_le_mul_iff_left₀ hs, he', hd, pow_one, mul_comm x l]
    exact le_of_scaled l _ _ hl0 hbx

/-- The core of C18, without assuming that the risk program of the competitor is solved to optimality. -/
theorem ratio_core (m : MeanRisk n T) (hs : 0 < m.scale) (hso : 0 < m.scaleObjective) (cs : List (Constraint ℝ n)) (hr : m.objective = .maximizeRatio)
    (hcs : getWeightConstraints m.weights (factorIsVariable m) true m.scale = .ok cs) (hte : m.maxTrackingError = none)
    (hvar : m.riskLimits .variance = none) (hsv : m.riskLimits .semiVariance = none)
    (h1 : degree m.riskMeasure = 1 → m.l2Coef = 0) (h2 : degree m.riskMeasure = 2 → m.l1Coef = 0)
    (w : Fin n → ℝ) (k : ℝ) (hk : 0 < k) (a : (riskProgram m m.riskMeasure w k).Aux) (h : IsOptimum m cs w k a)
    (w' : Fin n → ℝ) (hw' : Allowed m w') (he : 0 < excessReturn m w')
    (hM : isMip m.weights = true → homogenizationFactor m.data.mu / excessReturn m w' ≤ 1000 ∧
      ∀ i, |homogenizationFactor m.data.mu / excessReturn m w' * w' i| ≤ 1000)
    (a' : (riskProgram m m.riskMeasure w' 1).Aux) (ha' : (riskProgram m m.riskMeasure w' 1).feasible a')
    (hpos : isAffine m ∨ 0 ≤ penalised m ((riskProgram m m.riskMeasure w' 1).risk a') w') :
    ∃ b, (riskProgram m m.riskMeasure (returnedWeights w k) 1).feasible b ∧
      0 < excessReturn m (returnedWeights w k) ∧
      excessReturn m w' ^ degree m.riskMeasure * penalised m ((riskProgram m m.riskMeasure (returnedWeights w k) 1).risk b) (returnedWeights w k) ≤
        excessReturn m (returnedWeights w k) ^ degree m.riskMeasure * penalised m ((riskProgram m m.riskMeasure w' 1).risk a') w' := by
  obtain ⟨c, hc⟩ : ∃ c, c = homogenizationFactor m.data.mu := ⟨_, rfl⟩
  have hc0 : 0 < c := hc ▸ homogenization_pos _
  rw [← hc] at hM
  obtain ⟨l, hl⟩ : ∃ l, l = c / excessReturn m w' := ⟨_, rfl⟩
  rw [← hl] at hM
  obtain ⟨q, hq, hqv⟩ := allowed_feasible m hs cs hr hcs hte hvar hsv w' hw' he l (hc ▸ hl) hM a' ha'
  have hl0 : 0 < l := hl ▸ div_pos hc0 he
  have hopt := h.2 _ _ q hq
  obtain ⟨b, hb, hbv⟩ := program_down m m.riskMeasure w k hk a h.1.aux
  refine ⟨b, hb, ?_⟩
  have hobj : ∀ (w : Fin n → ℝ) (k : ℝ) (a : (riskProgram m m.riskMeasure w k).Aux),
      objectiveValue m w k a = ((riskProgram m m.riskMeasure w k).risk a + regularization m w) * m.scaleObjective := by
    intro w k a
    unfold objectiveValue
    rw [hr, add_mul]
  rw [hobj, hobj, mul_le_mul_iff_left₀ hso, hqv, ← hbv] at hopt
  have hreg1 : regularization m w = k ^ degree m.riskMeasure * regularization m (returnedWeights w k) := by
    conv_lhs => rw [← scaled_returned w k hk]
    exact regularization_scaled m _ h1 h2 k hk _
  rw [hreg1, regularization_scaled m _ h1 h2 l hl0, ← mul_add, ← mul_add] at hopt
  change k ^ degree m.riskMeasure * penalised m _ _ ≤ l ^ degree m.riskMeasure * penalised m _ _ at hopt
  set D := degree m.riskMeasure
  set Pw := penalised m ((riskProgram m m.riskMeasure (returnedWeights w k) 1).risk b) (returnedWeights w k)
  set Pw' := penalised m ((riskProgram m m.riskMeasure w' 1).risk a') w'
  -- the excess return of the returned weights
  have hexc : expectedReturn m w k * m.scale - m.data.riskFreeRate * k * m.scale = k * excessReturn m (returnedWeights w k) * m.scale := by
    rw [expected_returned m w k hk]
    unfold excessReturn
    ring
  have hE : (isAffine m → k * excessReturn m (returnedWeights w k) = c) ∧ c ≤ k * excessReturn m (returnedWeights w k) := by
    obtain ⟨r1, r2⟩ := h.1.ratio hr
    rw [hexc, ← hc] at r1 r2
    by_cases ha : isAffine m
    · have := mul_right_cancel₀ hs.ne' (r1 ha)
      exact ⟨fun _ => this, this.ge⟩
    · exact ⟨fun h => absurd h ha, (mul_le_mul_iff_left₀ hs).1 (r2 ha)⟩
  set E := excessReturn m (returnedWeights w k)
  set E' := excessReturn m w'
  have hE0 : 0 < E := by
    by_contra hneg
    have := mul_nonpos_of_nonneg_of_nonpos hk.le (not_lt.1 hneg)
    linarith [hE.2]
  refine ⟨hE0, ?_⟩
  have key : E' ^ D * (k ^ D * Pw) ≤ c ^ D * Pw' := by
    have := mul_le_mul_of_nonneg_left hopt (pow_nonneg he.le D)
    rwa [← mul_assoc (E' ^ D) (l ^ D), ← mul_pow, hl, mul_div_cancel₀ _ he.ne'] at this
  have key2 : c ^ D * Pw' ≤ (k * E) ^ D * Pw' := by
    rcases hpos with ha | hp
    · rw [hE.1 ha]
    · exact mul_le_mul_of_nonneg_right (pow_le_pow_left₀ hc0.le hE.2 D) hp
  have key3 := key.trans key2
  rw [mul_pow, mul_assoc, ← mul_assoc (E' ^ D), mul_comm (E' ^ D), mul_assoc] at key3
  exact (mul_le_mul_iff_right₀ (pow_pos hk D)).1 key3

/-- **C18.** Let `(w, k, a)` be an optimum of the homogenised problem with `k > 0`. Then the returned weights `w / k` have positive excess return, and for every portfolio `w'` within the
user's limits and with positive excess return, its ratio of excess return to risk is not larger. Cross-multiplied, with `rho` and `rho'` the risks of the two; for variance and semi-variance the
excess returns are squared, i.e. the ratios are the Sharpe and Sortino ratios. -/
theorem C18_ratio (m : MeanRisk n T) (hs : 0 < m.scale) (hso : 0 < m.scaleObjective) (cs : List (Constraint ℝ n)) (hr : m.objective = .maximizeRatio)
    (hcs : getWeightConstraints m.weights (factorIsVariable m) true m.scale = .ok cs) (hte : m.maxTrackingError = none)
    (hvar : m.riskLimits .variance = none) (hsv : m.riskLimits .semiVariance = none)
    (h1 : degree m.riskMeasure = 1 → m.l2Coef = 0) (h2 : degree m.riskMeasure = 2 → m.l1Coef = 0)
    (w : Fin n → ℝ) (k : ℝ) (hk : 0 < k) (a : (riskProgram m m.riskMeasure w k).Aux) (h : IsOptimum m cs w k a)
    (rho : ℝ) (hrho : IsOptimalValue (riskProgram m m.riskMeasure (returnedWeights w k) 1) rho)
    (w' : Fin n → ℝ) (hw' : Allowed m w') (he : 0 < excessReturn m w')
    (hM : isMip m.weights = true → homogenizationFactor m.data.mu / excessReturn m w' ≤ 1000 ∧
      ∀ i, |homogenizationFactor m.data.mu / excessReturn m w' * w' i| ≤ 1000)
    (rho' : ℝ) (hrho' : IsOptimalValue (riskProgram m m.riskMeasure w' 1) rho') (hpos : isAffine m ∨ 0 ≤ penalised m rho' w') :
    0 < excessReturn m (returnedWeights w k) ∧
      excessReturn m w' ^ degree m.riskMeasure * penalised m rho (returnedWeights w k) ≤
        excessReturn m (returnedWeights w k) ^ degree m.riskMeasure * penalised m rho' w' := by
  obtain ⟨⟨a', ha', rfl⟩, -⟩ := hrho'
  obtain ⟨b, hb, hE, hle⟩ := ratio_core m hs hso cs hr hcs hte hvar hsv h1 h2 w k hk a h w' hw' he hM a' ha' hpos
  refine ⟨hE, le_trans (mul_le_mul_of_nonneg_left ?_ (pow_nonneg he.le _)) hle⟩
  unfold penalised
  have := hrho.2 b hb
  linarith

/-- **C18**, the usual case spelled out: no regularisation, a measure of degree 1, positive risks; the ratio itself is maximal. -/
theorem C18_ratio_division (m : MeanRisk n T) (hs : 0 < m.scale) (hso : 0 < m.scaleObjective) (cs : List (Constraint ℝ n)) (hr : m.objective = .maximizeRatio)
    (hcs : getWeightConstraints m.weights (factorIsVariable m) true m.scale = .ok cs) (hte : m.maxTrackingError = none)
    (hvar : m.riskLimits .variance = none) (hsv : m.riskLimits .semiVariance = none) (hl1 : m.l1Coef = 0) (hl2 : m.l2Coef = 0)
    (hd1 : m.riskMeasure ≠ .variance) (hd2 : m.riskMeasure ≠ .semiVariance) (hm : isMip m.weights = false)
    (w : Fin n → ℝ) (k : ℝ) (hk : 0 < k) (a : (riskProgram m m.riskMeasure w k).Aux) (h : IsOptimum m cs w k a)
    (rho : ℝ) (hrho : IsOptimalValue (riskProgram m m.riskMeasure (returnedWeights w k) 1) rho) (hrho0 : 0 < rho)
    (w' : Fin n → ℝ) (hw' : Allowed m w') (he : 0 < excessReturn m w')
    (rho' : ℝ) (hrho' : IsOptimalValue (riskProgram m m.riskMeasure w' 1) rho') (hrho0' : 0 < rho') :
    excessReturn m w' / rho' ≤ excessReturn m (returnedWeights w k) / rho := by
  have hd : degree m.riskMeasure = 1 := by
    generalize m.riskMeasure = r at hd1 hd2
    cases r <;> first | rfl | exact absurd rfl hd1 | exact absurd rfl hd2
  have hpen : ∀ x (v : Fin n → ℝ), penalised m x v = x := by
    intro x v
    unfold penalised
    rw [hl1, hl2]
    ring
  obtain ⟨-, hle⟩ := C18_ratio m hs hso cs hr hcs hte hvar hsv (fun _ => hl2) (fun _ => hl1) w k hk a h rho hrho w' hw' he
    (fun hm' => by rw [hm] at hm'; cases hm') rho' hrho' (Or.inr (by rw [hpen]; exact hrho0'.le))
  rw [hd, pow_one, pow_one, hpen, hpen] at hle
  exact (div_le_div_iff₀ hrho0' hrho0).2 hle

/-- **C18.** The returned weights are themselves within the limits, so the maximum is over a set that contains them. -/
theorem C18_returned_allowed (m : MeanRisk n T) (hs : 0 < m.scale) (cs : List (Constraint ℝ n))
    (hcs : getWeightConstraints m.weights (factorIsVariable m) true m.scale = .ok cs)
    (hvar : m.riskLimits .variance = none) (hsv : m.riskLimits .semiVariance = none)
    (w : Fin n → ℝ) (k : ℝ) (hk : 0 < k) (a : (riskProgram m m.riskMeasure w k).Aux) (h : Feasible m cs w k a) : Allowed m (returnedWeights w k) := by
  have hk1 : factorIsVariable m = false → k = 1 := by
    intro hf
    exact h.factor (by simpa [factorIsVariable] using hf)
  refine ⟨C19_weight_limits_mip m.weights _ true m.scale k hs hk w cs hcs h.weight, C20_sound m.weights _ true m.scale k hs hk hk1 w cs hcs h.weight,
    ⟨fun x hx i => ?_, fun x hx => ?_⟩, fun r x hx => ?_⟩
  · have := h.turnover x hx i
    rw [mul_le_mul_iff_left₀ hs] at this
    have e : returnedWeights w k i - m.data.previousWeights i = (w i - m.data.previousWeights i * k) / k := by
      simp only [returnedWeights]
      field_simp
    rw [e, abs_div, abs_of_pos hk, div_le_iff₀ hk]
    exact this
  · have := h.return' x hx
    rw [ge_iff_le, mul_le_mul_iff_left₀ hs, expected_returned m w k hk, mul_comm] at this
    exact (mul_le_mul_iff_right₀ hk).1 this
  · obtain ⟨b, hbf, hbx⟩ := h.risks r x hx
    rw [mul_le_mul_iff_left₀ hs] at hbx
    obtain ⟨b', hb', he⟩ := program_down m r w k hk b hbf
    refine ⟨b', hb', ?_⟩
    have hd : degree r = 1 := by
      cases r <;> first | rfl | (rw [hvar] at hx; cases hx) | (rw [hsv] at hx; cases hx)
    rw [hd, pow_one] at he
    rw [← he, mul_comm x k] at hbx
    exact (mul_le_mul_iff_right₀ hk).1 hbx

/-- **C18.** The hypothesis `k > 0` holds at every feasible point as soon as the weights have lower and upper bounds that differ for some asset: in particular by default
(`min_weights = 0`, `max_weights = 1`). -/
theorem C18_scale_positive (m : MeanRisk n T) (hs : 0 < m.scale) (cs : List (Constraint ℝ n)) (hr : m.objective = .maximizeRatio)
    (hcs : getWeightConstraints m.weights (factorIsVariable m) true m.scale = .ok cs)
    (lo hi : Fin n → ℝ) (hlo : m.weights.minWeights = some lo) (hhi : m.weights.maxWeights = some hi) (j : Fin n) (hj : lo j < hi j)
    (w : Fin n → ℝ) (k : ℝ) (a : (riskProgram m m.riskMeasure w k).Aux) (h : Feasible m cs w k a) : 0 < k := by
  obtain ⟨a1, m1, ha, -, rfl, -⟩ := constraints_split m.weights _ true m.scale cs hcs
  have hw : ∀ i, lo i * k ≤ w i ∧ w i ≤ hi i * k := by
    have hmem : ∀ c ∈ a1, c w k := fun c hc => h.weight c (List.mem_append_left _ (List.mem_append_left _ hc))
    unfold simpleConstraints at ha
    obtain ⟨x, hx, ha⟩ := ok_bind ha
    obtain ⟨y, hy, ha⟩ := ok_bind ha
    obtain ⟨z, hz, ha⟩ := ok_bind ha
    obtain ⟨u, hu, ha⟩ := ok_bind ha
    cases ha
    unfold minConstraint at hx
    rw [hlo] at hx
    simp only [Bool.not_true, Bool.false_and, Bool.false_eq_true, if_false] at hx
    cases hx
    intro i
    constructor
    · have := hmem (fun w k => ∀ i, w i * m.scale ≥ lo i * k * m.scale) (by simp) i
      exact (mul_le_mul_iff_left₀ hs).1 this
    · have := hmem (fun w k => ∀ i, w i * m.scale ≤ hi i * k * m.scale) (by simp [maxConstraint, hhi]) i
      exact (mul_le_mul_iff_left₀ hs).1 this
  have hk0 : 0 ≤ k := by
    by_contra hneg
    have := mul_lt_mul_of_neg_right hj (not_le.1 hneg)
    linarith [(hw j).1, (hw j).2]
  rcases hk0.lt_or_eq with hk | hk
  · exact hk
  · exfalso
    subst hk
    have hw0 : w = fun _ => 0 := by
      funext i
      have := hw i
      simp only [mul_zero] at this
      exact le_antisymm this.2 this.1
    have hexp : expectedReturn m w 0 = 0 := by
      rw [hw0]
      unfold expectedReturn muUncertainty transactionCost managementFee
      cases m.uncertainty <;> simp
    have hc := mul_pos (homogenization_pos m.data.mu) hs
    obtain ⟨r1, r2⟩ := h.ratio hr
    rw [hexp] at r1 r2
    by_cases ha : isAffine m
    · linarith [r1 ha]
    · linarith [r2 ha]

end

end Skfolio.Convex
