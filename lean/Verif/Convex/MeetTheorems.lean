import Verif.Convex.RatioFindings
import Verif.Convex.FrontierConvex

/-!
C146: the objectives of `MeanRisk` meet on one frontier. A portfolio of greatest utility is one of least risk for its return and of greatest return for its risk; a portfolio of greatest ratio
is one of least risk for its return and of greatest utility at the risk aversion that belongs to its ratio.
-/
set_option autoImplicit false

namespace Skfolio.Convex

variable {n T : Nat}

/-! ### The problems compared -/

/-- `MINIMIZE_RISK` with the minimum return `x` and the penalties divided by `c`. -/
noncomputable def leastRiskAt (m : MeanRisk n T) (x c : ℝ) : MeanRisk n T :=
  { withTarget m x with objective := .minimizeRisk, l1Coef := m.l1Coef / c, l2Coef := m.l2Coef / c }

/-- `MAXIMIZE_RETURN` with the limit `x` on the risk. -/
def mostReturnAt (m : MeanRisk n T) (x : ℝ) : MeanRisk n T := { withRiskLimit m m.riskMeasure x with objective := .maximizeReturn }

/-- `MAXIMIZE_UTILITY` with the risk aversion `c`. -/
def mostUtilityAt (m : MeanRisk n T) (c : ℝ) : MeanRisk n T := { m with objective := .maximizeUtility, riskAversion := c }

/-! ### Greatest utility -/

/-- **C146.** The portfolio of greatest utility is the answer of `MINIMIZE_RISK` when its own expected return is asked for (penalties are divided by the risk aversion). -/
theorem C146_utility_least_risk (m : MeanRisk n T) (hs : 0 < m.scale) (hso : 0 < m.scaleObjective) (ho : m.objective = .maximizeUtility) (hl : 0 < m.riskAversion) (cs : List (Constraint ℝ n))
    (w : Fin n → ℝ) (k : ℝ) (a : (riskProgram m m.riskMeasure w k).Aux) (h : IsOptimum m cs w k a) :
    returnedWeights w k = w ∧ IsOptimum (leastRiskAt m (netExpectedReturn m w) m.riskAversion) cs w k a := by
  have hr : m.objective ≠ .maximizeRatio := by rw [ho]; decide
  obtain rfl : k = 1 := h.1.factor hr
  refine ⟨returned_one w, ?_⟩
  have hback : ∀ x (w' : Fin n → ℝ) (k' : ℝ) (a' : (riskProgram m m.riskMeasure w' k').Aux), Feasible (leastRiskAt m x m.riskAversion) cs w' k' a' → k' = 1 ∧ Feasible m cs w' k' a' ∧ x ≤ expectedReturn m w' 1 := by
    rintro x w' k' a' ⟨h1, h2, h3, h4, h5, h6, h7, h8⟩
    obtain rfl : k' = 1 := h1 (by simp [leastRiskAt])
    refine ⟨rfl, ⟨fun _ => rfl, h2, h3, h4, fun y hy => h5 y (List.mem_cons_of_mem _ hy), h6, h7, fun hq => absurd hq hr⟩, ?_⟩
    have : expectedReturn m w' 1 * m.scale ≥ x * 1 * m.scale := h5 x List.mem_cons_self
    rwa [ge_iff_le, mul_le_mul_iff_left₀ hs, mul_one] at this
  constructor
  · obtain ⟨h1, h2, h3, h4, h5, h6, h7, h8⟩ := h.1
    refine ⟨fun _ => rfl, h2, h3, h4, fun y hy => ?_, h6, h7, fun hq => by simp [leastRiskAt] at hq⟩
    rcases List.mem_cons.1 hy with rfl | hy
    · change expectedReturn m w 1 * m.scale ≥ _ * 1 * m.scale
      rw [expected_one, mul_one]
    · exact h5 y hy
  · intro w' k' a' h'
    obtain ⟨rfl, hf, hx⟩ := hback _ w' k' a' h'
    have hopt := h.2 w' 1 a' hf
    unfold objectiveValue at hopt
    simp only [ho] at hopt
    rw [neg_le_neg_iff, ← sub_mul, ← sub_mul, ← sub_mul, ← sub_mul, mul_le_mul_iff_left₀ hso] at hopt
    rw [expected_one] at hopt hx
    rw [expected_one] at hopt
    change (riskProgram m m.riskMeasure w 1).risk a * m.scaleObjective + (m.l1Coef / m.riskAversion * (∑ i, |w i|) + m.l2Coef / m.riskAversion * ∑ i, w i ^ 2) * m.scaleObjective ≤
      (riskProgram m m.riskMeasure w' 1).risk a' * m.scaleObjective + (m.l1Coef / m.riskAversion * (∑ i, |w' i|) + m.l2Coef / m.riskAversion * ∑ i, w' i ^ 2) * m.scaleObjective
    unfold regularization at hopt
    rw [← add_mul, ← add_mul, mul_le_mul_iff_left₀ hso, ← mul_le_mul_iff_right₀ hl]
    have e : ∀ r s1 s2 : ℝ, m.riskAversion * (r + (m.l1Coef / m.riskAversion * s1 + m.l2Coef / m.riskAversion * s2)) = m.riskAversion * r + (m.l1Coef * s1 + m.l2Coef * s2) := by
      intro r s1 s2
      field_simp
    rw [e, e]
    linarith

/-- **C146.** The portfolio of greatest utility is the answer of `MAXIMIZE_RETURN` when its own risk is the limit (a limit that was there before must not be lower). -/
theorem C146_utility_most_return (m : MeanRisk n T) (hs : 0 < m.scale) (hso : 0 < m.scaleObjective) (ho : m.objective = .maximizeUtility) (hl : 0 ≤ m.riskAversion) (cs : List (Constraint ℝ n))
    (w : Fin n → ℝ) (k : ℝ) (a : (riskProgram m m.riskMeasure w k).Aux) (h : IsOptimum m cs w k a)
    (hlim : ∀ x, m.riskLimits m.riskMeasure = some x → (riskProgram m m.riskMeasure w k).risk a ≤ x) :
    returnedWeights w k = w ∧ IsOptimum (mostReturnAt m ((riskProgram m m.riskMeasure w k).risk a)) cs w k a := by
  have hr : m.objective ≠ .maximizeRatio := by rw [ho]; decide
  obtain rfl : k = 1 := h.1.factor hr
  refine ⟨returned_one w, ?_⟩
  obtain ⟨rho, hrho⟩ : ∃ rho, rho = (riskProgram m m.riskMeasure w 1).risk a := ⟨_, rfl⟩
  rw [← hrho] at hlim ⊢
  have hback : ∀ (w' : Fin n → ℝ) (k' : ℝ) (a' : (riskProgram m m.riskMeasure w' k').Aux), Feasible (mostReturnAt m rho) cs w' k' a' →
      k' = 1 ∧ ∃ b : (riskProgram m m.riskMeasure w' k').Aux, Feasible m cs w' k' b ∧ (riskProgram m m.riskMeasure w' k').risk b ≤ rho := by
    rintro w' k' a' ⟨h1, h2, h3, h4, h5, h6, h7, h8⟩
    obtain rfl : k' = 1 := h1 (by simp [mostReturnAt])
    obtain ⟨b, hb, hbx⟩ := h6 m.riskMeasure rho (by simp [mostReturnAt, withRiskLimit])
    have hb' : (riskProgram m m.riskMeasure w' 1).feasible b := hb
    have hbx' : (riskProgram m m.riskMeasure w' 1).risk b * m.scale ≤ rho * 1 * m.scale := hbx
    rw [mul_le_mul_iff_left₀ hs, mul_one] at hbx'
    refine ⟨rfl, b, ⟨fun _ => rfl, h2, h3, h4, h5, fun q x hx => ?_, hb', fun hq => absurd hq hr⟩, hbx'⟩
    by_cases hq : q = m.riskMeasure
    · subst hq
      exact ⟨b, hb', by rw [mul_one, mul_le_mul_iff_left₀ hs]; exact hbx'.trans (hlim x hx)⟩
    · exact h6 q x (by simp only [mostReturnAt, withRiskLimit, if_neg hq]; exact hx)
  constructor
  · obtain ⟨h1, h2, h3, h4, h5, h6, h7, h8⟩ := h.1
    refine ⟨fun _ => rfl, h2, h3, h4, h5, fun q x hx => ?_, h7, fun hq => by simp [mostReturnAt] at hq⟩
    by_cases hq : q = m.riskMeasure
    · subst hq
      have : rho = x := by simpa [mostReturnAt, withRiskLimit] using hx
      refine ⟨a, h7, ?_⟩
      change (riskProgram m m.riskMeasure w 1).risk a * m.scale ≤ x * 1 * m.scale
      rw [← hrho, this, mul_one]
    · exact h6 q x (by simpa only [mostReturnAt, withRiskLimit, if_neg hq] using hx)
  · intro w' k' a' h'
    obtain ⟨rfl, b, hf, hx⟩ := hback w' k' a' h'
    have hopt := h.2 w' 1 b hf
    unfold objectiveValue at hopt
    simp only [ho] at hopt
    rw [neg_le_neg_iff, ← sub_mul, ← sub_mul, ← sub_mul, ← sub_mul, mul_le_mul_iff_left₀ hso] at hopt
    change -(expectedReturn m w 1 * m.scaleObjective - regularization m w * m.scaleObjective) ≤ -(expectedReturn m w' 1 * m.scaleObjective - regularization m w' * m.scaleObjective)
    rw [neg_le_neg_iff, ← sub_mul, ← sub_mul, mul_le_mul_iff_left₀ hso]
    rw [← hrho] at hopt
    have := mul_le_mul_of_nonneg_left hx hl
    linarith

/-! ### Greatest ratio -/

section ratio
variable (m : MeanRisk n T) (hs : 0 < m.scale) (hso : 0 < m.scaleObjective) (cs cs' : List (Constraint ℝ n)) (hr : m.objective = .maximizeRatio)
  (hcs : getWeightConstraints m.weights true true m.scale = .ok cs) (hcs' : getWeightConstraints m.weights false true m.scale = .ok cs') (hte : m.maxTrackingError = none)
  (hvar : m.riskLimits .variance = none) (hsv : m.riskLimits .semiVariance = none) (hl1 : m.l1Coef = 0) (hl2 : m.l2Coef = 0) (hm : isMip m.weights = false)
include hs hcs' hte hvar hsv hm

omit hvar hsv in
/-- A portfolio within the limits is a point of the problems without homogenisation. -/
theorem allowed_point (o : Objective) (ho : o ≠ .maximizeRatio) (c : ℝ) (w : Fin n → ℝ) (hw : Allowed m w) (a : (riskProgram m m.riskMeasure w 1).Aux) (ha : (riskProgram m m.riskMeasure w 1).feasible a) :
    Feasible { m with objective := o, riskAversion := c } cs' w 1 a := by
  have e : (fun i => w i / 1) = w := by
    funext i
    simp
  refine ⟨fun _ => rfl, fun x hx => ?_, fun x hx i => ?_, ?_, fun x hx => ?_, fun r x hx => ?_, ha, fun h => absurd h ho⟩
  · exact absurd (hte.symm.trans hx) (by simp)
  · change |w i - m.data.previousWeights i * 1| * m.scale ≤ x * 1 * m.scale
    rw [mul_le_mul_iff_left₀ hs, mul_one, mul_one]
    exact hw.returns.turnover x hx i
  · refine (C19_weight_limits m.weights _ true m.scale 1 hs one_pos w cs' hcs' hm).2 ?_
    rw [e]
    exact hw.limits
  · change expectedReturn m w 1 * m.scale ≥ x * 1 * m.scale
    rw [ge_iff_le, mul_le_mul_iff_left₀ hs, mul_one, expected_one]
    exact hw.returns.minReturn x hx
  · obtain ⟨b, hb, hbx⟩ := hw.risks r x hx
    refine ⟨b, hb, ?_⟩
    change (riskProgram m r w 1).risk b * m.scale ≤ x * 1 * m.scale
    rw [mul_one]
    exact (mul_le_mul_iff_left₀ hs).2 hbx

omit hte hm in
/-- A point of the problems without homogenisation is a portfolio within the limits. -/
theorem point_allowed (o : Objective) (ho : o ≠ .maximizeRatio) (c : ℝ) (w : Fin n → ℝ) (k : ℝ) (a : (riskProgram m m.riskMeasure w k).Aux)
    (h : Feasible { m with objective := o, riskAversion := c } cs' w k a) : k = 1 ∧ Allowed m w := by
  obtain rfl : k = 1 := h.factor ho
  have hf : factorIsVariable { m with objective := o, riskAversion := c } = false := by simp [factorIsVariable, ho]
  have := C18_returned_allowed { m with objective := o, riskAversion := c } hs cs' (by rw [hf]; exact hcs') hvar hsv w 1 one_pos a h
  rw [returned_one] at this
  exact ⟨rfl, this.limits, this.cardinality, ⟨this.returns.turnover, this.returns.minReturn⟩, this.risks⟩

omit hcs' hte hvar hsv hm in
include hr in
/-- The portfolio returned by the ratio problem earns more than the risk-free rate. -/
theorem returned_excess (w : Fin n → ℝ) (k : ℝ) (hk : 0 < k) (a : (riskProgram m m.riskMeasure w k).Aux) (h : Feasible m cs w k a) : 0 < excessReturn m (returnedWeights w k) := by
  have hge : homogenizationFactor m.data.mu * m.scale ≤ expectedReturn m w k * m.scale - m.data.riskFreeRate * k * m.scale := by
    obtain ⟨h1, h2⟩ := h.ratio hr
    by_cases hq : isAffine m
    · exact (h1 hq).ge
    · exact h2 hq
  rw [← sub_mul, mul_le_mul_iff_left₀ hs, expected_returned m w k hk] at hge
  have hpos := lt_of_lt_of_le (homogenization_pos m.data.mu) hge
  have : k * excessReturn m (returnedWeights w k) = k * netExpectedReturn m (returnedWeights w k) - m.data.riskFreeRate * k := by
    unfold excessReturn
    ring
  rw [← this] at hpos
  exact pos_of_mul_pos_right hpos hk.le

include hso hr hcs hl1 hl2

/-- **C146.** The portfolio of greatest ratio is the answer of `MINIMIZE_RISK` when its own expected return is asked for. -/
theorem C146_ratio_least_risk (w : Fin n → ℝ) (k : ℝ) (hk : 0 < k) (a : (riskProgram m m.riskMeasure w k).Aux) (h : IsOptimum m cs w k a)
    (hnn : isAffine m ∨ ∀ w' (a' : (riskProgram m m.riskMeasure w' 1).Aux), (riskProgram m m.riskMeasure w' 1).feasible a' → 0 ≤ (riskProgram m m.riskMeasure w' 1).risk a')
    (b : (riskProgram m m.riskMeasure (returnedWeights w k) 1).Aux) (hb : (riskProgram m m.riskMeasure (returnedWeights w k) 1).feasible b)
    (hmin : ∀ b', (riskProgram m m.riskMeasure (returnedWeights w k) 1).feasible b' →
      (riskProgram m m.riskMeasure (returnedWeights w k) 1).risk b ≤ (riskProgram m m.riskMeasure (returnedWeights w k) 1).risk b')
    (hpos : 0 ≤ (riskProgram m m.riskMeasure (returnedWeights w k) 1).risk b) :
    IsOptimum (leastRiskAt m (netExpectedReturn m (returnedWeights w k)) 1) cs' (returnedWeights w k) 1 b := by
  have hfv : factorIsVariable m = true := by simp [factorIsVariable, hr]
  have hE := returned_excess m hs cs hr w k hk a h.1
  have hall := C18_returned_allowed m hs cs (by rw [hfv]; exact hcs) hvar hsv w k hk a h.1
  obtain ⟨v, hv⟩ : ∃ v, v = returnedWeights w k := ⟨_, rfl⟩
  rw [← hv] at hE hall
  constructor
  · obtain ⟨h1, h2, h3, h4, h5, h6, h7, h8⟩ := allowed_point m hs cs' hcs' hte hm .minimizeRisk (by decide) 0 (returnedWeights w k) (hv ▸ hall) b hb
    refine ⟨h1, h2, h3, h4, fun y hy => ?_, h6, h7, fun hq => by simp [leastRiskAt] at hq⟩
    rcases List.mem_cons.1 hy with rfl | hy
    · change expectedReturn m (returnedWeights w k) 1 * m.scale ≥ _ * 1 * m.scale
      rw [expected_one, mul_one]
    · exact h5 y hy
  · rintro w' k' a' ⟨h1, h2, h3, h4, h5, h6, h7, h8⟩
    obtain rfl : k' = 1 := h1 (by simp [leastRiskAt])
    have hx : netExpectedReturn m (returnedWeights w k) ≤ netExpectedReturn m w' := by
      have : expectedReturn m w' 1 * m.scale ≥ netExpectedReturn m (returnedWeights w k) * 1 * m.scale := h5 _ List.mem_cons_self
      rwa [ge_iff_le, mul_le_mul_iff_left₀ hs, mul_one, expected_one] at this
    obtain ⟨-, hw'⟩ := point_allowed m hs cs' hcs' hvar hsv .minimizeRisk (by decide) m.riskAversion w' 1 a'
      ⟨fun _ => rfl, h2, h3, h4, fun y hy => h5 y (List.mem_cons_of_mem _ hy), h6, h7, fun hq => by cases hq⟩
    have hE' : excessReturn m (returnedWeights w k) ≤ excessReturn m w' := by unfold excessReturn; linarith
    have hpen : ∀ x (u : Fin n → ℝ), penalised m x u = x := by
      intro x u
      unfold penalised
      rw [hl1, hl2]
      ring
    rw [hv] at hE
    have he' := lt_of_lt_of_le hE hE'
    obtain ⟨b', hb', -, hcore⟩ := ratio_core m hs hso cs hr (by rw [hfv]; exact hcs) hte hvar hsv (fun _ => hl2) (fun _ => hl1) w k hk a h w' hw' he'
      (fun hq => by rw [hm] at hq; cases hq) a' h7 (by
        rcases hnn with hq | hq
        · exact Or.inl hq
        · exact Or.inr (by rw [hpen]; exact hq w' a' h7))
    rw [hpen, hpen] at hcore
    have hbb := hmin b' hb'
    have hrisk : (riskProgram m m.riskMeasure (returnedWeights w k) 1).risk b ≤ (riskProgram m m.riskMeasure w' 1).risk a' := by
      have hp : 0 < excessReturn m (returnedWeights w k) ^ degree m.riskMeasure := pow_pos hE _
      have hle : excessReturn m (returnedWeights w k) ^ degree m.riskMeasure ≤ excessReturn m w' ^ degree m.riskMeasure := pow_le_pow_left₀ hE.le hE' _
      have h3 : excessReturn m (returnedWeights w k) ^ degree m.riskMeasure * (riskProgram m m.riskMeasure (returnedWeights w k) 1).risk b ≤
          excessReturn m (returnedWeights w k) ^ degree m.riskMeasure * (riskProgram m m.riskMeasure w' 1).risk a' :=
        (mul_le_mul_of_nonneg_right hle hpos).trans ((mul_le_mul_of_nonneg_left hbb (pow_nonneg he'.le _)).trans hcore)
      exact (mul_le_mul_iff_right₀ hp).1 h3
    change (riskProgram m m.riskMeasure (returnedWeights w k) 1).risk b * m.scaleObjective + (m.l1Coef / 1 * _ + m.l2Coef / 1 * _) * m.scaleObjective ≤
      (riskProgram m m.riskMeasure w' 1).risk a' * m.scaleObjective + (m.l1Coef / 1 * _ + m.l2Coef / 1 * _) * m.scaleObjective
    rw [hl1, hl2]
    have := mul_le_mul_of_nonneg_right hrisk hso.le
    linarith

/-- **C146.** The portfolio of greatest ratio is the answer of `MAXIMIZE_UTILITY` at one risk aversion: its ratio, and half of excess return over risk for variance and semi-variance. -/
theorem C146_ratio_most_utility (w : Fin n → ℝ) (k : ℝ) (hk : 0 < k) (a : (riskProgram m m.riskMeasure w k).Aux) (h : IsOptimum m cs w k a)
    (hnn : ∀ w' (a' : (riskProgram m m.riskMeasure w' 1).Aux), (riskProgram m m.riskMeasure w' 1).feasible a' → 0 ≤ (riskProgram m m.riskMeasure w' 1).risk a')
    (b : (riskProgram m m.riskMeasure (returnedWeights w k) 1).Aux) (hb : (riskProgram m m.riskMeasure (returnedWeights w k) 1).feasible b)
    (hmin : ∀ b', (riskProgram m m.riskMeasure (returnedWeights w k) 1).feasible b' →
      (riskProgram m m.riskMeasure (returnedWeights w k) 1).risk b ≤ (riskProgram m m.riskMeasure (returnedWeights w k) 1).risk b')
    (hpos : 0 < (riskProgram m m.riskMeasure (returnedWeights w k) 1).risk b) :
    IsOptimum (mostUtilityAt m (excessReturn m (returnedWeights w k) / ((degree m.riskMeasure : ℝ) * (riskProgram m m.riskMeasure (returnedWeights w k) 1).risk b))) cs' (returnedWeights w k) 1 b := by
  have hfv : factorIsVariable m = true := by simp [factorIsVariable, hr]
  have hE := returned_excess m hs cs hr w k hk a h.1
  have hall := C18_returned_allowed m hs cs (by rw [hfv]; exact hcs) hvar hsv w k hk a h.1
  obtain ⟨c, hc⟩ : ∃ c, c = excessReturn m (returnedWeights w k) / ((degree m.riskMeasure : ℝ) * (riskProgram m m.riskMeasure (returnedWeights w k) 1).risk b) := ⟨_, rfl⟩
  rw [← hc]
  refine ⟨allowed_point m hs cs' hcs' hte hm .maximizeUtility (by decide) c _ hall b hb, ?_⟩
  intro w' k' a' hf
  obtain ⟨rfl, hw'⟩ := point_allowed m hs cs' hcs' hvar hsv .maximizeUtility (by decide) c w' k' a' hf
  have ha' : (riskProgram m m.riskMeasure w' 1).feasible a' := hf.aux
  change -(expectedReturn m (returnedWeights w k) 1 * m.scaleObjective - c * (riskProgram m m.riskMeasure (returnedWeights w k) 1).risk b * m.scaleObjective - (m.l1Coef * _ + m.l2Coef * _) * m.scaleObjective) ≤
    -(expectedReturn m w' 1 * m.scaleObjective - c * (riskProgram m m.riskMeasure w' 1).risk a' * m.scaleObjective - (m.l1Coef * _ + m.l2Coef * _) * m.scaleObjective)
  rw [hl1, hl2, expected_one, expected_one]
  have hpen : ∀ x (u : Fin n → ℝ), penalised m x u = x := by
    intro x u
    unfold penalised
    rw [hl1, hl2]
    ring
  have hrisk' := hnn w' a' ha'
  obtain ⟨rho, hrho⟩ : ∃ rho, rho = (riskProgram m m.riskMeasure (returnedWeights w k) 1).risk b := ⟨_, rfl⟩
  obtain ⟨rho', hrho'⟩ : ∃ rho', rho' = (riskProgram m m.riskMeasure w' 1).risk a' := ⟨_, rfl⟩
  obtain ⟨E, hEd⟩ : ∃ E, E = excessReturn m (returnedWeights w k) := ⟨_, rfl⟩
  obtain ⟨E', hEd'⟩ : ∃ E', E' = excessReturn m w' := ⟨_, rfl⟩
  have hcore : 0 < E' → E' ^ degree m.riskMeasure * rho ≤ E ^ degree m.riskMeasure * rho' := by
    intro he'
    rw [hEd'] at he'
    obtain ⟨b', hb', -, hcore⟩ := ratio_core m hs hso cs hr (by rw [hfv]; exact hcs) hte hvar hsv (fun _ => hl2) (fun _ => hl1) w k hk a h w' hw' he'
      (fun hq => by rw [hm] at hq; cases hq) a' ha' (Or.inr (by rw [hpen]; exact hrisk'))
    rw [hpen, hpen] at hcore
    rw [hEd', hEd, hrho, hrho']
    exact (mul_le_mul_of_nonneg_left (hmin b' hb') (pow_nonneg he'.le _)).trans hcore
  rw [← hrho, ← hEd] at hc
  rw [← hrho] at hpos ⊢
  rw [← hrho'] at hrisk' ⊢
  rw [← hEd] at hE
  have hmain : E' - c * rho' ≤ E - c * rho := by
    rcases (show degree m.riskMeasure = 1 ∨ degree m.riskMeasure = 2 by cases m.riskMeasure <;> simp [degree]) with hd | hd
    · rw [hd] at hc hcore
      rw [Nat.cast_one, one_mul] at hc
      have h1 : c * rho = E := by rw [hc, div_mul_cancel₀ _ hpos.ne']
      have hc0 : 0 < c := by rw [hc]; positivity
      rcases le_or_gt E' 0 with hle | hgt
      · have := mul_nonneg hc0.le hrisk'
        linarith
      · have h2 := hcore hgt
        rw [pow_one, pow_one, ← h1, mul_right_comm] at h2
        have := (mul_le_mul_iff_left₀ hpos).1 h2
        linarith
    · rw [hd] at hc hcore
      have h1 : c * rho = E / 2 := by rw [hc]; push_cast; field_simp
      have hc0 : 0 < c := by rw [hc]; push_cast; positivity
      rcases le_or_gt E' 0 with hle | hgt
      · have := mul_nonneg hc0.le hrisk'
        linarith
      · have h2 := hcore hgt
        have h3 : E' ^ 2 * (c * rho) ≤ E ^ 2 * (c * rho') := by nlinarith
        rw [h1] at h3
        have h4 : E' ^ 2 / 2 ≤ E * (c * rho') := by
          have : E * (E' ^ 2 / 2) ≤ E * (E * (c * rho')) := by nlinarith
          exact (mul_le_mul_iff_right₀ hE).1 this
        have h5 : E * (E' - c * rho') ≤ E * (E / 2) := by nlinarith [sq_nonneg (E - E')]
        have h6 := (mul_le_mul_iff_right₀ hE).1 h5
        linarith
  have hret : E' - E = netExpectedReturn m w' - netExpectedReturn m (returnedWeights w k) := by
    rw [hEd', hEd]
    unfold excessReturn
    ring
  have := mul_le_mul_of_nonneg_right (show netExpectedReturn m w' - c * rho' ≤ netExpectedReturn m (returnedWeights w k) - c * rho by linarith) hso.le
  nlinarith

end ratio

/-! ### An example -/

/-- Two uncorrelated assets of variance 1 with expected returns of 4% and 3%, long-only: 4/7 and 3/7 have the greatest ratio, 1/20. Hence they have the least risk among those with their return and the greatest utility at
the risk aversion 1/20, which in turn meets the hypotheses of the claims on utilities. -/
example : ∃ (cs' : List (Constraint ℝ 2)), getWeightConstraints longOnly false true (1 : ℝ) = .ok cs' ∧
    (∃ b, IsOptimum (leastRiskAt (twoAssets (4 / 100) (3 / 100) longOnly) (1 / 28) 1) cs' ![4 / 7, 3 / 7] 1 b) ∧
    (∃ b, IsOptimum (mostUtilityAt (twoAssets (4 / 100) (3 / 100) longOnly) (1 / 20)) cs' ![4 / 7, 3 / 7] 1 b) ∧
    ∃ b, IsOptimum (leastRiskAt (mostUtilityAt (twoAssets (4 / 100) (3 / 100) longOnly) (1 / 20)) (1 / 28) (1 / 20)) cs' ![4 / 7, 3 / 7] 1 b := by
  obtain ⟨cs, hcs⟩ := longOnly_ok
  obtain ⟨cs', hcs'⟩ : ∃ cs', getWeightConstraints longOnly false true (1 : ℝ) = .ok cs' := by
    unfold getWeightConstraints
    simp [longOnly, noLimits, isMip, simpleConstraints, minConstraint, longConstraint, shortConstraint, budgetConstraint, mipPart, bind, Except.bind, pure, Except.pure]
  have hw : returnedWeights ![(56 / 100 : ℝ), 42 / 100] (98 / 100) = ![4 / 7, 3 / 7] := by
    funext i
    fin_cases i <;> norm_num [returnedWeights]
  have hnn : ∀ (w' : Fin 2 → ℝ) (a' : ℝ), (riskProgram (twoAssets (4 / 100) (3 / 100) longOnly) .standardDeviation w' 1).feasible a' → 0 ≤ a' := fun w' a' h => ((twoAssets_std _ _ _ _ _ _).1 h).1
  have hb : (riskProgram (twoAssets (4 / 100) (3 / 100) longOnly) .standardDeviation (returnedWeights ![(56 / 100 : ℝ), 42 / 100] (98 / 100)) 1).feasible (5 / 7 : ℝ) := by
    refine (twoAssets_std _ _ _ _ _ _).2 ⟨by norm_num, Real.sqrt_le_iff.2 ⟨by norm_num, ?_⟩⟩
    norm_num [returnedWeights]
  have hmin : ∀ v : ℝ, (riskProgram (twoAssets (4 / 100) (3 / 100) longOnly) .standardDeviation (returnedWeights ![(56 / 100 : ℝ), 42 / 100] (98 / 100)) 1).feasible v → 5 / 7 ≤ v := by
    intro v hv
    have h2 := (twoAssets_std _ _ _ _ _ _).1 hv
    have h3 := (Real.sqrt_le_left h2.1).1 h2.2
    have e : returnedWeights ![(56 / 100 : ℝ), 42 / 100] (98 / 100) 0 ^ 2 + returnedWeights ![(56 / 100 : ℝ), 42 / 100] (98 / 100) 1 ^ 2 = (5 / 7) ^ 2 := by
      norm_num [returnedWeights]
    rw [e] at h3
    exact (pow_le_pow_iff_left₀ (by norm_num) h2.1 (by norm_num)).1 h3
  have hret : netExpectedReturn (twoAssets (4 / 100) (3 / 100) longOnly) ![4 / 7, 3 / 7] = 1 / 28 := by
    rw [← expected_one, twoAssets_expected]
    norm_num
  have hex : excessReturn (twoAssets (4 / 100) (3 / 100) longOnly) ![4 / 7, 3 / 7] = 1 / 28 := by
    rw [excessReturn, hret]
    norm_num [twoAssets]
  have h1 := C146_ratio_least_risk (twoAssets (4 / 100) (3 / 100) longOnly) one_pos one_pos cs cs' rfl hcs hcs' rfl rfl rfl rfl rfl rfl _ (98 / 100) (by norm_num) _ (longOnly_optimum cs hcs)
    (Or.inl (twoAssets_affine _ _ _)) (5 / 7 : ℝ) hb hmin (by change (0 : ℝ) ≤ 5 / 7; norm_num)
  have h2 := C146_ratio_most_utility (twoAssets (4 / 100) (3 / 100) longOnly) one_pos one_pos cs cs' rfl hcs hcs' rfl rfl rfl rfl rfl rfl _ (98 / 100) (by norm_num) _ (longOnly_optimum cs hcs)
    hnn (5 / 7 : ℝ) hb hmin (by change (0 : ℝ) < 5 / 7; norm_num)
  rw [hw, hret] at h1
  have hc : (1 / 28 : ℝ) / (((degree RiskMeasure.standardDeviation : ℕ) : ℝ) * (5 / 7)) = 1 / 20 := by norm_num [degree]
  have h3 : IsOptimum (mostUtilityAt (twoAssets (4 / 100) (3 / 100) longOnly) (1 / 20)) cs' ![4 / 7, 3 / 7] 1 (5 / 7 : ℝ) := by
    rw [hw, hex] at h2
    rw [← hc]
    exact h2
  refine ⟨cs', hcs', ⟨_, h1⟩, ⟨_, h3⟩, ?_⟩
  have h4 := (C146_utility_least_risk (mostUtilityAt (twoAssets (4 / 100) (3 / 100) longOnly) (1 / 20)) one_pos one_pos rfl (by norm_num [mostUtilityAt]) cs' _ 1 _ h3).2
  have h5 : netExpectedReturn (mostUtilityAt (twoAssets (4 / 100) (3 / 100) longOnly) (1 / 20)) ![4 / 7, 3 / 7] = 1 / 28 := hret
  rw [h5] at h4
  exact ⟨_, h4⟩

end Skfolio.Convex
