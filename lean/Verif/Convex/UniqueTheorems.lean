import Verif.Convex.Convexity
import Verif.Convex.RatioTheorems
import Verif.Convex.FrontierExamples
import Verif.Convex.RelabelTheorems

/-! **C111.** When the weights a `MeanRisk` fit returns are determined by the problem, i.e. do not depend on the solver. -/
set_option autoImplicit false

namespace Skfolio.Convex

open Skfolio.Measures

section
variable {n T : Nat}

/-- The volatility of a portfolio. -/
noncomputable def portfolioVolatility (m : MeanRisk n T) (w : Fin n → ℝ) : ℝ := Real.sqrt (∑ i, ∑ j, w i * covarianceOf m i j * w j)

/-- The covariance is positive definite: no portfolio but the empty one is free of risk. -/
def PositiveDefinite (m : MeanRisk n T) : Prop := ∀ w : Fin n → ℝ, w ≠ 0 → 0 < ∑ i, ∑ j, w i * covarianceOf m i j * w j

/-- The risk enters the objective: `MINIMIZE_RISK`, or `MAXIMIZE_UTILITY` with a positive risk aversion. -/
def RiskCounts (m : MeanRisk n T) : Prop := m.objective = .minimizeRisk ∨ (m.objective = .maximizeUtility ∧ 0 < m.riskAversion)

/-! ### Strict convexity of the norm -/

section
variable {q : Nat}

/-- The loadings of a portfolio on the factors of the covariance. -/
noncomputable def loading (m : MeanRisk n T) (w : Fin n → ℝ) (l : Fin n) : ℝ := ∑ i, m.cholesky i l * w i

theorem volatility_eq (m : MeanRisk n T) (w : Fin n → ℝ) : ∑ i, ∑ j, w i * covarianceOf m i j * w j = ∑ l, loading m w l ^ 2 := by
  have e : ∀ l, loading m w l ^ 2 = ∑ i, ∑ j, w i * (m.cholesky i l * m.cholesky j l) * w j := by
    intro l
    unfold loading
    rw [sq, Finset.sum_mul_sum]
    exact Finset.sum_congr rfl fun i _ => Finset.sum_congr rfl fun j _ => by ring
  simp only [e, covarianceOf, Finset.mul_sum, Finset.sum_mul]
  rw [Finset.sum_comm]
  rw [Finset.sum_comm (s := Finset.univ) (t := Finset.univ) (f := fun l i => ∑ j, w i * (m.cholesky i l * m.cholesky j l) * w j)]
  rw [Finset.sum_comm]
  exact Finset.sum_congr rfl fun i _ => Finset.sum_comm

theorem loading_mix (m : MeanRisk n T) (t : ℝ) (w v : Fin n → ℝ) (l : Fin n) : loading m (mix t w v) l = (1 - t) * loading m w l + t * loading m v l := sum_mix t w v fun i => m.cholesky i l

theorem cross_le (f g : Fin q → ℝ) : ∑ l, f l * g l ≤ Real.sqrt (∑ l, f l ^ 2) * Real.sqrt (∑ l, g l ^ 2) := by
  refine Real.le_sqrt_of_sq_le ?_ |>.trans_eq (Real.sqrt_mul (Finset.sum_nonneg fun _ _ => sq_nonneg _) _)
  exact Finset.sum_mul_sq_le_sq_mul_sq _ _ _

theorem parallel_of_cross (f g : Fin q → ℝ) (h : ∑ l, f l * g l = Real.sqrt (∑ l, f l ^ 2) * Real.sqrt (∑ l, g l ^ 2)) :
    ∑ l, (Real.sqrt (∑ l, g l ^ 2) * f l - Real.sqrt (∑ l, f l ^ 2) * g l) ^ 2 = 0 := by
  have hA : Real.sqrt (∑ l, f l ^ 2) ^ 2 = ∑ l, f l ^ 2 := Real.sq_sqrt (Finset.sum_nonneg fun _ _ => sq_nonneg _)
  have hB : Real.sqrt (∑ l, g l ^ 2) ^ 2 = ∑ l, g l ^ 2 := Real.sq_sqrt (Finset.sum_nonneg fun _ _ => sq_nonneg _)
  generalize Real.sqrt (∑ l, f l ^ 2) = A at *
  generalize Real.sqrt (∑ l, g l ^ 2) = B at *
  have e : ∑ l, (B * f l - A * g l) ^ 2 = B ^ 2 * (∑ l, f l ^ 2) - 2 * A * B * (∑ l, f l * g l) + A ^ 2 * ∑ l, g l ^ 2 := by
    rw [Finset.mul_sum, Finset.mul_sum, Finset.mul_sum, ← Finset.sum_sub_distrib, ← Finset.sum_add_distrib]
    exact Finset.sum_congr rfl fun l _ => by ring
  rw [e, h, ← hA, ← hB]
  ring

end

/-- Two different portfolios of the same budget other than 0 are strictly better diversified together. -/
theorem volatility_strict (m : MeanRisk n T) (hpd : PositiveDefinite m) (b : ℝ) (hb : b ≠ 0) (w v : Fin n → ℝ) (hw : ∑ i, w i = b) (hv : ∑ i, v i = b) (hne : w ≠ v) :
    portfolioVolatility m (mix (1 / 2) w v) < (portfolioVolatility m w + portfolioVolatility m v) / 2 := by
  unfold portfolioVolatility
  simp only [volatility_eq]
  have hA : Real.sqrt (∑ l, loading m w l ^ 2) ^ 2 = ∑ l, loading m w l ^ 2 := Real.sq_sqrt (Finset.sum_nonneg fun _ _ => sq_nonneg _)
  have hB : Real.sqrt (∑ l, loading m v l ^ 2) ^ 2 = ∑ l, loading m v l ^ 2 := Real.sq_sqrt (Finset.sum_nonneg fun _ _ => sq_nonneg _)
  have hA0 : 0 < Real.sqrt (∑ l, loading m w l ^ 2) := by
    refine Real.sqrt_pos.2 ?_
    rw [← volatility_eq]
    refine hpd w ?_
    rintro rfl
    exact hb (by simpa using hw.symm)
  have hlt : ∑ l, loading m w l * loading m v l < Real.sqrt (∑ l, loading m w l ^ 2) * Real.sqrt (∑ l, loading m v l ^ 2) := by
    refine lt_of_le_of_ne (cross_le _ _) fun he => hne ?_
    have hp := parallel_of_cross _ _ he
    generalize Real.sqrt (∑ l, loading m w l ^ 2) = A at *
    generalize Real.sqrt (∑ l, loading m v l ^ 2) = B at *
    have hz : (fun i => B * w i - A * v i) = 0 := by
      by_contra hz
      have := hpd _ hz
      rw [volatility_eq] at this
      refine this.ne' ?_
      rw [← hp]
      refine Finset.sum_congr rfl fun l _ => ?_
      unfold loading
      rw [Finset.mul_sum, Finset.mul_sum, ← Finset.sum_sub_distrib]
      congr 1
      exact Finset.sum_congr rfl fun i _ => by ring
    have hsum : ∑ i, (B * w i - A * v i) = 0 := Finset.sum_eq_zero fun i _ => congrFun hz i
    rw [Finset.sum_sub_distrib, ← Finset.mul_sum, ← Finset.mul_sum, hw, hv, ← sub_mul] at hsum
    have hBA : B = A := by
      rcases mul_eq_zero.1 hsum with h | h
      · linarith
      · exact absurd h hb
    funext i
    have := congrFun hz i
    simp only [Pi.zero_apply, hBA] at this
    rw [← mul_sub] at this
    rcases mul_eq_zero.1 this with h | h
    · exact absurd h hA0.ne'
    · linarith
  have he : ∑ l, loading m (mix (1 / 2) w v) l ^ 2 = ((∑ l, loading m w l ^ 2) + 2 * (∑ l, loading m w l * loading m v l) + ∑ l, loading m v l ^ 2) / 4 := by
    rw [Finset.mul_sum, ← Finset.sum_add_distrib, ← Finset.sum_add_distrib, Finset.sum_div]
    refine Finset.sum_congr rfl fun l _ => ?_
    rw [loading_mix]
    ring
  have hB0 := Real.sqrt_nonneg (∑ l, loading m v l ^ 2)
  rw [Real.sqrt_lt' (by linarith), he]
  nlinarith

/-- Two different portfolios have, mixed, a variance strictly below the average. -/
theorem variance_strict (m : MeanRisk n T) (hpd : PositiveDefinite m) (w v : Fin n → ℝ) (hne : w ≠ v) :
    portfolioVolatility m (mix (1 / 2) w v) ^ 2 < (portfolioVolatility m w ^ 2 + portfolioVolatility m v ^ 2) / 2 := by
  have h0 : ∀ u, portfolioVolatility m u ^ 2 = ∑ l, loading m u l ^ 2 := fun u => by
    unfold portfolioVolatility
    rw [volatility_eq, Real.sq_sqrt (Finset.sum_nonneg fun _ _ => sq_nonneg _)]
  have hd := hpd (w - v) (sub_ne_zero.2 hne)
  rw [volatility_eq] at hd
  rw [h0, h0, h0]
  have he : ∑ l, loading m (mix (1 / 2) w v) l ^ 2 = ((∑ l, loading m w l ^ 2) + ∑ l, loading m v l ^ 2) / 2 - (∑ l, loading m (w - v) l ^ 2) / 4 := by
    rw [← Finset.sum_add_distrib, Finset.sum_div, Finset.sum_div, ← Finset.sum_sub_distrib]
    refine Finset.sum_congr rfl fun l _ => ?_
    have e : loading m (w - v) l = loading m w l - loading m v l := by
      unfold loading
      rw [← Finset.sum_sub_distrib]
      exact Finset.sum_congr rfl fun i _ => by simp only [Pi.sub_apply]; ring
    rw [loading_mix, e]
    ring
  rw [he]
  linarith

theorem std_value (m : MeanRisk n T) (hs : 0 < m.scale) (w : Fin n → ℝ) (k : ℝ) : IsOptimalValue (riskProgram m .standardDeviation w k) (portfolioVolatility m w) :=
  C17_standard_deviation m.cholesky (covarianceOf m) (fun _ _ => rfl) w m.scale hs

theorem var_value (m : MeanRisk n T) (hs : 0 < m.scale) (w : Fin n → ℝ) (k : ℝ) : IsOptimalValue (riskProgram m .variance w k) (portfolioVolatility m w ^ 2) := by
  have h := C17_variance m.cholesky (covarianceOf m) (fun _ _ => rfl) w m.scale hs
  unfold portfolioVolatility
  rwa [Real.sq_sqrt (by rw [volatility_eq]; exact Finset.sum_nonneg fun _ _ => sq_nonneg _)]

/-! ### The objective between two portfolios -/

/-- How much the risk and the expected return count. -/
theorem objective_form (m : MeanRisk n T) (hr : m.objective ≠ .maximizeRatio) (ha : 0 ≤ m.riskAversion) :
    ∃ x y : ℝ, 0 ≤ x ∧ 0 ≤ y ∧ (RiskCounts m → 0 < x) ∧
      ∀ (w : Fin n → ℝ) a, objectiveValue m w 1 a = (x * (riskProgram m m.riskMeasure w 1).risk a - y * netExpectedReturn m w + penalty m w) * m.scaleObjective := by
  unfold RiskCounts objectiveValue
  simp only [expected_one, penalty_eq]
  cases ho : m.objective with
  | maximizeReturn => exact ⟨0, 1, le_rfl, zero_le_one, by simp, fun w a => by ring⟩
  | minimizeRisk => exact ⟨1, 0, zero_le_one, le_rfl, by simp, fun w a => by ring⟩
  | maximizeUtility => exact ⟨m.riskAversion, 1, ha, zero_le_one, by simp, fun w a => by ring⟩
  | maximizeRatio => exact absurd ho hr

theorem penalty_strict (m : MeanRisk n T) (hl1 : 0 ≤ m.l1Coef) (hl2 : 0 < m.l2Coef) (w v : Fin n → ℝ) (hne : w ≠ v) :
    penalty m (mix (1 / 2) w v) < (1 - 1 / 2) * penalty m w + 1 / 2 * penalty m v := by
  have e1 := sum_convex (1 / 2) w v (fun _ x => |x|) fun i => by
    have := abs_mix (1 / 2) (by norm_num) (by norm_num) (w i) (v i) 0
    simpa [mix_apply] using this
  have e2 : ∑ i, mix (1 / 2) w v i ^ 2 < (1 - 1 / 2) * (∑ i, w i ^ 2) + 1 / 2 * ∑ i, v i ^ 2 := by
    rw [Finset.mul_sum, Finset.mul_sum, ← Finset.sum_add_distrib]
    obtain ⟨i, hi⟩ := Function.ne_iff.1 hne
    refine Finset.sum_lt_sum (fun j _ => ?_) ⟨i, Finset.mem_univ i, ?_⟩
    · rw [mix_apply]
      nlinarith [sq_nonneg (w j - v j)]
    · rw [mix_apply]
      have := sq_pos_of_ne_zero (sub_ne_zero.2 hi)
      nlinarith
  have g1 := mul_le_mul_of_nonneg_left e1 hl1
  have g2 := mul_lt_mul_of_pos_left e2 hl2
  unfold penalty
  calc _ < _ := add_lt_add_of_le_of_lt g1 g2
    _ = _ := by ring

section
variable (m : MeanRisk n T) (hs : 0 < m.scale) (hso : 0 < m.scaleObjective) (hT : 2 ≤ T) (hr : m.objective ≠ .maximizeRatio) (hmip : isMip m.weights = false)
  (cs : List (Constraint ℝ n)) (hcs : getWeightConstraints m.weights (factorIsVariable m) true m.scale = .ok cs)
  (hu : ∀ kappa S, m.uncertainty = some (kappa, S) → 0 ≤ kappa) (hra : 0 ≤ m.riskAversion) (hl1 : 0 ≤ m.l1Coef) (hl2 : 0 ≤ m.l2Coef)
include hs hso hT hr hmip hcs hu hra hl1 hl2

/-- Two optima differ only if neither the penalty nor the risk is strictly convex between them. -/
theorem unique_core (w v : Fin n → ℝ) (a : (riskProgram m m.riskMeasure w 1).Aux) (h : IsOptimum m cs w 1 a) (b : (riskProgram m m.riskMeasure v 1).Aux) (h' : IsOptimum m cs v 1 b)
    (hstrict : penalty m (mix (1 / 2) w v) < (1 - 1 / 2) * penalty m w + 1 / 2 * penalty m v ∨
      (RiskCounts m ∧ ∃ c, (riskProgram m m.riskMeasure (mix (1 / 2) w v) 1).feasible c ∧
        (riskProgram m m.riskMeasure (mix (1 / 2) w v) 1).risk c < (1 - 1 / 2) * (riskProgram m m.riskMeasure w 1).risk a + 1 / 2 * (riskProgram m m.riskMeasure v 1).risk b)) : False := by
  obtain ⟨x, y, hx, hy, hxp, hform⟩ := objective_form m hr hra
  obtain ⟨c, hc, hle⟩ := feasible_mix m hs hT hr hmip cs hcs hu (1 / 2) (by norm_num) (by norm_num) w v a h.1 b h'.1
  have hret := mul_le_mul_of_nonneg_left (return_mix m hu (1 / 2) (by norm_num) (by norm_num) w v) hy
  have hpen := penalty_mix m hl1 hl2 (1 / 2) (by norm_num) (by norm_num) w v
  have hopt : ∀ d, (riskProgram m m.riskMeasure (mix (1 / 2) w v) 1).feasible d →
      x * (riskProgram m m.riskMeasure w 1).risk a - y * netExpectedReturn m w + penalty m w ≤
        x * (riskProgram m m.riskMeasure (mix (1 / 2) w v) 1).risk d - y * netExpectedReturn m (mix (1 / 2) w v) + penalty m (mix (1 / 2) w v) ∧
      x * (riskProgram m m.riskMeasure v 1).risk b - y * netExpectedReturn m v + penalty m v ≤
        x * (riskProgram m m.riskMeasure (mix (1 / 2) w v) 1).risk d - y * netExpectedReturn m (mix (1 / 2) w v) + penalty m (mix (1 / 2) w v) := by
    intro d hd
    have hf : Feasible m cs (mix (1 / 2) w v) 1 d := { hc with aux := hd }
    have g1 := h.2 _ _ d hf
    have g2 := h'.2 _ _ d hf
    rw [hform, hform] at g1 g2
    exact ⟨(mul_le_mul_iff_left₀ hso).1 g1, (mul_le_mul_iff_left₀ hso).1 g2⟩
  rcases hstrict with hp | ⟨hcount, d, hd, hlt⟩
  · obtain ⟨g1, g2⟩ := hopt c hc.aux
    have := mul_le_mul_of_nonneg_left hle hx
    linarith
  · obtain ⟨g1, g2⟩ := hopt d hd
    have := mul_lt_mul_of_pos_left hlt (hxp hcount)
    linarith

/-- **C111.** With a positive `l2_coef` the weights are unique, for every risk measure and every objective other than the ratio. -/
theorem C111_regularised (hl2' : 0 < m.l2Coef) (w w' : Fin n → ℝ) (k k' : ℝ) (a : (riskProgram m m.riskMeasure w k).Aux) (a' : (riskProgram m m.riskMeasure w' k').Aux)
    (h : IsOptimum m cs w k a) (h' : IsOptimum m cs w' k' a') : returnedWeights w k = returnedWeights w' k' := by
  have hk := h.1.factor hr
  have hk' := h'.1.factor hr
  subst hk hk'
  rw [returned_one, returned_one]
  by_contra hne
  exact unique_core m hs hso hT hr hmip cs hcs hu hra hl1 hl2 w w' a h a' h' (Or.inl (penalty_strict m hl1 hl2' w w' hne))

/-- **C111.** With a positive definite covariance the weights of least variance, or of greatest mean-variance utility, are unique. -/
theorem C111_variance (hv : m.riskMeasure = .variance) (hc : RiskCounts m) (hpd : PositiveDefinite m) (w w' : Fin n → ℝ) (k k' : ℝ)
    (a : (riskProgram m m.riskMeasure w k).Aux) (a' : (riskProgram m m.riskMeasure w' k').Aux)
    (h : IsOptimum m cs w k a) (h' : IsOptimum m cs w' k' a') : returnedWeights w k = returnedWeights w' k' := by
  have hk := h.1.factor hr
  have hk' := h'.1.factor hr
  subst hk hk'
  rw [returned_one, returned_one]
  by_contra hne
  refine unique_core m hs hso hT hr hmip cs hcs hu hra hl1 hl2 w w' a h a' h' (Or.inr ⟨hc, ?_⟩)
  have e1 : ∀ u, IsOptimalValue (riskProgram m m.riskMeasure u 1) (portfolioVolatility m u ^ 2) := fun u => by
    rw [hv]
    exact var_value m hs u 1
  obtain ⟨⟨c, hc1, hc2⟩, -⟩ := e1 (mix (1 / 2) w w')
  refine ⟨c, hc1, ?_⟩
  rw [hc2]
  have g1 := (e1 w).2 a h.1.aux
  have g2 := (e1 w').2 a' h'.1.aux
  have := variance_strict m hpd w w' hne
  linarith

/-- **C111.** So are those of least standard deviation, if a budget other than 0 is set (the default is 1). -/
theorem C111_standard_deviation (hv : m.riskMeasure = .standardDeviation) (hc : RiskCounts m) (hpd : PositiveDefinite m) (b : ℝ) (hb : m.weights.budget = some b) (hb0 : b ≠ 0)
    (w w' : Fin n → ℝ) (k k' : ℝ) (a : (riskProgram m m.riskMeasure w k).Aux) (a' : (riskProgram m m.riskMeasure w' k').Aux)
    (h : IsOptimum m cs w k a) (h' : IsOptimum m cs w' k' a') : returnedWeights w k = returnedWeights w' k' := by
  have hk := h.1.factor hr
  have hk' := h'.1.factor hr
  subst hk hk'
  rw [returned_one, returned_one]
  by_contra hne
  refine unique_core m hs hso hT hr hmip cs hcs hu hra hl1 hl2 w w' a h a' h' (Or.inr ⟨hc, ?_⟩)
  have e1 : ∀ u, IsOptimalValue (riskProgram m m.riskMeasure u 1) (portfolioVolatility m u) := fun u => by
    rw [hv]
    exact std_value m hs u 1
  have hbud : ∀ u (c : (riskProgram m m.riskMeasure u 1).Aux), Feasible m cs u 1 c → ∑ i, u i = b := fun u c hf => by
    have := ((C19_weight_limits m.weights _ true m.scale 1 hs one_pos u cs hcs hmip).1 hf.weight).budget b hb
    simpa using this
  obtain ⟨⟨c, hc1, hc2⟩, -⟩ := e1 (mix (1 / 2) w w')
  refine ⟨c, hc1, ?_⟩
  rw [hc2]
  have g1 := (e1 w).2 a h.1.aux
  have g2 := (e1 w').2 a' h'.1.aux
  have := volatility_strict m hpd b hb0 w w' (hbud w a h.1) (hbud w' a' h'.1) hne
  linarith

end

/-! ### The ratio -/

/-- Portfolios between two allowed ones are allowed. -/
theorem allowed_mix (m : MeanRisk n T) (hs : 0 < m.scale) (hT : 2 ≤ T) (hu : ∀ kappa S, m.uncertainty = some (kappa, S) → 0 ≤ kappa)
    (t : ℝ) (h0 : 0 < t) (h1 : t < 1) (w v : Fin n → ℝ) (hw : Allowed m w) (hv : Allowed m v) (hcard : RespectsCardinality m.weights (mix t w v)) : Allowed m (mix t w v) := by
  refine ⟨limits_mix m.weights t h0.le h1.le w v hw.limits hv.limits, hcard, ⟨fun x hx i => ?_, fun x hx => ?_⟩, fun r x hx => ?_⟩
  · exact (abs_mix t h0.le h1.le (w i) (v i) _).trans (between_le h0.le h1.le (hw.returns.turnover x hx i) (hv.returns.turnover x hx i))
  · exact (le_between h0.le h1.le (hw.returns.minReturn x hx) (hv.returns.minReturn x hx)).trans (return_mix m hu t h0.le h1.le w v)
  · obtain ⟨a1, ha1, ha2⟩ := hw.risks r x hx
    obtain ⟨b1, hb1, hb2⟩ := hv.risks r x hx
    obtain ⟨c1, hc1, hc2⟩ := program_convex m hs hT r w v t h0 h1 a1 ha1 b1 hb1
    exact ⟨c1, hc1, hc2.trans (between_le h0.le h1.le ha2 hb2)⟩

theorem cardinality_trivial (p : Params ℝ n) (hmip : isMip p = false) (w : Fin n → ℝ) : RespectsCardinality p w := by
  unfold isMip at hmip
  simp only [Bool.or_eq_false_iff, Option.isSome_eq_false_iff, Option.isNone_iff_eq_none] at hmip
  obtain ⟨⟨⟨h1, h2⟩, h3⟩, h4⟩ := hmip
  refine ⟨fun c hc => ?_, fun rows hc => (by rw [h2] at hc; cases hc), fun rows hc => (by rw [h3] at hc; cases hc), fun rows hc => (by rw [h4] at hc; cases hc)⟩
  rw [hc] at h1
  simp only [decide_eq_false_iff_not, not_lt] at h1
  refine le_trans ?_ h1
  unfold invested
  exact (Finset.card_le_univ _).trans_eq (Fintype.card_fin n)

/-- **C111.** The portfolio of maximum Sharpe ratio is unique: positive definite covariance, a budget other than 0, no penalty on the weights. -/
theorem C111_maximum_sharpe (m : MeanRisk n T) (hs : 0 < m.scale) (hso : 0 < m.scaleObjective) (hT : 2 ≤ T) (hr : m.objective = .maximizeRatio) (hmip : isMip m.weights = false)
    (cs : List (Constraint ℝ n)) (hcs : getWeightConstraints m.weights (factorIsVariable m) true m.scale = .ok cs) (hu : ∀ kappa S, m.uncertainty = some (kappa, S) → 0 ≤ kappa)
    (hte : m.maxTrackingError = none) (hvar : m.riskLimits .variance = none) (hsv : m.riskLimits .semiVariance = none) (hl1 : m.l1Coef = 0) (hl2 : m.l2Coef = 0)
    (hstd : m.riskMeasure = .standardDeviation) (hpd : PositiveDefinite m) (b : ℝ) (hb : m.weights.budget = some b) (hb0 : b ≠ 0)
    (w w' : Fin n → ℝ) (k k' : ℝ) (hk : 0 < k) (hk' : 0 < k') (a : (riskProgram m m.riskMeasure w k).Aux) (a' : (riskProgram m m.riskMeasure w' k').Aux)
    (h : IsOptimum m cs w k a) (h' : IsOptimum m cs w' k' a') : returnedWeights w k = returnedWeights w' k' := by
  by_contra hne
  have hal := C18_returned_allowed m hs cs hcs hvar hsv w k hk a h.1
  have hal' := C18_returned_allowed m hs cs hcs hvar hsv w' k' hk' a' h'.1
  have hval : ∀ u, IsOptimalValue (riskProgram m m.riskMeasure u 1) (portfolioVolatility m u) := fun u => by
    rw [hstd]
    exact std_value m hs u 1
  have hd : degree m.riskMeasure = 1 := by rw [hstd]; rfl
  have hpen : ∀ x (v : Fin n → ℝ), penalised m x v = x := by
    intro x v
    unfold penalised
    rw [hl1, hl2]
    ring
  have hexc : ∀ (w : Fin n → ℝ) (k : ℝ) (hk : 0 < k) (a : (riskProgram m m.riskMeasure w k).Aux), Feasible m cs w k a → 0 < excessReturn m (returnedWeights w k) := by
    intro w k hk a hf
    have hh := homogenization_pos m.data.mu
    have hratio := hf.ratio hr
    have hge : homogenizationFactor m.data.mu ≤ expectedReturn m w k - m.data.riskFreeRate * k := by
      by_cases haf : isAffine m
      · have := hratio.1 haf
        rw [← sub_mul] at this
        exact ((mul_left_inj' hs.ne').1 this).ge
      · have := hratio.2 haf
        rw [← sub_mul] at this
        exact (mul_le_mul_iff_left₀ hs).1 this
    rw [expected_returned m w k hk] at hge
    unfold excessReturn
    have : 0 < k * (netExpectedReturn m (returnedWeights w k) - m.data.riskFreeRate) := by
      have e : k * (netExpectedReturn m (returnedWeights w k) - m.data.riskFreeRate) = k * netExpectedReturn m (returnedWeights w k) - m.data.riskFreeRate * k := by ring
      linarith
    exact (mul_pos_iff_of_pos_left hk).1 this
  have hcmp : ∀ (w : Fin n → ℝ) (k : ℝ) (hk : 0 < k) (a : (riskProgram m m.riskMeasure w k).Aux), IsOptimum m cs w k a → ∀ v, Allowed m v → 0 < excessReturn m v →
      excessReturn m v * portfolioVolatility m (returnedWeights w k) ≤ excessReturn m (returnedWeights w k) * portfolioVolatility m v := by
    intro w k hk a ho v hv hev
    have hle := (C18_ratio m hs hso cs hr hcs hte hvar hsv (fun _ => hl2) (fun _ => hl1) w k hk a ho _ (hval _) v hv hev
      (fun hm' => by rw [hmip] at hm'; cases hm') _ (hval v) (Or.inr (by rw [hpen]; exact Real.sqrt_nonneg _))).2
    rwa [hd, pow_one, pow_one, hpen, hpen] at hle
  have h12 := hcmp w k hk a h _ hal' (hexc w' k' hk' a' h'.1)
  have h21 := hcmp w' k' hk' a' h' _ hal (hexc w k hk a h.1)
  have he1 := hexc w k hk a h.1
  have he2 := hexc w' k' hk' a' h'.1
  have hret := return_mix m hu (1 / 2) (by norm_num) (by norm_num) (returnedWeights w k) (returnedWeights w' k')
  have hemix : (excessReturn m (returnedWeights w k) + excessReturn m (returnedWeights w' k')) / 2 ≤ excessReturn m (mix (1 / 2) (returnedWeights w k) (returnedWeights w' k')) := by
    unfold excessReturn
    linarith
  have hmix := hcmp w k hk a h _ (allowed_mix m hs hT hu (1 / 2) (by norm_num) (by norm_num) _ _ hal hal' (cardinality_trivial _ hmip _)) (by linarith)
  have hstrict := volatility_strict m hpd b hb0 _ _ (hal.limits.budget b hb) (hal'.limits.budget b hb) hne
  have hv0 : 0 ≤ portfolioVolatility m (returnedWeights w k) := Real.sqrt_nonneg _
  nlinarith [mul_lt_mul_of_pos_left hstrict he1, mul_le_mul_of_nonneg_right hemix hv0]

/-- **C111.** Whenever the weights are unique, reordering the assets reorders the weights the fit returns, whatever the solver. -/
theorem C111_reordered (s : Equiv.Perm (Fin n)) (m m' : MeanRisk n T) (hrel : Relabelled s m m') (cs cs' : List (Constraint ℝ n))
    (hcs : getWeightConstraints m.weights (factorIsVariable m) true m.scale = .ok cs) (hcs' : getWeightConstraints m'.weights (factorIsVariable m') true m'.scale = .ok cs')
    (huniq : ∀ w w' k k' a a', IsOptimum m cs w k a → IsOptimum m cs w' k' a' → returnedWeights w k = returnedWeights w' k')
    (w w' : Fin n → ℝ) (k k' : ℝ) (a : (riskProgram m m.riskMeasure w k).Aux) (a' : (riskProgram m' m'.riskMeasure w' k').Aux)
    (h : IsOptimum m cs w k a) (h' : IsOptimum m' cs' w' k' a') : ∀ i, returnedWeights w' k' i = returnedWeights w k (s i) := by
  have e : w' = relabelWeights s (fun i => w' (s.symm i)) := by
    funext i
    simp [relabelWeights]
  generalize (fun i => w' (s.symm i)) = u at e
  subst e
  obtain ⟨b, hb⟩ := ((C108_mean_risk s m m' hrel cs cs' hcs hcs' u k').1).1 ⟨a', h'⟩
  intro i
  rw [huniq w u k k' a b h hb]
  rfl

/-- **C111.** Assets that the problem does not distinguish get the same weight, whenever the weights are unique. -/
theorem C111_equal_treatment (m : MeanRisk n T) (i j : Fin n) (hsym : Relabelled (Equiv.swap i j) m m) (cs : List (Constraint ℝ n))
    (hcs : getWeightConstraints m.weights (factorIsVariable m) true m.scale = .ok cs)
    (huniq : ∀ w w' k k' a a', IsOptimum m cs w k a → IsOptimum m cs w' k' a' → returnedWeights w k = returnedWeights w' k')
    (w : Fin n → ℝ) (k : ℝ) (a : (riskProgram m m.riskMeasure w k).Aux) (h : IsOptimum m cs w k a) : returnedWeights w k i = returnedWeights w k j := by
  have := C111_reordered (Equiv.swap i j) m m hsym cs cs hcs hcs huniq w w k k a a h h i
  rwa [Equiv.swap_apply_left] at this

end

/-! ### Cases that meet the hypotheses, and one that does not -/

section

theorem frontier_definite (x y : ℝ) : PositiveDefinite (frontierAssets x y) := by
  intro w hw
  have e : ∀ i j : Fin 2, covarianceOf (frontierAssets x y) i j = if i = j then 1 else 0 := by
    intro i j
    fin_cases i <;> fin_cases j <;> simp [covarianceOf, frontierAssets, twoAssets]
  simp only [e, Fin.sum_univ_two]
  have h : w 0 ≠ 0 ∨ w 1 ≠ 0 := by
    by_contra hc
    push Not at hc
    refine hw ?_
    funext i
    fin_cases i
    · exact hc.1
    · exact hc.2
  simp only [Fin.isValue, if_true, mul_one, show ((0 : Fin 2) = 1) = False by simp, show ((1 : Fin 2) = 0) = False by simp, if_false, mul_zero, zero_mul, add_zero, zero_add]
  rcases h with h | h
  · have := mul_self_pos.2 h
    nlinarith [mul_self_nonneg (w 1)]
  · have := mul_self_pos.2 h
    nlinarith [mul_self_nonneg (w 0)]

/-- Every solver returns one half of each of two uncorrelated assets of equal variance. -/
example (x y : ℝ) (cs : List (Constraint ℝ 2)) (hcs : getWeightConstraints longOnly false true (1 : ℝ) = .ok cs) (w : Fin 2 → ℝ) (k : ℝ) (a) (h : IsOptimum (frontierAssets x y) cs w k a) :
    returnedWeights w k = ![1 / 2, 1 / 2] := by
  have := C111_standard_deviation (frontierAssets x y) one_pos one_pos le_rfl (by simp [frontierAssets]) rfl cs hcs (fun _ _ h => by cases h) (by simp [frontierAssets, twoAssets]) le_rfl le_rfl rfl (Or.inl rfl)
    (frontier_definite x y) 1 rfl one_ne_zero w _ k _ a _ h (frontier_min x y cs hcs)
  rwa [returned_one] at this

/-- Every solver returns 4/7 and 3/7 of two uncorrelated assets of equal variance and expected returns 4 % and 3 %. -/
example (cs : List (Constraint ℝ 2)) (hcs : getWeightConstraints longOnly true true (1 : ℝ) = .ok cs) (w : Fin 2 → ℝ) (k : ℝ) (hk : 0 < k) (a)
    (h : IsOptimum (twoAssets (4 / 100) (3 / 100) longOnly) cs w k a) : returnedWeights w k = ![4 / 7, 3 / 7] := by
  have := C111_maximum_sharpe (twoAssets (4 / 100) (3 / 100) longOnly) one_pos one_pos le_rfl rfl rfl cs hcs (fun _ _ h => by cases h) rfl rfl rfl rfl rfl rfl
    (frontier_definite (4 / 100) (3 / 100)) 1 rfl one_ne_zero w _ k _ hk (by norm_num) a _ h (longOnly_optimum cs hcs)
  rw [this]
  funext i
  fin_cases i <;> norm_num [returnedWeights]

/-- Two assets with the same expected return whose returns are always equal; the standard deviation is minimised. -/
noncomputable def twinAssets : MeanRisk 2 2 := { frontierAssets (4 / 100) (4 / 100) with cholesky := fun _ j => if j = 0 then 1 else 0 }

/-- **C111.** Finding: with two assets that always move together, and the default limits, any split between them is optimal: which one is returned depends on the solver. -/
theorem C111_twins_false (x : ℝ) (h0 : 0 ≤ x) (h1 : x ≤ 1) :
    ∃ cs, getWeightConstraints longOnly (factorIsVariable twinAssets) true (1 : ℝ) = .ok cs ∧ ∃ a, IsOptimum twinAssets cs ![x, 1 - x] 1 a := by
  obtain ⟨cs, hcs⟩ := frontier_ok
  refine ⟨cs, hcs, (1 : ℝ), ?_, ?_⟩
  · have hv : ∀ (w : Fin 2 → ℝ) (v : ℝ), (riskProgram twinAssets .standardDeviation w 1).feasible v ↔ 0 ≤ v ∧ |w 0 + w 1| ≤ v := by
      intro w v
      change (0 ≤ v ∧ Real.sqrt (∑ j, ((∑ i, twinAssets.cholesky i j * w i) * 1) ^ 2) ≤ v * 1) ↔ _
      simp [twinAssets, Fin.sum_univ_two, Real.sqrt_sq_eq_abs]
    refine ⟨fun _ => rfl, fun x hx => (by cases hx), fun x hx => (by cases hx), ?_, fun z hz' => (by cases hz'), fun r x hx => (by cases hx), (hv _ _).2 ⟨zero_le_one, by simp⟩, fun h => by cases h⟩
    refine (C19_weight_limits longOnly false true 1 1 one_pos one_pos _ cs hcs rfl).2 (longOnly_limits _ ?_ ?_ ?_)
    · simpa using h0
    · simpa using h1
    · simp
  · intro w' k' (v : ℝ) h
    have hk : k' = 1 := h.factor (by decide)
    subst hk
    have hl := ((C19_weight_limits longOnly false true 1 1 one_pos one_pos w' cs hcs rfl).1 h.weight).budget 1 rfl
    simp only [div_one, Fin.sum_univ_two] at hl
    have hv : 0 ≤ v ∧ Real.sqrt (∑ j, ((∑ i, twinAssets.cholesky i j * w' i) * 1) ^ 2) ≤ v * 1 := h.aux
    simp only [twinAssets, Fin.sum_univ_two, Fin.isValue, if_true, one_mul, mul_one, hl] at hv
    change (1 : ℝ) * 1 + (0 * _ + 0 * _) * 1 ≤ v * 1 + (0 * _ + 0 * _) * 1
    have := hv.2
    simp at this
    linarith

/-- With a penalty `l2_coef = 1` the two assets get the same weight. -/
example (cs : List (Constraint ℝ 2)) (m : MeanRisk 2 2) (hm : m = { twinAssets with l2Coef := 1, data := { twinAssets.data with returns := fun t _ => if t = 0 then 3 / 100 else 4 / 100 } })
    (hcs : getWeightConstraints longOnly false true (1 : ℝ) = .ok cs) (w : Fin 2 → ℝ) (k : ℝ) (a) (h : IsOptimum m cs w k a) :
    returnedWeights w k 0 = returnedWeights w k 1 := by
  subst hm
  refine C111_equal_treatment _ 0 1 ?_ cs hcs (fun w w' k k' a a' h h' =>
    C111_regularised _ one_pos one_pos le_rfl (by simp [twinAssets, frontierAssets]) rfl cs hcs (fun _ _ h => by cases h) (by simp [twinAssets, frontierAssets, twoAssets]) le_rfl zero_le_one one_pos w w' k k' a a' h h') w k a h
  refine
    { data := ?_, covariance := ?_, weights := ?_, mar := rfl, uncertainty := Or.inl ⟨rfl, rfl⟩, overwrite := rfl, objective := rfl, riskMeasure := rfl,
      betas := ⟨rfl, rfl, rfl, rfl⟩, coefficients := ⟨rfl, rfl, rfl⟩, tracking := ⟨rfl, rfl⟩, turnover := rfl, minReturns := rfl, riskLimits := rfl,
      scales := ⟨rfl, rfl⟩ }
  · unfold relabelData
    simp [twinAssets, frontierAssets, twoAssets]
  · intro i j
    simp [covarianceOf, twinAssets]
  · rfl

end

end Skfolio.Convex
