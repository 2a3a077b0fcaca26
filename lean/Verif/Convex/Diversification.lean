import Verif.Convex.RatioFindings
import Mathlib.Algebra.Order.BigOperators.Ring.Finset

/-!
Model of `MaximumDiversification`, `src/skfolio/optimization/convex/_maximum_diversification.py` L329-434, and of `Portfolio.diversification`, `src/skfolio/portfolio/_portfolio.py` L684-688.

**C61**: the returned weights have the largest diversification ratio.
-/
set_option autoImplicit false

namespace Skfolio.Convex

open Skfolio.Measures

section
variable {n T : Nat}

/-! ### Model -/

/-- `MaximumDiversification`, L329-434: `MeanRisk` with the ratio objective, the standard deviation as risk and `np.sqrt(np.diag(covariance)) @ w` in place of the expected return. The parameters that the class does not have are those of
`MeanRisk` by default. `cov` is the covariance of the prior, `m.cholesky` its factor. -/
noncomputable def maximumDiversification (cov : Fin n → Fin n → ℝ) (m : MeanRisk n T) : MeanRisk n T :=
  { m with
    objective := .maximizeRatio
    riskMeasure := .standardDeviation
    overwrite := some fun i => Real.sqrt (cov i i)
    riskLimits := fun _ => none
    uncertainty := none
    weights := { m.weights with cardinality := none, groupCardinalities := none, thresholdLong := none, thresholdShort := none } }

/-- `Portfolio.diversification`, _portfolio.py L684-688: `np.std` of the assets has the divisor `n`, `standard_deviation` of the portfolio's returns the divisor `n - 1`. `net` are the returns of the portfolio. -/
noncomputable def portfolioDiversification (X : Fin T → Fin n → ℝ) (w : Fin n → ℝ) (net : List ℝ) : ℝ :=
  (∑ i, w i * Real.sqrt ((∑ t, (X t i - (∑ u, X u i) / (T : ℝ)) ^ 2) / (T : ℝ))) / Real.sqrt (variance net)

/-! ### Specification -/

/-- Weighted volatilities. -/
noncomputable def weightedVolatility (cov : Fin n → Fin n → ℝ) (w : Fin n → ℝ) : ℝ := ∑ i, w i * Real.sqrt (cov i i)

/-- Volatility of a portfolio. -/
noncomputable def volatility (cov : Fin n → Fin n → ℝ) (w : Fin n → ℝ) : ℝ := Real.sqrt (∑ i, ∑ j, w i * cov i j * w j)

/-- The diversification ratio. -/
noncomputable def diversificationRatio (cov : Fin n → Fin n → ℝ) (w : Fin n → ℝ) : ℝ := weightedVolatility cov w / volatility cov w

/-! ### C61 -/

section
variable (cov : Fin n → Fin n → ℝ) (m : MeanRisk n T) (hcov : ∀ i j, ∑ l, m.cholesky i l * m.cholesky j l = cov i j) (hs : 0 < m.scale) (hso : 0 < m.scaleObjective)
  (htc : ∀ i, m.data.transactionCosts i = 0) (hfee : ∀ i, m.data.managementFees i = 0) (hrf : m.data.riskFreeRate = 0)

include htc hfee hrf in
theorem diversification_excess (w : Fin n → ℝ) : excessReturn (maximumDiversification cov m) w = weightedVolatility cov w := by
  simp [excessReturn, netExpectedReturn, maximumDiversification, muUncertainty, htc, hfee, hrf, weightedVolatility]

include hcov hs in
theorem diversification_risk (w : Fin n → ℝ) : IsOptimalValue (riskProgram (maximumDiversification cov m) .standardDeviation w 1) (volatility cov w) := by
  exact C17_standard_deviation m.cholesky cov hcov w m.scale hs

include hcov hs hso htc hfee hrf

/-- **C61.** Without costs, fees, risk-free rate, penalties, tracking error and minimum return: no allowed portfolio with positive weighted volatilities has a larger diversification ratio than the returned weights (cross-multiplied, so that
portfolios without risk are covered). -/
theorem C61_cross (hl1 : m.l1Coef = 0) (hl2 : m.l2Coef = 0) (hte : m.maxTrackingError = none) (hret : m.minReturns = []) (cs : List (Constraint ℝ n)) (hcs : getWeightConstraints (maximumDiversification cov m).weights true true m.scale = .ok cs)
    (w : Fin n → ℝ) (k : ℝ) (hk : 0 < k) (a : (riskProgram (maximumDiversification cov m) .standardDeviation w k).Aux) (h : IsOptimum (maximumDiversification cov m) cs w k a)
    (w' : Fin n → ℝ) (hw' : RespectsLimits m.weights w') (htu : ∀ x, m.maxTurnover = some x → ∀ i, |w' i - m.data.previousWeights i| ≤ x) (hv : 0 < weightedVolatility cov w') :
    0 < weightedVolatility cov (returnedWeights w k) ∧ weightedVolatility cov w' * volatility cov (returnedWeights w k) ≤ weightedVolatility cov (returnedWeights w k) * volatility cov w' := by
  have hall : Allowed (maximumDiversification cov m) w' := by
    refine ⟨⟨hw'.1, hw'.2, hw'.3, hw'.4, hw'.5, hw'.6, hw'.7, hw'.8, hw'.9, hw'.10⟩, ⟨fun c hc => (by cases hc), fun c hc => (by cases hc), fun c hc => (by cases hc), fun c hc => (by cases hc)⟩, ⟨htu, fun x hx => ?_⟩, fun r x hx => (by cases hx)⟩
    rw [show (maximumDiversification cov m).minReturns = m.minReturns from rfl, hret] at hx
    exact absurd hx List.not_mem_nil
  have hmip : isMip (maximumDiversification cov m).weights = false := by simp [isMip, maximumDiversification]
  have key := C18_ratio (maximumDiversification cov m) hs hso cs rfl hcs hte rfl rfl (fun _ => hl2) (fun h => by cases h) w k hk a h _ (diversification_risk cov m hcov hs _) w' hall (by rw [diversification_excess cov m htc hfee hrf]; exact hv)
    (fun h => by rw [hmip] at h; cases h) _ (diversification_risk cov m hcov hs w') (Or.inl ⟨htc, rfl⟩)
  have hpen : ∀ x (v : Fin n → ℝ), penalised (maximumDiversification cov m) x v = x := by
    intro x v
    simp [penalised, maximumDiversification, hl1, hl2]
  have hd : degree (maximumDiversification cov m).riskMeasure = 1 := rfl
  rw [hpen, hpen, hd, pow_one, pow_one, diversification_excess cov m htc hfee hrf, diversification_excess cov m htc hfee hrf] at key
  exact key

/-- **C61.** The diversification ratio of the returned weights is the largest. -/
theorem C61_maximum (hl1 : m.l1Coef = 0) (hl2 : m.l2Coef = 0) (hte : m.maxTrackingError = none) (hret : m.minReturns = []) (cs : List (Constraint ℝ n)) (hcs : getWeightConstraints (maximumDiversification cov m).weights true true m.scale = .ok cs)
    (w : Fin n → ℝ) (k : ℝ) (hk : 0 < k) (a : (riskProgram (maximumDiversification cov m) .standardDeviation w k).Aux) (h : IsOptimum (maximumDiversification cov m) cs w k a) (hr : 0 < volatility cov (returnedWeights w k))
    (w' : Fin n → ℝ) (hw' : RespectsLimits m.weights w') (htu : ∀ x, m.maxTurnover = some x → ∀ i, |w' i - m.data.previousWeights i| ≤ x) (hr' : 0 < volatility cov w') :
    diversificationRatio cov w' ≤ diversificationRatio cov (returnedWeights w k) := by
  rcases le_or_gt (weightedVolatility cov w') 0 with hv | hv
  · -- the returned weights have a positive ratio
    have hpos : 0 < weightedVolatility cov (returnedWeights w k) := by
      have h1 := (h.1.ratio rfl).1 ⟨htc, rfl⟩
      have h2 := expected_returned (maximumDiversification cov m) w k hk
      have h3 : netExpectedReturn (maximumDiversification cov m) (returnedWeights w k) = weightedVolatility cov (returnedWeights w k) := by
        have := diversification_excess cov m htc hfee hrf (returnedWeights w k)
        unfold excessReturn at this
        rw [show (maximumDiversification cov m).data.riskFreeRate = 0 from hrf, sub_zero] at this
        exact this
      rw [show (maximumDiversification cov m).data.riskFreeRate = 0 from hrf, zero_mul, zero_mul, sub_zero] at h1
      have h4 := mul_right_cancel₀ (show (maximumDiversification cov m).scale ≠ 0 from hs.ne') h1
      rw [h2, h3] at h4
      have h5 := homogenization_pos (maximumDiversification cov m).data.mu
      rw [← h4] at h5
      exact (mul_pos_iff_of_pos_left hk).1 h5
    exact (div_nonpos_of_nonpos_of_nonneg hv hr'.le).trans (div_pos hpos hr).le
  · have key := (C61_cross cov m hcov hs hso htc hfee hrf hl1 hl2 hte hret cs hcs w k hk a h w' hw' htu hv).2
    exact (div_le_div_iff₀ hr' hr).2 key

end

/-- **C61.** The diversification ratio of a portfolio without short positions is at least 1. -/
theorem C61_at_least_one {l : Nat} (z : Fin n → Fin l → ℝ) (cov : Fin n → Fin n → ℝ) (hcov : ∀ i j, ∑ a, z i a * z j a = cov i j) (w : Fin n → ℝ) (hw : ∀ i, 0 ≤ w i) (hr : 0 < volatility cov w) : 1 ≤ diversificationRatio cov w := by
  rw [diversificationRatio, one_le_div hr]
  have hd : ∀ i, 0 ≤ cov i i := by
    intro i
    rw [← hcov]
    exact Finset.sum_nonneg fun a _ => mul_self_nonneg _
  have hcs : ∀ i j, cov i j ≤ Real.sqrt (cov i i) * Real.sqrt (cov j j) := by
    intro i j
    rw [← Real.sqrt_mul (hd i)]
    refine Real.le_sqrt_of_sq_le ?_
    rw [← hcov i j, ← hcov i i, ← hcov j j]
    have := Finset.sum_mul_sq_le_sq_mul_sq Finset.univ (z i) (z j)
    simpa [sq] using this
  have h0 : 0 ≤ weightedVolatility cov w := Finset.sum_nonneg fun i _ => mul_nonneg (hw i) (Real.sqrt_nonneg _)
  refine Real.sqrt_le_iff.2 ⟨h0, ?_⟩
  rw [weightedVolatility, sq, Finset.sum_mul_sum]
  refine Finset.sum_le_sum fun i _ => Finset.sum_le_sum fun j _ => ?_
  have := mul_le_mul_of_nonneg_left (hcs i j) (mul_nonneg (hw i) (hw j))
  nlinarith

/-- **C61.** The property `diversification` of a portfolio is not the ratio that is maximised, but the ratio for the sample covariance times `√((T - 1) / T)`: the volatilities of the assets have another divisor than that of the portfolio. -/
theorem C61_portfolio_diversification (d : Data ℝ n T) (hT : 2 ≤ T) (w : Fin n → ℝ) :
    portfolioDiversification d.returns w (netReturns d w 1) = Real.sqrt (((T : ℝ) - 1) / T) * diversificationRatio (sampleCovariance d) w := by
  have hT' : (2 : ℝ) ≤ T := by exact_mod_cast hT
  have h1 : (0 : ℝ) < (T : ℝ) - 1 := by linarith
  rw [portfolioDiversification, diversificationRatio, volatility, C17_variance_measure d (by omega) w 1, ← mul_div_assoc]
  congr 1
  rw [weightedVolatility, Finset.mul_sum]
  refine Finset.sum_congr rfl fun i _ => ?_
  rw [← mul_assoc, mul_comm (Real.sqrt _) (w i), mul_assoc, ← Real.sqrt_mul (by positivity)]
  congr 2
  unfold sampleCovariance
  simp only [← sq]
  rw [div_mul_div_comm, mul_comm ((T : ℝ) - 1), mul_div_mul_right _ _ h1.ne']

/-- **C61, finding.** A portfolio of a single asset has the diversification `√((T - 1) / T) < 1`, not 1. -/
theorem C61_single_asset (d : Data ℝ n T) (hT : 2 ≤ T) (i : Fin n) (hv : 0 < sampleCovariance d i i) :
    portfolioDiversification d.returns (Pi.single i 1) (netReturns d (Pi.single i 1) 1) = Real.sqrt (((T : ℝ) - 1) / T) ∧ Real.sqrt (((T : ℝ) - 1) / T) < 1 := by
  have hT' : (2 : ℝ) ≤ T := by exact_mod_cast hT
  have hs : ∀ f : Fin n → ℝ, ∑ j, (Pi.single i 1 : Fin n → ℝ) j * f j = f i := by
    intro f
    rw [Finset.sum_eq_single i]
    · rw [Pi.single_eq_same, one_mul]
    · intro j _ hj
      rw [Pi.single_eq_of_ne hj, zero_mul]
    · simp
  constructor
  · rw [C61_portfolio_diversification d hT]
    have e1 : weightedVolatility (sampleCovariance d) (Pi.single i 1) = Real.sqrt (sampleCovariance d i i) := hs _
    have e2 : volatility (sampleCovariance d) (Pi.single i 1) = Real.sqrt (sampleCovariance d i i) := by
      unfold volatility
      congr 1
      have : ∀ a b, (Pi.single i 1 : Fin n → ℝ) a * sampleCovariance d a b * (Pi.single i 1 : Fin n → ℝ) b = (Pi.single i 1 : Fin n → ℝ) a * ((Pi.single i 1 : Fin n → ℝ) b * sampleCovariance d a b) := fun a b => by ring
      simp only [this, ← Finset.mul_sum]
      rw [hs, hs]
    rw [diversificationRatio, e1, e2, div_self (Real.sqrt_pos.2 hv).ne', mul_one]
  · rw [Real.sqrt_lt' one_pos, one_pow, div_lt_one (by linarith)]
    linarith

/-! #### Findings: the risk-free rate and the minimum return -/

/-- The volatilities are 1 and 2, without correlation; the expected returns are 0. -/
def oneTwo : Fin 2 → Fin 2 → ℝ := ![![1, 0], ![0, 4]]

/-- A risk-free rate `r` and minimum returns `l`. -/
noncomputable def oneTwoProblem (r : ℝ) (l : List ℝ) : MeanRisk 2 2 :=
  { twoAssets 0 0 longOnly with
    cholesky := ![![1, 0], ![0, 2]]
    data := { (twoAssets 0 0 longOnly).data with riskFreeRate := r }
    minReturns := l }

theorem oneTwo_cov (r : ℝ) (l : List ℝ) (i j : Fin 2) : ∑ a, (oneTwoProblem r l).cholesky i a * (oneTwoProblem r l).cholesky j a = oneTwo i j := by
  fin_cases i <;> fin_cases j <;> simp [oneTwoProblem, oneTwo] <;> norm_num

theorem sqrt_four : Real.sqrt 4 = 2 := by
  rw [show (4 : ℝ) = 2 ^ 2 by norm_num, Real.sqrt_sq (by norm_num)]

theorem oneTwo_expected (r : ℝ) (l : List ℝ) (w : Fin 2 → ℝ) (k : ℝ) : expectedReturn (maximumDiversification oneTwo (oneTwoProblem r l)) w k = w 0 + 2 * w 1 := by
  simp [expectedReturn, returnVector, maximumDiversification, oneTwoProblem, oneTwo, twoAssets, transactionCost, managementFee, muUncertainty, Fin.sum_univ_two, sqrt_four]

theorem oneTwo_std (r : ℝ) (l : List ℝ) (w : Fin 2 → ℝ) (k v : ℝ) :
    (riskProgram (maximumDiversification oneTwo (oneTwoProblem r l)) .standardDeviation w k).feasible v ↔ 0 ≤ v ∧ Real.sqrt (w 0 ^ 2 + (2 * w 1) ^ 2) ≤ v := by
  change (0 ≤ v ∧ Real.sqrt (∑ j, ((∑ i, (oneTwoProblem r l).cholesky i j * w i) * 1) ^ 2) ≤ v * 1) ↔ _
  simp [oneTwoProblem, Fin.sum_univ_two]

theorem oneTwo_factor (r : ℝ) (l : List ℝ) : homogenizationFactor (maximumDiversification oneTwo (oneTwoProblem r l)).data.mu = 1 / 1000 := by
  have : ∑ i, |(maximumDiversification oneTwo (oneTwoProblem r l)).data.mu i| = 0 := by simp [maximumDiversification, oneTwoProblem, twoAssets]
  unfold homogenizationFactor
  rw [this]
  norm_num

theorem oneTwo_ratio (x y : ℝ) : diversificationRatio oneTwo ![x, y] = (x + 2 * y) / Real.sqrt (x ^ 2 + 4 * y ^ 2) := by
  have e : ∑ i, ∑ j, (![x, y] : Fin 2 → ℝ) i * oneTwo i j * (![x, y] : Fin 2 → ℝ) j = x ^ 2 + 4 * y ^ 2 := by
    simp [Fin.sum_univ_two, oneTwo]
    ring
  rw [diversificationRatio, volatility, e]
  congr 1
  simp [weightedVolatility, Fin.sum_univ_two, oneTwo, sqrt_four]
  ring

/-- The optimum for a risk-free rate of 0.4. -/
theorem oneTwo_optimum (l : List ℝ) (hl : ∀ x ∈ l, x ≤ 7 / 5) (cs : List (Constraint ℝ 2)) (hcs : getWeightConstraints longOnly true true (1 : ℝ) = .ok cs) :
    IsOptimum (maximumDiversification oneTwo (oneTwoProblem (2 / 5) l)) cs ![3 / 5000, 2 / 5000] (1 / 1000) (1 / 1000 : ℝ) := by
  refine ⟨⟨fun h => absurd rfl h, fun x hx => (by cases hx), fun x hx => (by cases hx), ?_, fun x hx => ?_, fun r x hx => (by cases hx), ?_,
    fun _ => ⟨fun _ => ?_, fun h => absurd ⟨fun _ => rfl, rfl⟩ h⟩⟩, ?_⟩
  · refine (C19_weight_limits longOnly true true 1 (1 / 1000) one_pos (by norm_num) _ cs hcs rfl).2 (longOnly_limits _ ?_ ?_ ?_) <;> norm_num
  · rw [oneTwo_expected]
    have hx : x ∈ l := hx
    have := hl x hx
    change ((![3 / 5000, 2 / 5000] : Fin 2 → ℝ) 0 + 2 * (![3 / 5000, 2 / 5000] : Fin 2 → ℝ) 1) * 1 ≥ x * (1 / 1000) * 1
    norm_num
    linarith
  · refine (oneTwo_std _ _ _ _ _).2 ⟨by norm_num, Real.sqrt_le_iff.2 ⟨by norm_num, ?_⟩⟩
    norm_num
  · rw [oneTwo_factor, oneTwo_expected]
    change ((![3 / 5000, 2 / 5000] : Fin 2 → ℝ) 0 + 2 * (![3 / 5000, 2 / 5000] : Fin 2 → ℝ) 1) * 1 - 2 / 5 * (1 / 1000) * 1 = 1 / 1000 * 1
    norm_num
  · intro w' k' (v : ℝ) h
    have h1 := (h.ratio rfl).1 ⟨fun _ => rfl, rfl⟩
    rw [oneTwo_factor, oneTwo_expected] at h1
    have hk : ∑ i, w' i = k' := by
      have hbud := h.weight
      obtain ⟨a, mm, ha, -, rfl, -⟩ := constraints_split longOnly true true 1 cs hcs
      unfold simpleConstraints at ha
      obtain ⟨a1, _, ha⟩ := ok_bind ha
      obtain ⟨a2, _, ha⟩ := ok_bind ha
      obtain ⟨a3, _, ha⟩ := ok_bind ha
      obtain ⟨e, he, ha⟩ := ok_bind ha
      cases ha
      cases he
      have := hbud (fun w k => (∑ i, w i) * (1 : ℝ) = 1 * k * 1) (by simp)
      linarith
    have h4 : (w' 0 + 2 * w' 1) * 1 - 2 / 5 * k' * 1 = 1 / 1000 * 1 := h1
    rw [← hk, Fin.sum_univ_two] at h4
    have h2 := (oneTwo_std _ _ _ _ _).1 h.aux
    have h3 : w' 0 ^ 2 + (2 * w' 1) ^ 2 ≤ v ^ 2 := (Real.sqrt_le_left h2.1).1 h2.2
    change (1 / 1000 : ℝ) * 1 + (0 * _ + 0 * _) * 1 ≤ v * 1 + (0 * _ + 0 * _) * 1
    have : (1 / 1000 : ℝ) ≤ v := by
      by_contra hlt
      nlinarith [sq_nonneg (4 * w' 0 - 3 * (2 * w' 1)), h2.1, not_le.1 hlt]
    linarith

/-- **C61, finding.** With a risk-free rate the weights do not maximise the diversification ratio: the rate is subtracted from the weighted volatilities. The returned weights 0.6 and 0.4 have the ratio 1.4, the allowed weights 2/3 and 1/3 the ratio √2. -/
theorem C61_risk_free_rate : ∃ (cs : List (Constraint ℝ 2)) (w : Fin 2 → ℝ) (k : ℝ) (a : (riskProgram (maximumDiversification oneTwo (oneTwoProblem (2 / 5) [])) .standardDeviation w k).Aux),
    getWeightConstraints (maximumDiversification oneTwo (oneTwoProblem (2 / 5) [])).weights true true 1 = .ok cs ∧ 0 < k ∧ IsOptimum (maximumDiversification oneTwo (oneTwoProblem (2 / 5) [])) cs w k a ∧
    returnedWeights w k = ![3 / 5, 2 / 5] ∧ RespectsLimits (oneTwoProblem (2 / 5) []).weights ![2 / 3, 1 / 3] ∧ diversificationRatio oneTwo ![3 / 5, 2 / 5] = 7 / 5 ∧ diversificationRatio oneTwo ![2 / 3, 1 / 3] = Real.sqrt 2 ∧ 7 / 5 < Real.sqrt 2 := by
  obtain ⟨cs, hcs⟩ := longOnly_ok
  refine ⟨cs, ![3 / 5000, 2 / 5000], 1 / 1000, (1 / 1000 : ℝ), hcs, by norm_num, oneTwo_optimum [] (by simp) cs hcs, ?_, longOnly_limits _ (by norm_num) (by norm_num) (by norm_num), ?_, ?_, ?_⟩
  · funext i
    fin_cases i <;> norm_num [returnedWeights]
  · rw [oneTwo_ratio, show ((3 / 5 : ℝ) ^ 2 + 4 * (2 / 5) ^ 2) = 1 ^ 2 by norm_num, Real.sqrt_sq (by norm_num)]
    norm_num
  · rw [oneTwo_ratio, show ((2 / 3 : ℝ) ^ 2 + 4 * (1 / 3) ^ 2) = (2 / 3) ^ 2 * 2 by norm_num, Real.sqrt_mul (by norm_num), Real.sqrt_sq (by norm_num), div_eq_iff (by positivity)]
    rw [show Real.sqrt 2 * (2 / 3 * Real.sqrt 2) = 2 / 3 * (Real.sqrt 2 * Real.sqrt 2) by ring, Real.mul_self_sqrt (by norm_num)]
    norm_num
  · exact Real.lt_sqrt_of_sq_lt (by norm_num)

/-- **C61, finding.** `min_return` is applied to the weighted volatilities, not to the expected return: with `min_return = 1` the returned weights have an expected return of 0. -/
theorem C61_min_return : ∃ (cs : List (Constraint ℝ 2)) (w : Fin 2 → ℝ) (k : ℝ) (a : (riskProgram (maximumDiversification oneTwo (oneTwoProblem (2 / 5) [1])) .standardDeviation w k).Aux),
    getWeightConstraints (maximumDiversification oneTwo (oneTwoProblem (2 / 5) [1])).weights true true 1 = .ok cs ∧ 0 < k ∧ IsOptimum (maximumDiversification oneTwo (oneTwoProblem (2 / 5) [1])) cs w k a ∧
    ∑ i, (oneTwoProblem (2 / 5) [1]).data.mu i * returnedWeights w k i = 0 := by
  obtain ⟨cs, hcs⟩ := longOnly_ok
  refine ⟨cs, ![3 / 5000, 2 / 5000], 1 / 1000, (1 / 1000 : ℝ), hcs, by norm_num, oneTwo_optimum [1] (by simp; norm_num) cs hcs, ?_⟩
  simp [oneTwoProblem, twoAssets]

/-! #### A case that meets the hypotheses -/

/-- Without risk-free rate the optimum is 2/3, 1/3 with the ratio √2. -/
theorem oneTwo_best : ∃ (cs : List (Constraint ℝ 2)) (w : Fin 2 → ℝ) (k : ℝ) (a : (riskProgram (maximumDiversification oneTwo (oneTwoProblem 0 [])) .standardDeviation w k).Aux),
    getWeightConstraints (maximumDiversification oneTwo (oneTwoProblem 0 [])).weights true true 1 = .ok cs ∧ 0 < k ∧ IsOptimum (maximumDiversification oneTwo (oneTwoProblem 0 [])) cs w k a ∧ returnedWeights w k = ![2 / 3, 1 / 3] ∧
    0 < volatility oneTwo (returnedWeights w k) ∧ ∀ i j, ∑ l, (oneTwoProblem 0 []).cholesky i l * (oneTwoProblem 0 []).cholesky j l = oneTwo i j := by
  obtain ⟨cs, hcs⟩ := longOnly_ok
  have hret : returnedWeights (![2 / 4000, 1 / 4000] : Fin 2 → ℝ) (3 / 4000) = ![2 / 3, 1 / 3] := by
    funext i
    fin_cases i <;> norm_num [returnedWeights]
  refine ⟨cs, ![2 / 4000, 1 / 4000], 3 / 4000, (Real.sqrt 2 / 2000 : ℝ), hcs, by norm_num, ⟨⟨fun h => absurd rfl h, fun x hx => (by cases hx), fun x hx => (by cases hx), ?_, fun x hx => absurd hx List.not_mem_nil, fun r x hx => (by cases hx), ?_,
    fun _ => ⟨fun _ => ?_, fun h => absurd ⟨fun _ => rfl, rfl⟩ h⟩⟩, ?_⟩, hret, ?_, oneTwo_cov 0 []⟩
  · refine (C19_weight_limits longOnly true true 1 (3 / 4000) one_pos (by norm_num) _ cs hcs rfl).2 (longOnly_limits _ ?_ ?_ ?_) <;> norm_num
  · refine (oneTwo_std _ _ _ _ _).2 ⟨by positivity, Real.sqrt_le_iff.2 ⟨by positivity, ?_⟩⟩
    rw [div_pow, Real.sq_sqrt (by norm_num)]
    norm_num
  · rw [oneTwo_factor, oneTwo_expected]
    change ((![2 / 4000, 1 / 4000] : Fin 2 → ℝ) 0 + 2 * (![2 / 4000, 1 / 4000] : Fin 2 → ℝ) 1) * 1 - 0 * (3 / 4000) * 1 = 1 / 1000 * 1
    norm_num
  · intro w' k' (v : ℝ) h
    have h1 := (h.ratio rfl).1 ⟨fun _ => rfl, rfl⟩
    rw [oneTwo_factor, oneTwo_expected] at h1
    have h4 : (w' 0 + 2 * w' 1) * 1 - 0 * k' * 1 = 1 / 1000 * 1 := h1
    have h2 := (oneTwo_std _ _ _ _ _).1 h.aux
    have h3 : w' 0 ^ 2 + (2 * w' 1) ^ 2 ≤ v ^ 2 := (Real.sqrt_le_left h2.1).1 h2.2
    change (Real.sqrt 2 / 2000 : ℝ) * 1 + (0 * _ + 0 * _) * 1 ≤ v * 1 + (0 * _ + 0 * _) * 1
    have : (Real.sqrt 2 / 2000 : ℝ) ≤ v := by
      refine le_of_sq_le_sq ?_ h2.1
      rw [div_pow, Real.sq_sqrt (by norm_num)]
      nlinarith [sq_nonneg (w' 0 - 2 * w' 1)]
    linarith
  · rw [hret]
    refine Real.sqrt_pos.2 ?_
    simp [Fin.sum_univ_two, oneTwo]
    norm_num

end

end Skfolio.Convex
