import Verif.Convex.ObjectiveTheorems
import Verif.Convex.RiskBudgetingFindings
import Verif.Convex.Diversification
import Verif.Convex.FrontierExamples
import Verif.Naive.Theorems

/-!
**C116.** Where the theory has a closed form, the optimisers agree with it and with each other: minimum variance of uncorrelated assets, equal risk contributions and maximum diversification of assets with the same correlation.
-/
set_option autoImplicit false

namespace Skfolio.Convex

open Skfolio.Measures

section
variable {n T : Nat}

/-! ### Specification -/

/-- Weights proportional to the inverse variances. -/
noncomputable def inverseVariance (v : Fin n → ℝ) : Fin n → ℝ := fun i => (1 / v i) / ∑ j, 1 / v j

/-- Positive variances, and the same correlation `ρ` between any two assets; the correlation is not perfect. For `n` assets no correlation matrix has `ρ` below `-1/(n-1)`. -/
structure ConstantCorrelation (cov : Fin n → Fin n → ℝ) (ρ : ℝ) : Prop where
  variances : ∀ i, 0 < cov i i
  correlation : ∀ i j, i ≠ j → cov i j = ρ * Real.sqrt (cov i i) * Real.sqrt (cov j j)
  imperfect : ρ < 1
  valid : -1 ≤ ρ * ((n : ℝ) - 1)

/-! ### Minimum variance -/

theorem uncorrelated_variance (cov : Fin n → Fin n → ℝ) (h : ∀ i j, i ≠ j → cov i j = 0) (w : Fin n → ℝ) : ∑ i, ∑ j, w i * cov i j * w j = ∑ i, cov i i * w i ^ 2 := by
  refine Finset.sum_congr rfl fun i _ => ?_
  rw [Finset.sum_eq_single i]
  · ring
  · intro j _ hj
    rw [h i j hj.symm]
    ring
  · intro hi
    exact absurd (Finset.mem_univ i) hi

/-- The variance exceeds that of the inverse-variance weights by the weighted squared distance to them. -/
theorem variance_excess (v : Fin n → ℝ) (hv : ∀ i, 0 < v i) (hn : 0 < n) (w : Fin n → ℝ) (hw : ∑ i, w i = 1) :
    ∑ i, v i * w i ^ 2 = ∑ i, v i * inverseVariance v i ^ 2 + ∑ i, v i * (w i - inverseVariance v i) ^ 2 := by
  have hne : (Finset.univ : Finset (Fin n)).Nonempty := ⟨⟨0, hn⟩, Finset.mem_univ _⟩
  have hS : 0 < ∑ j, 1 / v j := Finset.sum_pos (fun i _ => one_div_pos.2 (hv i)) hne
  have h1 : ∀ i, v i * inverseVariance v i = 1 / ∑ j, 1 / v j := by
    intro i
    unfold inverseVariance
    have := (hv i).ne'
    field_simp
  have h2 : ∑ i, inverseVariance v i = 1 := by
    unfold inverseVariance
    rw [← Finset.sum_div, div_self hS.ne']
  have h3 : ∑ i, v i * inverseVariance v i * (w i - inverseVariance v i) = 0 := by
    simp only [h1]
    rw [← Finset.mul_sum, Finset.sum_sub_distrib, hw, h2, sub_self, mul_zero]
  have h4 : ∑ i, v i * w i ^ 2 = ∑ i, v i * inverseVariance v i ^ 2 + ∑ i, v i * (w i - inverseVariance v i) ^ 2 + 2 * ∑ i, v i * inverseVariance v i * (w i - inverseVariance v i) := by
    rw [Finset.mul_sum, ← Finset.sum_add_distrib, ← Finset.sum_add_distrib]
    refine Finset.sum_congr rfl fun i _ => ?_
    ring
  rw [h4, h3]
  ring

theorem least_unique (v : Fin n → ℝ) (hv : ∀ i, 0 < v i) (hn : 0 < n) (w : Fin n → ℝ) (hw : ∑ i, w i = 1) (hle : ∑ i, v i * w i ^ 2 ≤ ∑ i, v i * inverseVariance v i ^ 2) : w = inverseVariance v := by
  have h := variance_excess v hv hn w hw
  have h0 : ∑ i, v i * (w i - inverseVariance v i) ^ 2 = 0 := le_antisymm (by linarith) (Finset.sum_nonneg fun i _ => mul_nonneg (hv i).le (sq_nonneg _))
  funext i
  have := (Finset.sum_eq_zero_iff_of_nonneg fun i _ => mul_nonneg (hv i).le (sq_nonneg _)).1 h0 i (Finset.mem_univ i)
  rcases mul_eq_zero.1 this with h | h
  · exact absurd h (hv i).ne'
  · exact sub_eq_zero.1 (pow_eq_zero_iff two_ne_zero |>.1 h)

/-- **C116.** `MeanRisk` that minimises the variance or the standard deviation of uncorrelated, fully invested assets returns the inverse-variance weights, if they are within the limits; those of `HierarchicalRiskParity` (`C116_hrp`). -/
theorem C116_minimum_variance (P : Partition ℝ) (m : MeanRisk n T) (hs : 0 < m.scale) (hso : 0 < m.scaleObjective) (hT : 2 ≤ T) (hb : BetasOk m) (cs : List (Constraint ℝ n))
    (hcs : getWeightConstraints m.weights (factorIsVariable m) true m.scale = .ok cs) (ho : m.objective = .minimizeRisk) (hr : m.riskMeasure = .variance ∨ m.riskMeasure = .standardDeviation)
    (hl1 : m.l1Coef = 0) (hl2 : m.l2Coef = 0) (hbud : m.weights.budget = some 1) (hn : 0 < n) (hv : ∀ i, 0 < covarianceOf m i i) (hu : ∀ i j, i ≠ j → covarianceOf m i j = 0)
    (hin : Comparable P m (inverseVariance fun i => covarianceOf m i i)) (w : Fin n → ℝ) (k : ℝ) (a : (riskProgram m m.riskMeasure w k).Aux) (h : IsOptimum m cs w k a) :
    returnedWeights w k = inverseVariance fun i => covarianceOf m i i := by
  have hp : ∀ w, penalty m w = 0 := fun w => by simp [penalty, hl1, hl2]
  have hvar : portfolioVariance m (returnedWeights w k) ≤ portfolioVariance m (inverseVariance fun i => covarianceOf m i i) ∧ Within P m (returnedWeights w k) := by
    rcases hr with hr | hr
    · have hR : IsRiskOf P m m.riskMeasure (portfolioVariance m) := by rw [hr]; exact fun w x => Iff.rfl
      obtain ⟨h1, h2⟩ := C67_minimize_risk P m hs hso hT hb cs hcs _ hR ho w k a h
      have := h2 _ hin
      rw [hp, hp, add_zero, add_zero] at this
      exact ⟨this, h1⟩
    · have hR : IsRiskOf P m m.riskMeasure (fun w => Real.sqrt (portfolioVariance m w)) := by rw [hr]; exact fun w x => Iff.rfl
      obtain ⟨h1, h2⟩ := C67_minimize_risk P m hs hso hT hb cs hcs _ hR ho w k a h
      have := h2 _ hin
      rw [hp, hp, add_zero, add_zero] at this
      exact ⟨(Real.sqrt_le_sqrt_iff (portfolioVariance_nonneg m _)).1 this, h1⟩
  obtain ⟨hle, hw⟩ := hvar
  refine least_unique _ hv hn _ (hw.limits.budget 1 hbud) ?_
  unfold portfolioVariance at hle
  rwa [uncorrelated_variance _ hu, uncorrelated_variance _ hu] at hle

/-! ### Inverse volatility -/

section
variable {cov : Fin n → Fin n → ℝ} {ρ : ℝ}

theorem inverse_volatility_value (hv : ∀ i, 0 < cov i i) (hn : 0 < n) : Naive.inverseVolatility (Matrix.of cov) = some fun i => 1 / Real.sqrt (cov i i) / ∑ j, 1 / Real.sqrt (cov j j) := by
  have hne : (Finset.univ : Finset (Fin n)).Nonempty := ⟨⟨0, hn⟩, Finset.mem_univ _⟩
  have hS : 0 < ∑ i, 1 / Real.sqrt (cov i i) := Finset.sum_pos (fun i _ => one_div_pos.2 (Real.sqrt_pos.2 (hv i))) hne
  unfold Naive.inverseVolatility Naive.normalise
  rw [if_pos (show ∀ i, 0 < Matrix.of cov i i from hv)]
  exact if_neg hS.ne'

/-- Weights times volatilities that are all equal are those of the inverse volatilities. -/
theorem inverse_volatility_of_equal (hv : ∀ i, 0 < cov i i) (hn : 0 < n) (w : Fin n → ℝ) (hw : ∑ i, w i = 1) (c : ℝ) (h : ∀ i, w i * Real.sqrt (cov i i) = c) :
    Naive.inverseVolatility (Matrix.of cov) = some w := by
  have hne : (Finset.univ : Finset (Fin n)).Nonempty := ⟨⟨0, hn⟩, Finset.mem_univ _⟩
  have hs : ∀ i, 0 < Real.sqrt (cov i i) := fun i => Real.sqrt_pos.2 (hv i)
  have hS : 0 < ∑ i, 1 / Real.sqrt (cov i i) := Finset.sum_pos (fun i _ => one_div_pos.2 (hs i)) hne
  have h1 : ∀ i, w i = c * (1 / Real.sqrt (cov i i)) := by
    intro i
    have := (hs i).ne'
    rw [← h i]
    field_simp
  have h2 : c * ∑ i, 1 / Real.sqrt (cov i i) = 1 := by
    rw [Finset.mul_sum, ← Finset.sum_congr rfl fun i _ => h1 i, hw]
  rw [inverse_volatility_value hv hn]
  congr 1
  funext i
  rw [h1 i, div_eq_iff hS.ne', mul_right_comm, h2, one_mul]

theorem covariance_row (hc : ConstantCorrelation cov ρ) (w : Fin n → ℝ) (i : Fin n) :
    w i * ∑ j, cov i j * w j = (w i * Real.sqrt (cov i i)) * ((1 - ρ) * (w i * Real.sqrt (cov i i)) + ρ * ∑ j, w j * Real.sqrt (cov j j)) := by
  have h1 : ∀ j, cov i j * w j = ρ * Real.sqrt (cov i i) * (w j * Real.sqrt (cov j j)) + if j = i then (1 - ρ) * cov i i * w i else 0 := by
    intro j
    have hsq := Real.mul_self_sqrt (hc.variances i).le
    split_ifs with hj
    · subst hj
      linear_combination (-ρ * w j) * hsq
    · rw [hc.correlation i j (Ne.symm hj)]
      ring
  simp only [h1]
  rw [Finset.sum_add_distrib, ← Finset.mul_sum, Finset.sum_ite_eq' Finset.univ i]
  simp only [Finset.mem_univ, if_true]
  have hsq := Real.mul_self_sqrt (hc.variances i).le
  linear_combination (-(1 - ρ) * w i ^ 2) * hsq

theorem constant_variance (hc : ConstantCorrelation cov ρ) (w : Fin n → ℝ) :
    ∑ i, ∑ j, w i * cov i j * w j = (1 - ρ) * ∑ i, (w i * Real.sqrt (cov i i)) ^ 2 + ρ * (∑ i, w i * Real.sqrt (cov i i)) ^ 2 := by
  have h1 : ∀ i, ∑ j, w i * cov i j * w j = (1 - ρ) * (w i * Real.sqrt (cov i i)) ^ 2 + ρ * (∑ j, w j * Real.sqrt (cov j j)) * (w i * Real.sqrt (cov i i)) := by
    intro i
    have : ∑ j, w i * cov i j * w j = w i * ∑ j, cov i j * w j := by
      rw [Finset.mul_sum]
      exact Finset.sum_congr rfl fun j _ => mul_assoc _ _ _
    rw [this, covariance_row hc]
    ring
  simp only [h1]
  rw [Finset.sum_add_distrib, ← Finset.mul_sum, ← Finset.mul_sum]
  ring

/-- Positive numbers with the same value of `x ((1 - ρ) x + ρ S)`, where `S` is their sum, are equal. -/
theorem equal_contributions (hc : ConstantCorrelation cov ρ) (x : Fin n → ℝ) (hx : ∀ i, 0 < x i) (h : ∀ i j, x i * ((1 - ρ) * x i + ρ * ∑ l, x l) = x j * ((1 - ρ) * x j + ρ * ∑ l, x l)) (i j : Fin n) : x i = x j := by
  by_contra hne
  have hρ := hc.imperfect
  have h1 : (x i - x j) * ((1 - ρ) * (x i + x j) + ρ * ∑ l, x l) = 0 := by linear_combination h i j
  have h2 : (1 - ρ) * (x i + x j) + ρ * ∑ l, x l = 0 := (mul_eq_zero.1 h1).resolve_left (sub_ne_zero.2 hne)
  have hS : 0 < ∑ l, x l := Finset.sum_pos (fun l _ => hx l) ⟨i, Finset.mem_univ _⟩
  have hneg : ρ < 0 := by
    by_contra hρ0
    nlinarith [hx i, hx j, mul_nonneg (not_lt.1 hρ0) hS.le, mul_pos (sub_pos.2 hρ) (add_pos (hx i) (hx j))]
  -- every value is one of two: x i or x j
  have h3 : ∀ l, x l = x i ∨ x l = x j := by
    intro l
    have h4 : (x l - x i) * ((1 - ρ) * (x l + x i) + ρ * ∑ l, x l) = 0 := by linear_combination h l i
    rcases mul_eq_zero.1 h4 with h5 | h5
    · exact .inl (sub_eq_zero.1 h5)
    · right
      have : (1 - ρ) * (x l - x j) = 0 := by linear_combination h5 - h2
      exact sub_eq_zero.1 ((mul_eq_zero.1 this).resolve_left (sub_pos.2 hρ).ne')
  have hij : i ≠ j := fun e => hne (by rw [e])
  -- the sum is less than n (x i + x j)
  have h6 : ∑ l, x l < ∑ _l : Fin n, (x i + x j) := Finset.sum_lt_sum (fun l _ => by rcases h3 l with e | e <;> rw [e] <;> linarith [hx i, hx j]) ⟨i, Finset.mem_univ _, by linarith [hx j]⟩
  rw [Finset.sum_const, Finset.card_univ, Fintype.card_fin, nsmul_eq_mul] at h6
  have hn1 : (1 : ℝ) ≤ n := by
    have : 1 ≤ n := Nat.one_le_of_lt i.2
    exact_mod_cast this
  -- (1 - ρ) ≥ - ρ n
  have h7 : -ρ * n ≤ 1 - ρ := by linarith [hc.valid]
  nlinarith [mul_lt_mul_of_pos_left h6 (neg_pos.2 hneg), mul_le_mul_of_nonneg_right h7 (add_pos (hx i) (hx j)).le]

end

/-- **C116.** `RiskBudgeting` with the variance or the standard deviation and equal budgets (the default) returns, for assets with the same correlation, in particular for uncorrelated assets and for any two assets, the weights of `InverseVolatility`. -/
theorem C116_risk_parity (P : Partition ℝ) (m : RiskBudgeting n T) (hr : m.base.riskMeasure = .variance ∨ m.base.riskMeasure = .standardDeviation) (hs : 0 < m.base.scale) (hso : 0 < m.base.scaleObjective) (hT : 2 ≤ T) (hb : BetasOk m.base)
    (hf : ∀ i, m.base.data.transactionCosts i * m.base.data.previousWeights i = 0) (hlim : NoLimits m.base.weights) (hret : m.minReturn = none) (hbud : m.budget = none) (hn : 0 < n) (cs : List (Constraint ℝ n))
    (hcs : getWeightConstraints m.base.weights true false m.base.scale = .ok cs) (ρ : ℝ) (hc : ConstantCorrelation (covarianceOf m.base) ρ)
    (w : Fin n → ℝ) (k c : ℝ) (a : (riskProgram m.base m.base.riskMeasure w (riskFactor m.base.riskMeasure k)).Aux) (h : BudgetOptimum m cs w k c a) :
    Naive.inverseVolatility (Matrix.of (covarianceOf m.base)) = some (returnedWeights w k) := by
  have hbud' : ∀ i, 0 < riskBudget m i := fun i => by simp [riskBudget, hbud]
  have hfree : ScaleFree m.base := ⟨hf, fun h1 => by rcases hr with h2 | h2 <;> rw [h2] at h1 <;> cases h1⟩
  obtain ⟨R, hR⟩ := exists_risk P m.base hs hT hb m.base.riskMeasure
  obtain ⟨hpos, hsum, -⟩ := C60_subgradient P m hs hso hT hb R hR hfree hlim hret hbud' hn cs hcs w k c a h
  have hvar := C60_variance P m hr hs hso hT hb hf hlim hret hbud' hn cs hcs w k c a h
  have hx : ∀ i, 0 < returnedWeights w k i * Real.sqrt (covarianceOf m.base i i) := fun i => mul_pos (hpos i) (Real.sqrt_pos.2 (hc.variances i))
  have heq := equal_contributions hc _ hx fun i j => by
    rw [← covariance_row hc, ← covariance_row hc, hvar i, hvar j, (C60_budgets m).1 hbud i, (C60_budgets m).1 hbud j]
  exact inverse_volatility_of_equal hc.variances hn _ hsum _ fun i => heq i ⟨0, hn⟩

/-- **C116.** `MaximumDiversification` of fully invested assets with the same correlation returns the weights of `InverseVolatility`, if they are within the limits. -/
theorem C116_maximum_diversification (P : Partition ℝ) (cov : Fin n → Fin n → ℝ) (m : MeanRisk n T) (hcov : ∀ i j, ∑ l, m.cholesky i l * m.cholesky j l = cov i j) (hs : 0 < m.scale) (hso : 0 < m.scaleObjective) (hT : 2 ≤ T) (hb : BetasOk m)
    (htc : ∀ i, m.data.transactionCosts i = 0) (hfee : ∀ i, m.data.managementFees i = 0) (hrf : m.data.riskFreeRate = 0) (hl1 : m.l1Coef = 0) (hl2 : m.l2Coef = 0) (hte : m.maxTrackingError = none) (hret : m.minReturns = [])
    (cs : List (Constraint ℝ n)) (hcs : getWeightConstraints (maximumDiversification cov m).weights true true m.scale = .ok cs) (hbud : m.weights.budget = some 1) (hn : 0 < n) (ρ : ℝ) (hc : ConstantCorrelation cov ρ)
    (v : Fin n → ℝ) (hv : Naive.inverseVolatility (Matrix.of cov) = some v) (hvl : RespectsLimits m.weights v) (hvt : ∀ x, m.maxTurnover = some x → ∀ i, |v i - m.data.previousWeights i| ≤ x)
    (w : Fin n → ℝ) (k : ℝ) (hk : 0 < k) (a : (riskProgram (maximumDiversification cov m) .standardDeviation w k).Aux) (h : IsOptimum (maximumDiversification cov m) cs w k a) :
    returnedWeights w k = v := by
  have hne : (Finset.univ : Finset (Fin n)).Nonempty := ⟨⟨0, hn⟩, Finset.mem_univ _⟩
  have hsq : ∀ i, 0 < Real.sqrt (cov i i) := fun i => Real.sqrt_pos.2 (hc.variances i)
  have hS : 0 < ∑ i, 1 / Real.sqrt (cov i i) := Finset.sum_pos (fun i _ => one_div_pos.2 (hsq i)) hne
  obtain ⟨c, hc0, hvc⟩ : ∃ c, 0 < c ∧ ∀ i, v i * Real.sqrt (cov i i) = c := by
    refine ⟨1 / ∑ i, 1 / Real.sqrt (cov i i), one_div_pos.2 hS, fun i => ?_⟩
    rw [inverse_volatility_value hc.variances hn] at hv
    rw [← Option.some.inj hv]
    have := (hsq i).ne'
    field_simp
  have hn0 : (0 : ℝ) < n := by exact_mod_cast hn
  have hwv : weightedVolatility cov v = n * c := by
    unfold weightedVolatility
    simp [hvc]
  obtain ⟨hpos, hcross⟩ := C61_cross cov m hcov hs hso htc hfee hrf hl1 hl2 hte hret cs hcs w k hk a h v hvl hvt (by rw [hwv]; positivity)
  have hfw : RespectsLimits m.weights (returnedWeights w k) := by
    have := (C19_limits P (maximumDiversification cov m) hs hT hb cs hcs w k hk a h.1).1
    exact ⟨this.1, this.2, this.3, this.4, this.5, this.6, this.7, this.8, this.9, this.10⟩
  have hsum := hfw.budget 1 hbud
  generalize returnedWeights w k = u at *
  -- square the inequality of the ratios
  have h1 := constant_variance hc u
  have h2 := constant_variance hc v
  simp only [hvc] at h2
  simp only [Finset.sum_const, Finset.card_univ, Fintype.card_fin, nsmul_eq_mul] at h2
  set S := ∑ i, u i * Real.sqrt (cov i i) with hSdef
  have hSw : weightedVolatility cov u = S := rfl
  rw [hSw] at hpos hcross
  rw [hwv] at hcross
  unfold volatility at hcross
  have hq : 0 ≤ ∑ i, ∑ j, u i * cov i j * u j := by
    rw [← quadratic_eq m.cholesky cov hcov]
    exact Finset.sum_nonneg fun _ _ => sq_nonneg _
  have hq' : 0 ≤ ∑ i, ∑ j, v i * cov i j * v j := by
    rw [← quadratic_eq m.cholesky cov hcov]
    exact Finset.sum_nonneg fun _ _ => sq_nonneg _
  have h3 := pow_le_pow_left₀ (by positivity) hcross 2
  rw [mul_pow, mul_pow, mul_pow, Real.sq_sqrt hq, Real.sq_sqrt hq', h1, h2] at h3
  have h4 : (n * ∑ i, (u i * Real.sqrt (cov i i)) ^ 2) * ((1 - ρ) * n * c ^ 2) ≤ S ^ 2 * ((1 - ρ) * n * c ^ 2) := by nlinarith
  have hρ := sub_pos.2 hc.imperfect
  have h5 : n * ∑ i, (u i * Real.sqrt (cov i i)) ^ 2 ≤ S ^ 2 := le_of_mul_le_mul_right h4 (by positivity)
  have h6 : ∑ i, (n * (u i * Real.sqrt (cov i i)) - S) ^ 2 = n * (n * ∑ i, (u i * Real.sqrt (cov i i)) ^ 2 - S ^ 2) := by
    have : ∀ i, (n * (u i * Real.sqrt (cov i i)) - S) ^ 2 = n ^ 2 * (u i * Real.sqrt (cov i i)) ^ 2 - 2 * n * S * (u i * Real.sqrt (cov i i)) + S ^ 2 := fun i => by ring
    simp only [this]
    rw [Finset.sum_add_distrib, Finset.sum_sub_distrib, ← Finset.mul_sum, ← Finset.mul_sum, ← hSdef, Finset.sum_const, Finset.card_univ, Fintype.card_fin, nsmul_eq_mul]
    ring
  have h7 : ∑ i, (n * (u i * Real.sqrt (cov i i)) - S) ^ 2 = 0 := le_antisymm (by rw [h6]; exact mul_nonpos_of_nonneg_of_nonpos hn0.le (by linarith)) (Finset.sum_nonneg fun _ _ => sq_nonneg _)
  have h8 : ∀ i, u i * Real.sqrt (cov i i) = S / n := by
    intro i
    have := (Finset.sum_eq_zero_iff_of_nonneg fun i _ => sq_nonneg _).1 h7 i (Finset.mem_univ i)
    rw [eq_div_iff hn0.ne']
    linarith [pow_eq_zero_iff two_ne_zero |>.1 this]
  have := inverse_volatility_of_equal hc.variances hn u hsum _ h8
  rw [hv] at this
  exact (Option.some.inj this).symm

end

/-! ### Cases that meet the hypotheses -/

section

/-- Volatilities of 1 and 2 and no correlation, long-only and fully invested; the standard deviation is minimised. -/
noncomputable def oneTwoLeast : MeanRisk 2 2 := { frontierAssets 0 0 with cholesky := ![![1, 0], ![0, 2]] }

theorem oneTwoLeast_variance : (fun i => covarianceOf oneTwoLeast i i) = ![1, 4] := by
  funext i
  fin_cases i <;> norm_num [covarianceOf, oneTwoLeast]

theorem oneTwoLeast_weights : inverseVariance (fun i => covarianceOf oneTwoLeast i i) = ![4 / 5, 1 / 5] := by
  rw [oneTwoLeast_variance]
  funext i
  fin_cases i <;> norm_num [inverseVariance, Fin.sum_univ_two]

/-- The weights 4/5 and 1/5 are an optimum, and every hypothesis of `C116_minimum_variance` holds. -/
example : ∃ (cs : List (Constraint ℝ 2)) (w : Fin 2 → ℝ) (k : ℝ) (a : (riskProgram oneTwoLeast oneTwoLeast.riskMeasure w k).Aux),
    getWeightConstraints oneTwoLeast.weights (factorIsVariable oneTwoLeast) true oneTwoLeast.scale = .ok cs ∧ IsOptimum oneTwoLeast cs w k a ∧ returnedWeights w k = ![4 / 5, 1 / 5] ∧ oneTwoLeast.weights.budget = some 1 ∧ BetasOk oneTwoLeast ∧
    (∀ i, 0 < covarianceOf oneTwoLeast i i) ∧ (∀ i j, i ≠ j → covarianceOf oneTwoLeast i j = 0) ∧ Comparable (sortPartition ℝ) oneTwoLeast (inverseVariance fun i => covarianceOf oneTwoLeast i i) := by
  obtain ⟨cs, hcs⟩ := frontier_ok
  have hstd : ∀ (w : Fin 2 → ℝ) (k v : ℝ), (riskProgram oneTwoLeast .standardDeviation w k).feasible v ↔ 0 ≤ v ∧ Real.sqrt (w 0 ^ 2 + (2 * w 1) ^ 2) ≤ v := by
    intro w k v
    change (0 ≤ v ∧ Real.sqrt (∑ j, ((∑ i, oneTwoLeast.cholesky i j * w i) * 1) ^ 2) ≤ v * 1) ↔ _
    simp [oneTwoLeast, Fin.sum_univ_two]
  have hlim : ∀ x y : ℝ, 0 ≤ x → 0 ≤ y → x + y = 1 → RespectsLimits longOnly (fun i => ![x, y] i / 1) := fun x y h0 h1 h2 => longOnly_limits _ (by simpa using h0) (by simpa using h1) (by simpa using h2)
  refine ⟨cs, ![4 / 5, 1 / 5], 1, (Real.sqrt (4 / 5) : ℝ), hcs, ⟨⟨fun _ => rfl, fun x hx => (by cases hx), fun x hx => (by cases hx), ?_, fun z hz => absurd hz List.not_mem_nil, fun r x hx => (by cases hx), ?_, fun h => (by cases h)⟩, ?_⟩, ?_, rfl, ?_, ?_, ?_, ?_⟩
  · exact (C19_weight_limits longOnly false true 1 1 one_pos one_pos _ cs hcs rfl).2 (hlim _ _ (by norm_num) (by norm_num) (by norm_num))
  · refine (hstd _ _ _).2 ⟨Real.sqrt_nonneg _, Real.sqrt_le_sqrt ?_⟩
    norm_num
  · intro w' k' (v : ℝ) h
    have hk : k' = 1 := h.factor (by decide)
    subst hk
    have hl := (C19_weight_limits longOnly false true 1 1 one_pos one_pos w' cs hcs rfl).1 h.weight
    have hb := hl.budget 1 rfl
    simp only [div_one] at hb
    rw [Fin.sum_univ_two] at hb
    have hv := ((hstd _ _ _).1 h.aux).2
    change Real.sqrt (4 / 5) * 1 + (0 * _ + 0 * _) * 1 ≤ v * 1 + (0 * _ + 0 * _) * 1
    have : Real.sqrt (4 / 5) ≤ Real.sqrt (w' 0 ^ 2 + (2 * w' 1) ^ 2) := Real.sqrt_le_sqrt (by nlinarith [sq_nonneg (w' 0 - 4 * w' 1)])
    linarith
  · funext i
    fin_cases i <;> norm_num [returnedWeights]
  · refine ⟨⟨?_, ?_⟩, ⟨?_, ?_⟩, ⟨?_, ?_⟩, ?_, ?_⟩ <;> norm_num [oneTwoLeast, frontierAssets, twoAssets]
  · intro i
    fin_cases i <;> norm_num [covarianceOf, oneTwoLeast]
  · intro i j hij
    fin_cases i <;> fin_cases j <;> simp_all [covarianceOf, oneTwoLeast]
  · rw [oneTwoLeast_weights]
    refine ⟨⟨?_, ?_, ?_, fun x hx => (by cases hx), fun r x hx => (by cases hx)⟩, fun r _ x hx => (by cases hx), fun h => (by cases h)⟩
    · exact longOnly_limits _ (by norm_num) (by norm_num) (by norm_num)
    · constructor <;> intros <;> simp_all [oneTwoLeast, frontierAssets, twoAssets, longOnly, noLimits]
    · constructor <;> intros <;> simp_all [oneTwoLeast, frontierAssets, twoAssets, longOnly, noLimits]

/-- Volatilities of 1 and 2 and a correlation of 0.6; equal risk budgets. -/
noncomputable def correlatedBudget : RiskBudgeting 2 2 := ⟨{ twoAssets 0 0 longOnly with cholesky := ![![1, 0], ![6 / 5, 8 / 5]], riskMeasure := .variance }, none, none⟩

theorem correlated_covariance : covarianceOf correlatedBudget.base = ![![1, 6 / 5], ![6 / 5, 4]] := by
  funext i j
  fin_cases i <;> fin_cases j <;> norm_num [covarianceOf, correlatedBudget, Fin.sum_univ_two]

theorem correlated_constant : ConstantCorrelation (covarianceOf correlatedBudget.base) (3 / 5) := by
  rw [correlated_covariance]
  refine ⟨fun i => ?_, fun i j hij => ?_, by norm_num, by norm_num⟩
  · fin_cases i <;> norm_num
  · fin_cases i <;> fin_cases j <;> first | exact absurd rfl hij | (simp [sqrt_four]; norm_num)

theorem correlated_variance (w : Fin 2 → ℝ) : portfolioVariance correlatedBudget.base w = w 0 ^ 2 + 12 / 5 * w 0 * w 1 + 4 * w 1 ^ 2 := by
  simp only [portfolioVariance, correlated_covariance, Fin.sum_univ_two, Matrix.cons_val_zero, Matrix.cons_val_one]
  ring

/-- The weights 2/3 and 1/3 are an optimum, and every hypothesis of `C116_risk_parity` holds. -/
example : ∃ (cs : List (Constraint ℝ 2)) (w : Fin 2 → ℝ) (k c : ℝ) (a : (riskProgram correlatedBudget.base correlatedBudget.base.riskMeasure w (riskFactor correlatedBudget.base.riskMeasure k)).Aux),
    getWeightConstraints correlatedBudget.base.weights true false correlatedBudget.base.scale = .ok cs ∧ BudgetOptimum correlatedBudget cs w k c a ∧ returnedWeights w k = ![2 / 3, 1 / 3] ∧ correlatedBudget.budget = none ∧
    (∀ i, correlatedBudget.base.data.transactionCosts i * correlatedBudget.base.data.previousWeights i = 0) ∧ NoLimits correlatedBudget.base.weights ∧ BetasOk correlatedBudget.base ∧ ConstantCorrelation (covarianceOf correlatedBudget.base) (3 / 5) := by
  obtain ⟨cs, hcs⟩ := longOnly_ok'
  have hbud0 : riskBudget correlatedBudget = fun _ => 1 := by
    funext i
    simp [riskBudget, correlatedBudget]
  have hbud : ∀ i, 0 < riskBudget correlatedBudget i := by
    rw [hbud0]
    intro i
    norm_num
  have hf : ScaleFree correlatedBudget.base := ⟨fun i => mul_zero _, fun h => by cases h⟩
  have hbeta : BetasOk correlatedBudget.base := by
    unfold BetasOk
    norm_num [correlatedBudget, twoAssets]
  have hR : IsRiskOf (sortPartition ℝ) correlatedBudget.base correlatedBudget.base.riskMeasure (portfolioVariance correlatedBudget.base) := fun w x => Iff.rfl
  have hx0 : ∀ i, 0 < (![2 / 3, 1 / 3] : Fin 2 → ℝ) i := by intro i; fin_cases i <;> norm_num
  obtain ⟨k, hk, hret, hopt⟩ := C60_sufficient (sortPartition ℝ) correlatedBudget one_pos one_pos (le_refl 2) hbeta _ hR hf longOnly_noLimits rfl hbud two_pos cs hcs ![2 / 3, 1 / 3] hx0 (by norm_num [Fin.sum_univ_two]) (portfolioVariance_nonneg _ _) (by
    intro v hv
    have hv0 := hv 0
    have hv1 := hv 1
    have hroot : ∀ y, root correlatedBudget.base.riskMeasure y = Real.sqrt y := fun y => if_pos rfl
    rw [hroot, hroot, correlated_variance, correlated_variance, hbud0]
    simp only [share, Fin.sum_univ_two, Matrix.cons_val_zero, Matrix.cons_val_one]
    refine Real.le_sqrt_of_sq_le ?_
    rw [mul_pow, Real.sq_sqrt (by positivity)]
    norm_num
    nlinarith [sq_nonneg (v 0 - 2 * v 1)])
  refine ⟨cs, scaled k ![2 / 3, 1 / 3], k, 0, (Real.sqrt (portfolioVariance correlatedBudget.base (scaled k ![2 / 3, 1 / 3])) : ℝ), hcs, hopt _ ?_ ?_, hret, rfl, fun i => mul_zero _, longOnly_noLimits, hbeta, correlated_constant⟩
  · change 0 ≤ Real.sqrt _ ∧ Real.sqrt (∑ j, ((∑ i, correlatedBudget.base.cholesky i j * scaled k ![2 / 3, 1 / 3] i) * 1) ^ 2) ≤ Real.sqrt _ * 1
    refine ⟨Real.sqrt_nonneg _, ?_⟩
    rw [mul_one]
    refine Real.sqrt_le_sqrt (le_of_eq ?_)
    simp only [mul_one]
    rw [portfolioVariance, ← quadratic_eq correlatedBudget.base.cholesky (covarianceOf correlatedBudget.base) fun _ _ => rfl]
  · change Real.sqrt _ ^ 2 ≤ _
    rw [Real.sq_sqrt (portfolioVariance_nonneg _ _)]

/-- The maximum diversification of volatilities 1 and 2 (`oneTwo_best`) is reached by the inverse volatilities 2/3 and 1/3, and the hypotheses of `C116_maximum_diversification` hold. -/
example : ConstantCorrelation oneTwo 0 ∧ Naive.inverseVolatility (Matrix.of oneTwo) = some ![2 / 3, 1 / 3] ∧ RespectsLimits (oneTwoProblem 0 []).weights ![2 / 3, 1 / 3] ∧ (oneTwoProblem 0 []).weights.budget = some 1 := by
  have hv : ∀ i, 0 < oneTwo i i := by
    intro i
    fin_cases i <;> norm_num [oneTwo]
  refine ⟨⟨hv, fun i j hij => ?_, by norm_num, by norm_num⟩, ?_, longOnly_limits _ (by norm_num) (by norm_num) (by norm_num), rfl⟩
  · fin_cases i <;> fin_cases j <;> first | exact absurd rfl hij | simp [oneTwo]
  · refine inverse_volatility_of_equal hv two_pos _ (by norm_num [Fin.sum_univ_two]) (2 / 3) fun i => ?_
    fin_cases i <;> norm_num [oneTwo, sqrt_four]

end

end Skfolio.Convex
