import Verif.Convex.UniqueTheorems
import Verif.Convex.ObjectiveTheorems
import Verif.Convex.RiskBudgetingFindings
import Verif.Convex.TradeOffExamples
import Verif.Moments.ShrunkModel

/-!
C125: equilibrium returns and mutual funds. `EquilibriumMu` gives the expected returns for which given weights are optimal, and without bounds the minimum-variance portfolios for different required returns are
combinations of two of them.
-/
set_option autoImplicit false

namespace Skfolio.Convex

open Skfolio.Measures

section
variable {n T : Nat}

/-! ### Covariances of portfolios -/

/-- The covariance of two portfolios. -/
noncomputable def portfolioCovariance (m : MeanRisk n T) (u v : Fin n → ℝ) : ℝ := ∑ l, loading m u l * loading m v l

theorem loading_combination (m : MeanRisk n T) (a b : ℝ) (u v : Fin n → ℝ) (l : Fin n) : loading m (fun i => a * u i + b * v i) l = a * loading m u l + b * loading m v l := by
  unfold loading
  rw [Finset.mul_sum, Finset.mul_sum, ← Finset.sum_add_distrib]
  exact Finset.sum_congr rfl fun i _ => by ring

theorem variance_mix (m : MeanRisk n T) (a b : ℝ) (u v : Fin n → ℝ) :
    portfolioVariance m (fun i => a * u i + b * v i) = a ^ 2 * portfolioVariance m u + 2 * a * b * portfolioCovariance m u v + b ^ 2 * portfolioVariance m v := by
  unfold portfolioVariance portfolioCovariance
  rw [volatility_eq, volatility_eq, volatility_eq]
  simp only [loading_combination, Finset.mul_sum]
  rw [← Finset.sum_add_distrib, ← Finset.sum_add_distrib]
  exact Finset.sum_congr rfl fun l _ => by ring

theorem covariance_mix (m : MeanRisk n T) (a b : ℝ) (u v z : Fin n → ℝ) :
    portfolioCovariance m (fun i => a * u i + b * v i) z = a * portfolioCovariance m u z + b * portfolioCovariance m v z := by
  unfold portfolioCovariance
  simp only [loading_combination, Finset.mul_sum]
  rw [← Finset.sum_add_distrib]
  exact Finset.sum_congr rfl fun l _ => by ring

theorem covariance_rows (m : MeanRisk n T) (u v : Fin n → ℝ) : ∑ i, u i * ∑ j, covarianceOf m i j * v j = portfolioCovariance m u v := by
  have e : ∀ i, ∑ j, covarianceOf m i j * v j = ∑ l, m.cholesky i l * loading m v l := by
    intro i
    unfold covarianceOf loading
    simp only [Finset.sum_mul, Finset.mul_sum]
    rw [Finset.sum_comm]
    exact Finset.sum_congr rfl fun l _ => Finset.sum_congr rfl fun j _ => by ring
  simp only [e, Finset.mul_sum]
  rw [Finset.sum_comm]
  unfold portfolioCovariance
  refine Finset.sum_congr rfl fun l _ => ?_
  conv_rhs => unfold loading
  rw [Finset.sum_mul]
  exact Finset.sum_congr rfl fun i _ => by unfold loading; ring

theorem covariance_self (m : MeanRisk n T) (u : Fin n → ℝ) : portfolioCovariance m u u = portfolioVariance m u := by
  unfold portfolioCovariance portfolioVariance
  rw [volatility_eq]
  exact Finset.sum_congr rfl fun l _ => by ring

theorem zero_of_variance (m : MeanRisk n T) (hpd : PositiveDefinite m) (d : Fin n → ℝ) (h : portfolioVariance m d ≤ 0) : d = 0 := by
  by_contra hne
  exact absurd (hpd d hne) (not_lt.2 h)

/-! ### Equilibrium -/

/-- The expected returns of the prior are those of `EquilibriumMu` with the weights `v` (the default: the same weight for all assets), for the covariance that the optimiser uses; no costs, fees, risk-free rate,
penalties or uncertainty set. -/
structure Equilibrium (m : MeanRisk n T) (lam : ℝ) (v : Option (Fin n → ℝ)) : Prop where
  mu : m.data.mu = Moments.equilibriumMu lam v (Matrix.of (covarianceOf m))
  overwrite : m.overwrite = none
  costs : ∀ i, m.data.transactionCosts i = 0
  fees : ∀ i, m.data.managementFees i = 0
  riskFree : m.data.riskFreeRate = 0
  uncertainty : m.uncertainty = none
  l1 : m.l1Coef = 0
  l2 : m.l2Coef = 0

/-- The weights given to `EquilibriumMu`. -/
noncomputable def marketWeights (v : Option (Fin n → ℝ)) : Fin n → ℝ := v.getD fun _ => 1 / n

theorem equilibrium_return (m : MeanRisk n T) (lam : ℝ) (v : Option (Fin n → ℝ)) (h : Equilibrium m lam v) (w : Fin n → ℝ) :
    netExpectedReturn m w = lam * portfolioCovariance m w (marketWeights v) := by
  have e : ∀ i, m.data.mu i = lam * ∑ j, covarianceOf m i j * marketWeights v j := by
    intro i
    rw [h.mu]
    unfold Moments.equilibriumMu
    rw [Matrix.smul_mulVec]
    cases v <;> rfl
  unfold netExpectedReturn muUncertainty
  rw [h.uncertainty, h.overwrite]
  simp only [h.costs, h.fees, Option.getD_none, e, abs_zero, zero_mul, mul_zero, Finset.sum_const_zero, sub_zero]
  rw [← covariance_rows, Finset.mul_sum]
  exact Finset.sum_congr rfl fun i _ => by ring

/-- A portfolio within the limits whose criterion plus penalty is no greater than that of any other portfolio within the limits is an optimum. -/
theorem optimum_of_best (P : Partition ℝ) (m : MeanRisk n T) (hs : 0 < m.scale) (hso : 0 < m.scaleObjective) (hT : 2 ≤ T) (hb : BetasOk m) (cs : List (Constraint ℝ n))
    (hcs : getWeightConstraints m.weights (factorIsVariable m) true m.scale = .ok cs) (R : (Fin n → ℝ) → ℝ) (hR : IsRiskOf P m m.riskMeasure R) (hr : m.objective ≠ .maximizeRatio) (ha0 : 0 ≤ m.riskAversion)
    (v : Fin n → ℝ) (hv : Comparable P m v) (a : (riskProgram m m.riskMeasure v 1).Aux) (ha : (riskProgram m m.riskMeasure v 1).feasible a) (hval : (riskProgram m m.riskMeasure v 1).risk a = R v)
    (hbest : ∀ w, Within P m w → criterion m R v + penalty m v ≤ criterion m R w + penalty m w) : IsOptimum m cs v 1 a := by
  obtain ⟨x, y, hx, hform, hc⟩ : ∃ x y : ℝ, 0 ≤ x ∧
      (∀ (w : Fin n → ℝ) a, objectiveValue m w 1 a = (x * (riskProgram m m.riskMeasure w 1).risk a - y * netExpectedReturn m w + penalty m w) * m.scaleObjective) ∧
      ∀ w, criterion m R w = x * R w - y * netExpectedReturn m w := by
    unfold criterion objectiveValue
    simp only [expected_one, penalty_eq]
    cases ho : m.objective with
    | maximizeReturn => exact ⟨0, 1, le_rfl, fun w a => by ring, fun w => by ring⟩
    | minimizeRisk => exact ⟨1, 0, zero_le_one, fun w a => by ring, fun w => by ring⟩
    | maximizeUtility => exact ⟨m.riskAversion, 1, ha0, fun w a => by ring, fun w => by ring⟩
    | maximizeRatio => exact absurd ho hr
  refine ⟨comparable_feasible P m hs hT hb hr cs hcs v hv a ha, fun w' k' a' h' => ?_⟩
  obtain ⟨rfl, hw'⟩ := feasible_within P m hs hT hb hr cs hcs w' k' a' h'
  rw [hform, hform, hval]
  refine mul_le_mul_of_nonneg_right ?_ hso.le
  have h1 := hbest w' hw'
  rw [hc, hc] at h1
  have h2 := mul_le_mul_of_nonneg_left ((risk_glb P m hs hT hb _ R hR w').1 a' h'.aux) hx
  linarith

/-- **C125.** Reverse optimisation: with the expected returns of `EquilibriumMu(risk_aversion=λ, weights=v)`, `MeanRisk` that maximises the mean-variance utility with the risk aversion `λ/2` returns `v`, whatever the limits, provided `v`
is within them. -/
theorem C125_utility (P : Partition ℝ) (m : MeanRisk n T) (hs : 0 < m.scale) (hso : 0 < m.scaleObjective) (hT : 2 ≤ T) (hb : BetasOk m) (cs : List (Constraint ℝ n))
    (hcs : getWeightConstraints m.weights (factorIsVariable m) true m.scale = .ok cs) (ho : m.objective = .maximizeUtility) (hr : m.riskMeasure = .variance) (hpd : PositiveDefinite m)
    (ha : 0 < m.riskAversion) (v : Option (Fin n → ℝ)) (he : Equilibrium m (2 * m.riskAversion) v) (hin : Comparable P m (marketWeights v))
    (w : Fin n → ℝ) (k : ℝ) (a : (riskProgram m m.riskMeasure w k).Aux) (h : IsOptimum m cs w k a) : returnedWeights w k = marketWeights v := by
  have hR : IsRiskOf P m m.riskMeasure (portfolioVariance m) := by rw [hr]; exact fun w x => Iff.rfl
  obtain ⟨-, h2⟩ := C67_maximize_utility P m hs hso hT hb cs hcs _ hR ho ha.le w k a h
  have h3 := h2 _ hin
  have hp : ∀ w, penalty m w = 0 := fun w => by simp [penalty, he.l1, he.l2]
  rw [hp, hp, equilibrium_return m _ v he, equilibrium_return m _ v he, covariance_self] at h3
  have hd := variance_mix m 1 (-1) (returnedWeights w k) (marketWeights v)
  have hz : (fun i => 1 * returnedWeights w k i + -1 * marketWeights v i) = 0 := by
    refine zero_of_variance m hpd _ ?_
    rw [hd]
    nlinarith
  funext i
  have := congrFun hz i
  simp only [Pi.zero_apply] at this
  linarith

/-- **C125.** And `v` is an optimum of that fit: the problem has a solution. -/
theorem C125_utility_optimum (P : Partition ℝ) (m : MeanRisk n T) (hs : 0 < m.scale) (hso : 0 < m.scaleObjective) (hT : 2 ≤ T) (hb : BetasOk m) (cs : List (Constraint ℝ n))
    (hcs : getWeightConstraints m.weights (factorIsVariable m) true m.scale = .ok cs) (ho : m.objective = .maximizeUtility) (hr : m.riskMeasure = .variance)
    (ha : 0 ≤ m.riskAversion) (v : Option (Fin n → ℝ)) (he : Equilibrium m (2 * m.riskAversion) v) (hin : Comparable P m (marketWeights v)) :
    ∃ a : (riskProgram m m.riskMeasure (marketWeights v) 1).Aux, IsOptimum m cs (marketWeights v) 1 a := by
  have hR : IsRiskOf P m m.riskMeasure (portfolioVariance m) := by rw [hr]; exact fun w x => Iff.rfl
  have hval : IsOptimalValue (riskProgram m m.riskMeasure (marketWeights v) 1) (portfolioVariance m (marketWeights v)) := by
    have := var_value m hs (marketWeights v) 1
    rw [hr, ← Real.sq_sqrt (portfolioVariance_nonneg m (marketWeights v))]
    exact this
  obtain ⟨⟨a, ha1, ha2⟩, -⟩ := hval
  refine ⟨a, optimum_of_best P m hs hso hT hb cs hcs _ hR (by rw [ho]; decide) ha _ hin a ha1 ha2 fun w _ => ?_⟩
  have hp : ∀ w, penalty m w = 0 := fun w => by simp [penalty, he.l1, he.l2]
  have hd := variance_mix m 1 (-1) w (marketWeights v)
  have hnn := portfolioVariance_nonneg m fun i => 1 * w i + -1 * marketWeights v i
  rw [hd] at hnn
  unfold criterion
  simp only [ho]
  rw [hp, hp, equilibrium_return m _ v he, equilibrium_return m _ v he, covariance_self]
  nlinarith [mul_nonneg ha hnn]

/-- **C125.** `MeanRisk` that maximises the ratio of expected return to standard deviation with the expected returns of `EquilibriumMu`, for any positive risk aversion and weights `v` that may be in any unit (such as market
capitalisations), returns the weights proportional to `v` with the required budget, whatever the limits, provided they are within them. By default: equal weights. -/
theorem C125_ratio (m : MeanRisk n T) (hs : 0 < m.scale) (hso : 0 < m.scaleObjective) (cs : List (Constraint ℝ n)) (hr : m.objective = .maximizeRatio)
    (hcs : getWeightConstraints m.weights (factorIsVariable m) true m.scale = .ok cs) (hte : m.maxTrackingError = none)
    (hvar : m.riskLimits .variance = none) (hsv : m.riskLimits .semiVariance = none) (hm : isMip m.weights = false) (hstd : m.riskMeasure = .standardDeviation) (hpd : PositiveDefinite m)
    (b : ℝ) (hb : m.weights.budget = some b) (hb0 : b ≠ 0) (lam : ℝ) (hlam : 0 < lam) (v : Option (Fin n → ℝ)) (he : Equilibrium m lam v) (c : ℝ) (hc : 0 < c)
    (hin : Allowed m fun i => c * marketWeights v i)
    (w : Fin n → ℝ) (k : ℝ) (hk : 0 < k) (a : (riskProgram m m.riskMeasure w k).Aux) (h : IsOptimum m cs w k a) : ∀ i, returnedWeights w k i = c * marketWeights v i := by
  have hval : ∀ u, IsOptimalValue (riskProgram m m.riskMeasure u 1) (portfolioVolatility m u) := fun u => by
    rw [hstd]
    exact std_value m hs u 1
  have hal := C18_returned_allowed m hs cs hcs hvar hsv w k hk a h.1
  have hne : ∀ u : Fin n → ℝ, ∑ i, u i = b → u ≠ 0 := by
    rintro u hu rfl
    simp at hu
    exact hb0 hu.symm
  have hpos : ∀ u : Fin n → ℝ, ∑ i, u i = b → 0 < portfolioVolatility m u := fun u hu => Real.sqrt_pos.2 (hpd u (hne u hu))
  have hsq : ∀ u, portfolioVolatility m u ^ 2 = portfolioVariance m u := fun u => Real.sq_sqrt (portfolioVariance_nonneg m u)
  have hbv := hin.limits.budget b hb
  have hbw := hal.limits.budget b hb
  obtain ⟨x, hx⟩ : ∃ x, x = fun i => c * marketWeights v i := ⟨_, rfl⟩
  obtain ⟨y, hy⟩ : ∃ y, y = returnedWeights w k := ⟨_, rfl⟩
  rw [← hx] at hbv hin
  rw [← hy] at hbw hal
  have hex : ∀ u, excessReturn m u = lam / c * portfolioCovariance m u x := by
    intro u
    unfold excessReturn
    rw [he.riskFree, equilibrium_return m lam v he, sub_zero, ← covariance_rows, ← covariance_rows, hx, Finset.mul_sum, Finset.mul_sum]
    refine Finset.sum_congr rfl fun i _ => ?_
    simp only [Finset.mul_sum]
    refine Finset.sum_congr rfl fun j _ => ?_
    field_simp
  have hX := hpos x hbv
  have hY := hpos y hbw
  have hlc : 0 < lam / c := div_pos hlam hc
  have hE : 0 < excessReturn m x := by
    rw [hex, covariance_self, ← hsq]
    positivity
  have hle := C18_ratio_division m hs hso cs hr hcs hte hvar hsv he.l1 he.l2 (by rw [hstd]; decide) (by rw [hstd]; decide) hm w k hk a h _ (hval _) (by rw [← hy]; exact hY) x hin hE _ (hval _) hX
  rw [← hy, hex, hex, covariance_self, ← hsq, div_le_div_iff₀ hX hY] at hle
  have hcov : portfolioVolatility m x * portfolioVolatility m y ≤ portfolioCovariance m y x := by
    have : (lam / c * portfolioVolatility m x) * (portfolioVolatility m x * portfolioVolatility m y) ≤ (lam / c * portfolioVolatility m x) * portfolioCovariance m y x := by nlinarith
    exact le_of_mul_le_mul_left this (by positivity)
  have hd := variance_mix m (portfolioVolatility m x) (-portfolioVolatility m y) y x
  have hz : (fun i => portfolioVolatility m x * y i + -portfolioVolatility m y * x i) = 0 := by
    refine zero_of_variance m hpd _ ?_
    rw [hd, ← hsq, ← hsq]
    have := mul_le_mul_of_nonneg_left hcov (mul_pos hX hY).le
    nlinarith
  have hsum : portfolioVolatility m x * b = portfolioVolatility m y * b := by
    have : ∑ i, (portfolioVolatility m x * y i + -portfolioVolatility m y * x i) = 0 := by
      have := congrArg (fun f : Fin n → ℝ => ∑ i, f i) hz
      simpa using this
    rw [Finset.sum_add_distrib, ← Finset.mul_sum, ← Finset.mul_sum, hbv, hbw] at this
    linarith
  have heq := mul_right_cancel₀ hb0 hsum
  intro i
  have h1 := congrFun hz i
  simp only [Pi.zero_apply] at h1
  rw [← heq] at h1
  have h2 : portfolioVolatility m x * (y i - x i) = 0 := by linarith
  rcases mul_eq_zero.1 h2 with h3 | h3
  · exact absurd h3 hX.ne'
  · rw [← hy, sub_eq_zero.1 h3, hx]

/-! ### Two funds -/

/-- No limits but the budget and linear equations; no transaction costs, penalties or uncertainty set. -/
structure OnlyEquations (m : MeanRisk n T) : Prop where
  minWeights : m.weights.minWeights = none
  maxWeights : m.weights.maxWeights = none
  maxLong : m.weights.maxLong = none
  maxShort : m.weights.maxShort = none
  minBudget : m.weights.minBudget = none
  maxBudget : m.weights.maxBudget = none
  ineqRows : m.weights.ineqRows = []
  inequality : m.weights.inequality = none
  noMip : isMip m.weights = false
  turnover : m.maxTurnover = none
  tracking : m.maxTrackingError = none
  minReturns : m.minReturns = []
  risks : ∀ r, m.riskLimits r = none
  costs : ∀ i, m.data.transactionCosts i = 0
  uncertainty : m.uncertainty = none
  l1 : m.l1Coef = 0
  l2 : m.l2Coef = 0

/-- The budget and the equations. -/
def Solves (p : Params ℝ n) (w : Fin n → ℝ) : Prop := (∀ b, p.budget = some b → ∑ i, w i = b) ∧ ∀ row ∈ p.eqRows, ∑ i, row.1 i * w i = row.2

theorem net_combination (m : MeanRisk n T) (h : OnlyEquations m) (a b : ℝ) (u v : Fin n → ℝ) :
    netExpectedReturn m (fun i => a * u i + b * v i) = a * netExpectedReturn m u + b * netExpectedReturn m v := by
  unfold netExpectedReturn muUncertainty
  rw [h.uncertainty]
  simp only [h.costs, abs_zero, zero_mul, Finset.sum_const_zero, sub_zero]
  rw [mul_sub, mul_sub, Finset.mul_sum, Finset.mul_sum, Finset.mul_sum, Finset.mul_sum, sub_add_sub_comm, ← Finset.sum_add_distrib, ← Finset.sum_add_distrib]
  congr 1 <;> exact Finset.sum_congr rfl fun i _ => by ring

theorem cardinality_free (p : Params ℝ n) (h : isMip p = false) (w : Fin n → ℝ) : RespectsCardinality p w := cardinality_trivial p h w

theorem comparable_iff (P : Partition ℝ) (m : MeanRisk n T) (h : OnlyEquations m) (x : ℝ) (w : Fin n → ℝ) :
    Comparable P (withTarget m x) w ↔ Solves m.weights w ∧ x ≤ netExpectedReturn m w := by
  constructor
  · intro hc
    exact ⟨⟨hc.within.limits.budget, hc.within.limits.equations⟩, hc.within.returns.minReturn x List.mem_cons_self⟩
  · rintro ⟨⟨h1, h2⟩, h3⟩
    refine ⟨⟨⟨?_, ?_, ?_, ?_, ?_, ?_, h1, h2, ?_, ?_⟩, cardinality_free m.weights h.noMip w, ⟨?_, ?_⟩, ?_, ?_⟩, ?_, ?_⟩
    · intro y hy; exact absurd (h.minWeights.symm.trans hy) (by simp)
    · intro y hy; exact absurd (h.maxWeights.symm.trans hy) (by simp)
    · intro y hy; exact absurd (h.maxLong.symm.trans hy) (by simp)
    · intro y hy; exact absurd (h.maxShort.symm.trans hy) (by simp)
    · intro y hy; exact absurd (h.minBudget.symm.trans hy) (by simp)
    · intro y hy; exact absurd (h.maxBudget.symm.trans hy) (by simp)
    · intro row hrow
      change row ∈ m.weights.ineqRows at hrow
      rw [h.ineqRows] at hrow
      cases hrow
    · intro y hy; exact absurd (h.inequality.symm.trans hy) (by simp)
    · intro y hy; exact absurd (h.turnover.symm.trans hy) (by simp)
    · intro y hy
      change y ∈ x :: m.minReturns at hy
      rw [h.minReturns, List.mem_singleton] at hy
      rw [hy]
      exact h3
    · intro y hy; exact absurd (h.tracking.symm.trans hy) (by simp)
    · intro r y hy; exact absurd ((h.risks r).symm.trans hy) (by simp)
    · intro r _ y hy; exact absurd ((h.risks r).symm.trans hy) (by simp)
    · intro hy; exact absurd (h.noMip.symm.trans hy) (by simp)

/-- What the optimum for a required return is: least variance among the solutions of the equations with at least that return. -/
theorem target_optimum (P : Partition ℝ) (m : MeanRisk n T) (hs : 0 < m.scale) (hso : 0 < m.scaleObjective) (hT : 2 ≤ T) (hb : BetasOk m) (cs : List (Constraint ℝ n))
    (hcs : getWeightConstraints m.weights (factorIsVariable m) true m.scale = .ok cs) (ho : m.objective = .minimizeRisk) (hr : m.riskMeasure = .variance ∨ m.riskMeasure = .standardDeviation)
    (hf : OnlyEquations m) (x : ℝ) (w : Fin n → ℝ) (k : ℝ) (a : (riskProgram (withTarget m x) m.riskMeasure w k).Aux) (h : IsOptimum (withTarget m x) cs w k a) :
    (Solves m.weights (returnedWeights w k) ∧ x ≤ netExpectedReturn m (returnedWeights w k)) ∧
    ∀ u, Solves m.weights u → x ≤ netExpectedReturn m u → portfolioVariance m (returnedWeights w k) ≤ portfolioVariance m u := by
  have hp : ∀ w, penalty (withTarget m x) w = 0 := fun w => by
    change m.l1Coef * _ + m.l2Coef * _ = 0
    rw [hf.l1, hf.l2, zero_mul, zero_mul, add_zero]
  have hb' : BetasOk (withTarget m x) := hb
  rcases hr with hr | hr
  · have hR : IsRiskOf P (withTarget m x) (withTarget m x).riskMeasure (portfolioVariance m) := by
      change IsRiskOf P (withTarget m x) m.riskMeasure _
      rw [hr]
      exact fun w x => Iff.rfl
    obtain ⟨h1, h2⟩ := C67_minimize_risk P (withTarget m x) hs hso hT hb' cs hcs _ hR ho w k a h
    refine ⟨⟨⟨h1.limits.budget, h1.limits.equations⟩, h1.returns.minReturn x List.mem_cons_self⟩, fun u hu hx => ?_⟩
    have := h2 u ((comparable_iff P m hf x u).2 ⟨hu, hx⟩)
    rwa [hp, hp, add_zero, add_zero] at this
  · have hR : IsRiskOf P (withTarget m x) (withTarget m x).riskMeasure (fun w => Real.sqrt (portfolioVariance m w)) := by
      change IsRiskOf P (withTarget m x) m.riskMeasure _
      rw [hr]
      exact fun w x => Iff.rfl
    obtain ⟨h1, h2⟩ := C67_minimize_risk P (withTarget m x) hs hso hT hb' cs hcs _ hR ho w k a h
    refine ⟨⟨⟨h1.limits.budget, h1.limits.equations⟩, h1.returns.minReturn x List.mem_cons_self⟩, fun u hu hx => ?_⟩
    have := h2 u ((comparable_iff P m hf x u).2 ⟨hu, hx⟩)
    rw [hp, hp, add_zero, add_zero] at this
    exact (Real.sqrt_le_sqrt_iff (portfolioVariance_nonneg m _)).1 this

/-- An optimum covaries non-negatively with every change that keeps the equations and does not lower the return. -/
theorem first_order (m : MeanRisk n T) (hf : OnlyEquations m) (x : ℝ) (w d : Fin n → ℝ) (hw : Solves m.weights w) (hx : x ≤ netExpectedReturn m w)
    (hmin : ∀ u, Solves m.weights u → x ≤ netExpectedReturn m u → portfolioVariance m w ≤ portfolioVariance m u)
    (hd1 : ∀ b, m.weights.budget = some b → ∑ i, d i = 0) (hd2 : ∀ row ∈ m.weights.eqRows, ∑ i, row.1 i * d i = 0) (hd : 0 ≤ netExpectedReturn m d) : 0 ≤ portfolioCovariance m w d := by
  by_contra hneg
  push Not at hneg
  have key : ∀ e : ℝ, 0 < e → 0 ≤ 2 * portfolioCovariance m w d + e * portfolioVariance m d := by
    intro e he
    have hsol : Solves m.weights (fun i => 1 * w i + e * d i) := by
      constructor
      · intro b hb
        rw [Finset.sum_add_distrib, ← Finset.mul_sum, ← Finset.mul_sum, hd1 b hb, hw.1 b hb]
        ring
      · intro row hrow
        have : ∀ i, row.1 i * (1 * w i + e * d i) = row.1 i * w i + e * (row.1 i * d i) := fun i => by ring
        simp only [this]
        rw [Finset.sum_add_distrib, ← Finset.mul_sum, hd2 row hrow, hw.2 row hrow]
        ring
    have hnet : x ≤ netExpectedReturn m (fun i => 1 * w i + e * d i) := by
      rw [net_combination m hf]
      nlinarith [mul_nonneg he.le hd]
    have := hmin _ hsol hnet
    rw [variance_mix] at this
    have h2 : 0 ≤ e * (2 * portfolioCovariance m w d + e * portfolioVariance m d) := by nlinarith
    exact (mul_nonneg_iff_of_pos_left he).1 h2
  have hV := portfolioVariance_nonneg m d
  have := key (-(portfolioCovariance m w d) / (portfolioVariance m d + 1)) (div_pos (by linarith) (by linarith))
  have h3 : -(portfolioCovariance m w d) / (portfolioVariance m d + 1) * portfolioVariance m d ≤ -(portfolioCovariance m w d) := by
    rw [div_mul_eq_mul_div, div_le_iff₀ (by linarith)]
    nlinarith
  linarith

/-- **C125.** Two funds: without limits other than the budget and linear equations, if the required returns `x₁` and `x₂` bind for the portfolios of least variance `w₁` and `w₂`, then the portfolio of least variance for the
required return `(1 - t) x₁ + t x₂` is `(1 - t) w₁ + t w₂`. -/
theorem C125_two_funds (P : Partition ℝ) (m : MeanRisk n T) (hs : 0 < m.scale) (hso : 0 < m.scaleObjective) (hT : 2 ≤ T) (hb : BetasOk m) (cs : List (Constraint ℝ n))
    (hcs : getWeightConstraints m.weights (factorIsVariable m) true m.scale = .ok cs) (ho : m.objective = .minimizeRisk) (hr : m.riskMeasure = .variance ∨ m.riskMeasure = .standardDeviation)
    (hpd : PositiveDefinite m) (hf : OnlyEquations m) (x₁ x₂ t : ℝ) (ht0 : 0 ≤ t) (ht1 : t ≤ 1) (w₁ w₂ w : Fin n → ℝ) (k₁ k₂ k : ℝ)
    (a₁ : (riskProgram (withTarget m x₁) m.riskMeasure w₁ k₁).Aux) (a₂ : (riskProgram (withTarget m x₂) m.riskMeasure w₂ k₂).Aux)
    (a : (riskProgram (withTarget m ((1 - t) * x₁ + t * x₂)) m.riskMeasure w k).Aux)
    (h₁ : IsOptimum (withTarget m x₁) cs w₁ k₁ a₁) (h₂ : IsOptimum (withTarget m x₂) cs w₂ k₂ a₂) (h : IsOptimum (withTarget m ((1 - t) * x₁ + t * x₂)) cs w k a)
    (hb₁ : netExpectedReturn m (returnedWeights w₁ k₁) = x₁) (hb₂ : netExpectedReturn m (returnedWeights w₂ k₂) = x₂) (i : Fin n) :
    returnedWeights w k i = (1 - t) * returnedWeights w₁ k₁ i + t * returnedWeights w₂ k₂ i := by
  obtain ⟨⟨s1, r1⟩, o1⟩ := target_optimum P m hs hso hT hb cs hcs ho hr hf x₁ w₁ k₁ a₁ h₁
  obtain ⟨⟨s2, r2⟩, o2⟩ := target_optimum P m hs hso hT hb cs hcs ho hr hf x₂ w₂ k₂ a₂ h₂
  obtain ⟨⟨s, r⟩, o⟩ := target_optimum P m hs hso hT hb cs hcs ho hr hf _ w k a h
  generalize returnedWeights w₁ k₁ = u₁ at *
  generalize returnedWeights w₂ k₂ = u₂ at *
  generalize returnedWeights w k = u at *
  obtain ⟨v, hv⟩ : ∃ v : Fin n → ℝ, v = fun i => (1 - t) * u₁ i + t * u₂ i := ⟨_, rfl⟩
  have hnv : netExpectedReturn m v = (1 - t) * x₁ + t * x₂ := by rw [hv, net_combination m hf, hb₁, hb₂]
  have hsv : Solves m.weights v := by
    constructor
    · intro b hb
      rw [hv, Finset.sum_add_distrib, ← Finset.mul_sum, ← Finset.mul_sum, s1.1 b hb, s2.1 b hb]
      ring
    · intro row hrow
      have : ∀ i, row.1 i * v i = (1 - t) * (row.1 i * u₁ i) + t * (row.1 i * u₂ i) := fun i => by rw [hv]; ring
      simp only [this]
      rw [Finset.sum_add_distrib, ← Finset.mul_sum, ← Finset.mul_sum, s1.2 row hrow, s2.2 row hrow]
      ring
  have hle := o v hsv hnv.ge
  obtain ⟨d, hd⟩ : ∃ d : Fin n → ℝ, d = fun i => 1 * u i + -1 * v i := ⟨_, rfl⟩
  have hd1 : ∀ b, m.weights.budget = some b → ∑ i, d i = 0 := by
    intro b hb
    rw [hd, Finset.sum_add_distrib, ← Finset.mul_sum, ← Finset.mul_sum, s.1 b hb, hsv.1 b hb]
    ring
  have hd2 : ∀ row ∈ m.weights.eqRows, ∑ i, row.1 i * d i = 0 := by
    intro row hrow
    have : ∀ i, row.1 i * d i = row.1 i * u i - row.1 i * v i := fun i => by rw [hd]; ring
    simp only [this]
    rw [Finset.sum_sub_distrib, s.2 row hrow, hsv.2 row hrow, sub_self]
  have hdn : 0 ≤ netExpectedReturn m d := by
    rw [hd, net_combination m hf, hnv]
    linarith
  have c1 := first_order m hf x₁ u₁ d s1 r1 o1 hd1 hd2 hdn
  have c2 := first_order m hf x₂ u₂ d s2 r2 o2 hd1 hd2 hdn
  have cv : 0 ≤ portfolioCovariance m v d := by
    rw [hv, covariance_mix]
    have := mul_nonneg (sub_nonneg.2 ht1) c1
    have := mul_nonneg ht0 c2
    linarith
  have eu : u = fun i => 1 * v i + 1 * d i := by
    funext i
    rw [hd]
    ring
  have hz : d = 0 := by
    refine zero_of_variance m hpd d ?_
    have := variance_mix m 1 1 v d
    rw [← eu] at this
    nlinarith
  have := congrFun eu i
  rw [this, hz, hv]
  simp

end

/-! ### Concrete cases -/

theorem twoAssets_equilibrium (x y lam : ℝ) (p : Params ℝ 2) (v : Fin 2 → ℝ) (i : Fin 2) : Moments.equilibriumMu lam (some v) (Matrix.of (covarianceOf (twoAssets x y p))) i = lam * v i := by
  unfold Moments.equilibriumMu
  rw [Matrix.smul_mulVec]
  fin_cases i <;> simp [Matrix.mulVec, dotProduct, covarianceOf, twoAssets, Fin.sum_univ_two]

theorem utility_equilibrium (c lam : ℝ) (v : Fin 2 → ℝ) (h0 : lam * v 0 = 4 / 100) (h1 : lam * v 1 = 2 / 100) : Equilibrium (utilityAssets c) lam (some v) := by
  refine ⟨?_, rfl, fun _ => rfl, fun _ => rfl, rfl, rfl, rfl, rfl⟩
  funext i
  refine Eq.trans ?_ (twoAssets_equilibrium (4 / 100) (2 / 100) lam longOnly v i).symm
  fin_cases i
  · exact h0.symm
  · exact h1.symm

theorem utility_comparable (c p : ℝ) (h0 : 0 ≤ p) (h1 : p ≤ 1) : Comparable (sortPartition ℝ) (utilityAssets c) ![p, 1 - p] := by
  refine ⟨⟨longOnly_limits _ (by simpa using h0) (by simpa using h1) (by simp), ?_, ?_, fun x hx => (by cases hx), fun r x hx => (by cases hx)⟩, fun r _ x hx => (by cases hx), fun h => (by cases h)⟩
  · constructor <;> intros <;> simp_all [utilityAssets, frontierAssets, twoAssets, longOnly, noLimits]
  · constructor <;> intros <;> simp_all [utilityAssets, frontierAssets, twoAssets, longOnly, noLimits]

theorem utility_definite (c : ℝ) : PositiveDefinite (utilityAssets c) := frontier_definite (4 / 100) (2 / 100)

/-- Market weights of 2/3 and 1/3, an identity covariance and `λ = 0.06` give expected returns of 4 % and 2 %, and the utility with the risk aversion 0.03 is greatest at the market weights. -/
example : ∃ (cs : List (Constraint ℝ 2)) (a : ℝ), getWeightConstraints (utilityAssets (3 / 100)).weights (factorIsVariable (utilityAssets (3 / 100))) true (utilityAssets (3 / 100)).scale = .ok cs ∧ BetasOk (utilityAssets (3 / 100)) ∧
    PositiveDefinite (utilityAssets (3 / 100)) ∧ Equilibrium (utilityAssets (3 / 100)) (2 * (utilityAssets (3 / 100)).riskAversion) (some ![2 / 3, 1 - 2 / 3]) ∧
    Comparable (sortPartition ℝ) (utilityAssets (3 / 100)) (marketWeights (some ![2 / 3, 1 - 2 / 3])) ∧ IsOptimum (utilityAssets (3 / 100)) cs ![2 / 3, 1 - 2 / 3] 1 a := by
  obtain ⟨cs, hcs⟩ := frontier_ok
  refine ⟨cs, _, hcs, tradeoff_betas, utility_definite _, utility_equilibrium _ _ _ ?_ ?_, utility_comparable _ _ (by norm_num) (by norm_num),
    utility_optimum (3 / 100) (2 / 3) (by norm_num) (by norm_num) (by norm_num) (by norm_num) cs hcs⟩
  · change 2 * (3 / 100) * (2 / 3 : ℝ) = _
    norm_num
  · change 2 * (3 / 100) * (1 - 2 / 3 : ℝ) = _
    norm_num

/-- **C125.** The factor 1/2 matters: with the same risk aversion (here 0.06; both default to 1) in `EquilibriumMu` and `MeanRisk`, the market weights of 2/3 and 1/3 are not returned but 7/12 and 5/12. -/
theorem C125_same_aversion : ∃ (cs : List (Constraint ℝ 2)) (a : ℝ), getWeightConstraints (utilityAssets (6 / 100)).weights (factorIsVariable (utilityAssets (6 / 100))) true (utilityAssets (6 / 100)).scale = .ok cs ∧
    Equilibrium (utilityAssets (6 / 100)) (utilityAssets (6 / 100)).riskAversion (some ![2 / 3, 1 / 3]) ∧ Comparable (sortPartition ℝ) (utilityAssets (6 / 100)) ![2 / 3, 1 / 3] ∧
    IsOptimum (utilityAssets (6 / 100)) cs ![7 / 12, 1 - 7 / 12] 1 a ∧ returnedWeights ![7 / 12, 1 - 7 / 12] 1 ≠ (![2 / 3, 1 / 3] : Fin 2 → ℝ) := by
  obtain ⟨cs, hcs⟩ := frontier_ok
  refine ⟨cs, _, hcs, utility_equilibrium _ _ _ ?_ ?_, ?_, utility_optimum (6 / 100) (7 / 12) (by norm_num) (by norm_num) (by norm_num) (by norm_num) cs hcs, ?_⟩
  · change (6 / 100) * (2 / 3 : ℝ) = _
    norm_num
  · change (6 / 100) * (1 / 3 : ℝ) = _
    norm_num
  · have e : (![2 / 3, 1 / 3] : Fin 2 → ℝ) = ![2 / 3, 1 - 2 / 3] := by norm_num
    rw [e]
    exact utility_comparable (6 / 100) (2 / 3) (by norm_num) (by norm_num)
  · intro h
    have := congrFun h 0
    rw [returned_one] at this
    norm_num at this

/-- **C125.** So do the units of the weights: the documentation of `EquilibriumMu` suggests market capitalisations, and with capitalisations of 2 and 1 (`λ = 0.02`, risk aversion 0.01) everything is invested in the first asset. -/
theorem C125_raw_capitalisations : ∃ (cs : List (Constraint ℝ 2)) (a : ℝ), getWeightConstraints (utilityAssets (1 / 100)).weights (factorIsVariable (utilityAssets (1 / 100))) true (utilityAssets (1 / 100)).scale = .ok cs ∧
    Equilibrium (utilityAssets (1 / 100)) (2 * (utilityAssets (1 / 100)).riskAversion) (some ![2, 1]) ∧ Comparable (sortPartition ℝ) (utilityAssets (1 / 100)) ![2 / 3, 1 - 2 / 3] ∧
    IsOptimum (utilityAssets (1 / 100)) cs ![1, 1 - 1] 1 a ∧ returnedWeights ![1, 1 - 1] 1 ≠ (![2 / 3, 1 - 2 / 3] : Fin 2 → ℝ) := by
  obtain ⟨cs, hcs⟩ := frontier_ok
  refine ⟨cs, _, hcs, utility_equilibrium _ _ _ ?_ ?_, utility_comparable _ _ (by norm_num) (by norm_num), utility_optimum (1 / 100) 1 (by norm_num) (by norm_num) (by norm_num) (by norm_num) cs hcs, ?_⟩
  · change 2 * (1 / 100) * (2 : ℝ) = _
    norm_num
  · change 2 * (1 / 100) * (1 : ℝ) = _
    norm_num
  · intro h
    have := congrFun h 0
    rw [returned_one] at this
    norm_num at this

/-- Capitalisations of 4 and 3 with `λ = 0.01`: the greatest ratio is at 4/7 and 3/7. -/
example : ∃ (cs : List (Constraint ℝ 2)) (a : ℝ), getWeightConstraints longOnly (factorIsVariable (twoAssets (4 / 100) (3 / 100) longOnly)) true 1 = .ok cs ∧ PositiveDefinite (twoAssets (4 / 100) (3 / 100) longOnly) ∧
    Equilibrium (twoAssets (4 / 100) (3 / 100) longOnly) (1 / 100) (some ![4, 3]) ∧ (Allowed (twoAssets (4 / 100) (3 / 100) longOnly) fun i => 1 / 7 * marketWeights (some ![4, 3]) i) ∧
    IsOptimum (twoAssets (4 / 100) (3 / 100) longOnly) cs ![56 / 100, 42 / 100] (98 / 100) a := by
  obtain ⟨cs, hcs⟩ := longOnly_ok
  refine ⟨cs, _, hcs, frontier_definite (4 / 100) (3 / 100), ⟨?_, rfl, fun _ => rfl, fun _ => rfl, rfl, rfl, rfl, rfl⟩, ⟨longOnly_limits _ ?_ ?_ ?_, cardinality_trivial _ rfl _, ?_, fun r x hx => (by cases hx)⟩, longOnly_optimum cs hcs⟩
  · funext i
    rw [twoAssets_equilibrium]
    fin_cases i <;> simp [twoAssets] <;> norm_num
  · simp [marketWeights]
  · simp [marketWeights]
  · simp [marketWeights]
    norm_num
  · constructor <;> intros <;> simp_all [twoAssets, longOnly, noLimits]

/-- Two uncorrelated assets of variance 1 and expected returns of 100 % and 0, fully invested without bounds; the standard deviation is minimised. -/
noncomputable def fundAssets : MeanRisk 2 2 := { twoAssets 1 0 noLimits with objective := .minimizeRisk }

theorem fund_equations : OnlyEquations fundAssets :=
  ⟨rfl, rfl, rfl, rfl, rfl, rfl, rfl, rfl, rfl, rfl, rfl, rfl, fun _ => rfl, fun _ => rfl, rfl, rfl, rfl⟩

theorem fund_ok : ∃ cs, getWeightConstraints fundAssets.weights (factorIsVariable fundAssets) true fundAssets.scale = .ok cs := by
  unfold getWeightConstraints
  simp [fundAssets, twoAssets, noLimits, isMip, simpleConstraints, minConstraint, longConstraint, shortConstraint, budgetConstraint, mipPart, bind, Except.bind, pure, Except.pure]

theorem fund_return (w : Fin 2 → ℝ) : netExpectedReturn fundAssets w = w 0 := by
  simp [netExpectedReturn, muUncertainty, fundAssets, twoAssets, Fin.sum_univ_two]

theorem fund_variance (w : Fin 2 → ℝ) : portfolioVariance fundAssets w = w 0 ^ 2 + w 1 ^ 2 := by
  unfold portfolioVariance
  rw [volatility_eq]
  simp [loading, fundAssets, twoAssets, Fin.sum_univ_two]

theorem fund_betas (x : ℝ) : BetasOk (withTarget fundAssets x) := by
  refine ⟨⟨?_, ?_⟩, ⟨?_, ?_⟩, ⟨?_, ?_⟩, ?_, ?_⟩ <;> norm_num [withTarget, fundAssets, twoAssets]

theorem fund_optimum (p : ℝ) (hp : 1 / 2 ≤ p) (cs : List (Constraint ℝ 2)) (hcs : getWeightConstraints fundAssets.weights (factorIsVariable fundAssets) true fundAssets.scale = .ok cs) :
    ∃ a : (riskProgram (withTarget fundAssets p) .standardDeviation ![p, 1 - p] 1).Aux, IsOptimum (withTarget fundAssets p) cs ![p, 1 - p] 1 a := by
  obtain ⟨⟨a, ha1, ha2⟩, -⟩ := std_value (withTarget fundAssets p) one_pos ![p, 1 - p] 1
  refine ⟨a, optimum_of_best (sortPartition ℝ) (withTarget fundAssets p) one_pos one_pos le_rfl (fund_betas p) cs hcs (fun w => Real.sqrt (portfolioVariance fundAssets w)) (fun w x => Iff.rfl) (by intro h; cases h)
    zero_le_one _ ((comparable_iff _ _ fund_equations p _).2 ⟨⟨?_, fun row h => absurd h List.not_mem_nil⟩, ?_⟩) a ha1 ha2 fun w hw => ?_⟩
  · rintro b ⟨⟩
    simp
  · rw [fund_return]
    simp
  · have hp0 : ∀ w, penalty (withTarget fundAssets p) w = 0 := fun w => by simp [penalty, withTarget, fundAssets, twoAssets]
    rw [hp0, hp0, add_zero, add_zero]
    change Real.sqrt _ ≤ Real.sqrt _
    refine Real.sqrt_le_sqrt ?_
    rw [fund_variance, fund_variance]
    have h1 : p ≤ netExpectedReturn fundAssets w := hw.returns.minReturn p List.mem_cons_self
    have h2 : ∑ i, w i = 1 := hw.limits.budget 1 rfl
    rw [fund_return] at h1
    rw [Fin.sum_univ_two] at h2
    have e : w 1 = 1 - w 0 := by linarith
    rw [e]
    simp only [Matrix.cons_val_zero, Matrix.cons_val_one]
    nlinarith

/-- Required returns of 60 %, 100 % and, half-way, 80 %. -/
example : ∃ cs, getWeightConstraints fundAssets.weights (factorIsVariable fundAssets) true fundAssets.scale = .ok cs ∧ BetasOk fundAssets ∧ PositiveDefinite fundAssets ∧ OnlyEquations fundAssets ∧
    (∃ a : (riskProgram (withTarget fundAssets (6 / 10)) .standardDeviation ![6 / 10, 1 - 6 / 10] 1).Aux, IsOptimum (withTarget fundAssets (6 / 10)) cs ![6 / 10, 1 - 6 / 10] 1 a) ∧
    (∃ a : (riskProgram (withTarget fundAssets 1) .standardDeviation ![1, 1 - 1] 1).Aux, IsOptimum (withTarget fundAssets 1) cs ![1, 1 - 1] 1 a) ∧
    (∃ a : (riskProgram (withTarget fundAssets ((1 - 1 / 2) * (6 / 10) + 1 / 2 * 1)) .standardDeviation ![(1 - 1 / 2) * (6 / 10) + 1 / 2 * 1, 1 - ((1 - 1 / 2) * (6 / 10) + 1 / 2 * 1)] 1).Aux,
      IsOptimum (withTarget fundAssets ((1 - 1 / 2) * (6 / 10) + 1 / 2 * 1)) cs ![(1 - 1 / 2) * (6 / 10) + 1 / 2 * 1, 1 - ((1 - 1 / 2) * (6 / 10) + 1 / 2 * 1)] 1 a) ∧
    netExpectedReturn fundAssets (returnedWeights ![6 / 10, 1 - 6 / 10] 1) = 6 / 10 ∧ netExpectedReturn fundAssets (returnedWeights ![1, 1 - 1] 1) = 1 := by
  obtain ⟨cs, hcs⟩ := fund_ok
  refine ⟨cs, hcs, fund_betas 0, frontier_definite 1 0, fund_equations, fund_optimum _ (by norm_num) cs hcs, fund_optimum _ (by norm_num) cs hcs, fund_optimum _ (by norm_num) cs hcs, ?_, ?_⟩ <;>
    rw [returned_one, fund_return] <;> simp

end Skfolio.Convex
