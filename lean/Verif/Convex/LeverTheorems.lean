import Verif.Convex.RiskBudgetingFindings
import Verif.Convex.Diversification
import Verif.Naive.Model

/-!
**C150.** Leverage inside an asset does not matter to the optimisers that only look at risk: if an asset is replaced by a levered (or geared down) version of itself, they hold so much less (or more) of it.
-/
set_option autoImplicit false

namespace Skfolio.Convex

open Skfolio.Measures

section
variable {n T : Nat}

/-! ### Specification -/

/-- The exposure to the original assets of a portfolio of the levered ones. -/
def exposure (l w : Fin n → ℝ) : Fin n → ℝ := fun i => l i * w i

/-- The portfolio of the levered assets with the exposure `x`, up to a factor that makes it fully invested. -/
noncomputable def unlevered (l x : Fin n → ℝ) : Fin n → ℝ := fun i => x i / l i / ∑ j, x j / l j

/-- Asset `i` of `m'` is asset `i` of `m` with leverage `l i` (financed at no cost). -/
structure IsLevered (l : Fin n → ℝ) (m m' : MeanRisk n T) : Prop where
  returns : ∀ t i, m'.data.returns t i = l i * m.data.returns t i
  fees : ∀ i, m'.data.managementFees i = l i * m.data.managementFees i
  costs : ∀ i, m.data.transactionCosts i = 0
  costs' : ∀ i, m'.data.transactionCosts i = 0
  riskFree : m'.data.riskFreeRate = m.data.riskFreeRate
  covariance : ∀ i j, covarianceOf m' i j = l i * l j * covarianceOf m i j
  acceptable : ∀ i, marOf m'.data m'.minAcceptableReturn i = l i * marOf m.data m.minAcceptableReturn i
  riskMeasure : m'.riskMeasure = m.riskMeasure
  cvarBeta : m'.cvarBeta = m.cvarBeta
  evarBeta : m'.evarBeta = m.evarBeta
  cdarBeta : m'.cdarBeta = m.cdarBeta
  edarBeta : m'.edarBeta = m.edarBeta

/-! ### The risk -/

section
variable {l : Fin n → ℝ} {m m' : MeanRisk n T} (h : IsLevered l m m')
include h

theorem gross_levered (w : Fin n → ℝ) (t : Fin T) : ∑ i, w i * m'.data.returns t i = ∑ i, exposure l w i * m.data.returns t i :=
  Finset.sum_congr rfl fun i _ => by rw [h.returns, exposure]; ring

theorem net_levered (w : Fin n → ℝ) : netReturns m'.data w 1 = netReturns m.data (exposure l w) 1 := by
  unfold netReturns
  congr 1
  funext t
  unfold netReturn
  simp only [one_mul, h.costs, h.costs', abs_zero, zero_mul, Finset.sum_const_zero]
  rw [gross_levered h]
  congr 1
  exact Finset.sum_congr rfl fun i _ => by rw [h.fees, exposure]; ring

theorem free_levered : IsLevered l { m with data := { m.data with transactionCosts := fun _ => 0 } } { m' with data := { m'.data with transactionCosts := fun _ => 0 } } :=
  ⟨h.returns, h.fees, fun _ => rfl, fun _ => rfl, h.riskFree, h.covariance, h.acceptable, h.riskMeasure, h.cvarBeta, h.evarBeta, h.cdarBeta, h.edarBeta⟩

/-- **C150.** A portfolio of the levered assets has the risk of its exposure, by every measure. -/
theorem C150_risk (P : Partition ℝ) (r : RiskMeasure) (w : Fin n → ℝ) (x : ℝ) : RiskAtMost P m' r w x ↔ RiskAtMost P m r (exposure l w) x := by
  have e1 := net_levered h w
  have e2 : grossReturns m'.data w = grossReturns m.data (exposure l w) := by
    unfold grossReturns
    congr 1
    funext t
    exact gross_levered h w t
  have e3 : target m' w = target m (exposure l w) := Finset.sum_congr rfl fun i _ => by rw [h.acceptable, exposure]; ring
  have e4 : ∑ i, ∑ j, w i * covarianceOf m' i j * w j = ∑ i, ∑ j, exposure l w i * covarianceOf m i j * exposure l w j :=
    Finset.sum_congr rfl fun i _ => Finset.sum_congr rfl fun j _ => by rw [h.covariance, exposure, exposure]; ring
  have e5 := net_levered (free_levered h) w
  dsimp only at e5
  cases r <;> simp only [RiskAtMost, e1, e2, e3, e4, e5, h.cvarBeta, h.evarBeta, h.cdarBeta, h.edarBeta]
  rw [h.riskFree]

theorem risk_levered (P : Partition ℝ) (r : RiskMeasure) (R R' : (Fin n → ℝ) → ℝ) (hR : IsRiskOf P m r R) (hR' : IsRiskOf P m' r R') (w : Fin n → ℝ) : R' w = R (exposure l w) :=
  le_antisymm ((hR' w _).1 ((C150_risk h P r w _).2 ((hR _ _).2 le_rfl))) ((hR _ _).1 ((C150_risk h P r w _).1 ((hR' w _).2 le_rfl)))

end

/-! ### Risk budgeting -/

/-- A weighted mean times the weighted mean of the inverses is one only if all numbers are equal. -/
theorem means_equal (b r : Fin n → ℝ) (hb : ∀ i, 0 < b i) (hr : ∀ i, 0 < r i) (hsum : ∑ i, b i = 1) (h : (∑ i, b i * r i) * ∑ i, b i * (1 / r i) ≤ 1) (i : Fin n) : r i = ∑ j, b j * r j := by
  have hne : (Finset.univ : Finset (Fin n)).Nonempty := ⟨i, Finset.mem_univ _⟩
  obtain ⟨A, hA⟩ : ∃ A, A = ∑ j, b j * r j := ⟨_, rfl⟩
  rw [← hA] at h ⊢
  have hA0 : 0 < A := by rw [hA]; exact Finset.sum_pos (fun j _ => mul_pos (hb j) (hr j)) hne
  have each : ∀ j, b j * ((r j - A) ^ 2 / (A * r j)) = b j * r j / A + A * (b j * (1 / r j)) - 2 * b j := fun j => by
    have := (hr j).ne'
    field_simp
    ring
  have total : ∑ j, b j * ((r j - A) ^ 2 / (A * r j)) ≤ 0 := by
    rw [Finset.sum_congr rfl fun j _ => each j, Finset.sum_sub_distrib, Finset.sum_add_distrib, ← Finset.sum_div, ← hA, ← Finset.mul_sum, ← Finset.mul_sum, hsum, div_self hA0.ne']
    linarith
  have nonneg : ∀ j ∈ Finset.univ, 0 ≤ b j * ((r j - A) ^ 2 / (A * r j)) := fun j _ => mul_nonneg (hb j).le (div_nonneg (sq_nonneg _) (mul_pos hA0 (hr j)).le)
  have zero := (Finset.sum_eq_zero_iff_of_nonneg nonneg).1 (le_antisymm total (Finset.sum_nonneg nonneg)) i (Finset.mem_univ i)
  rcases mul_eq_zero.1 zero with z | z
  · exact absurd z (hb i).ne'
  · rcases div_eq_zero_iff.1 z with z | z
    · exact sub_eq_zero.1 (pow_eq_zero_iff two_ne_zero |>.1 z)
    · exact absurd z (mul_pos hA0 (hr i)).ne'

theorem share_sum (b : Fin n → ℝ) (hb : ∀ i, 0 < b i) (hn : 0 < n) : (∀ i, 0 < share b i) ∧ ∑ i, share b i = 1 := by
  have hne : (Finset.univ : Finset (Fin n)).Nonempty := ⟨⟨0, hn⟩, Finset.mem_univ _⟩
  have hB : 0 < ∑ i, b i := Finset.sum_pos (fun i _ => hb i) hne
  refine ⟨fun i => div_pos (hb i) hB, ?_⟩
  unfold share
  rw [← Finset.sum_div, div_self hB.ne']

theorem root_pos (r : RiskMeasure) (x : ℝ) (h : 0 < x) : 0 < root r x := by
  unfold root
  split_ifs
  · exact Real.sqrt_pos.2 h
  · exact h

/-- **C150.** `RiskBudgeting`, for every risk measure: if assets are replaced by levered versions of themselves, the fit holds them in inverse proportion to the leverage, so that the exposure to the original assets is the same up to a factor. -/
theorem C150_risk_budgeting (P : Partition ℝ) (l : Fin n → ℝ) (hl : ∀ i, 0 < l i) (m m' : RiskBudgeting n T) (h : IsLevered l m.base m'.base) (hbudget : riskBudget m' = riskBudget m) (hs : 0 < m.base.scale) (hs' : 0 < m'.base.scale)
    (hso : 0 < m.base.scaleObjective) (hso' : 0 < m'.base.scaleObjective) (hT : 2 ≤ T) (hb : BetasOk m.base) (hb' : BetasOk m'.base) (R R' : (Fin n → ℝ) → ℝ) (hR : IsRiskOf P m.base m.base.riskMeasure R)
    (hR' : IsRiskOf P m'.base m'.base.riskMeasure R') (hf : m.base.riskMeasure = .firstLowerPartialMoment → m.base.data.riskFreeRate = 0) (hlim : NoLimits m.base.weights) (hlim' : NoLimits m'.base.weights) (hret : m.minReturn = none)
    (hret' : m'.minReturn = none) (hbud : ∀ i, 0 < riskBudget m i) (hn : 0 < n) (cs cs' : List (Constraint ℝ n)) (hcs : getWeightConstraints m.base.weights true false m.base.scale = .ok cs)
    (hcs' : getWeightConstraints m'.base.weights true false m'.base.scale = .ok cs') (w w' : Fin n → ℝ) (k k' c c' : ℝ) (a : (riskProgram m.base m.base.riskMeasure w (riskFactor m.base.riskMeasure k)).Aux)
    (a' : (riskProgram m'.base m'.base.riskMeasure w' (riskFactor m'.base.riskMeasure k')).Aux) (ho : BudgetOptimum m cs w k c a) (ho' : BudgetOptimum m' cs' w' k' c' a') (hpos : 0 < R (returnedWeights w k)) :
    returnedWeights w' k' = unlevered l (returnedWeights w k) := by
  obtain ⟨hx, -, -, hg⟩ := C60_subgradient P m hs hso hT hb R hR ⟨fun i => by rw [h.costs, zero_mul], hf⟩ hlim hret hbud hn cs hcs w k c a ho
  obtain ⟨hy, hsum', -, hg'⟩ := C60_subgradient P m' hs' hso' hT hb' R' hR' ⟨fun i => by rw [h.costs', zero_mul], fun q => by rw [h.riskFree]; exact hf (h.riskMeasure ▸ q)⟩ hlim' hret' (by rw [hbudget]; exact hbud) hn cs' hcs' w' k' c' a' ho'
  rw [hbudget] at hg'
  have hRR := risk_levered h P m.base.riskMeasure R R' hR (h.riskMeasure ▸ hR')
  rw [h.riskMeasure] at hg'
  generalize returnedWeights w k = x at *
  generalize returnedWeights w' k' = y at *
  obtain ⟨hbs, hb1⟩ := share_sum (riskBudget m) hbud hn
  generalize share (riskBudget m) = b at *
  have hne : (Finset.univ : Finset (Fin n)).Nonempty := ⟨⟨0, hn⟩, Finset.mem_univ _⟩
  have g1 := hg (exposure l y)
  have g2 := hg' fun i => x i / l i
  rw [← hRR] at g1
  rw [hRR fun i => x i / l i] at g2
  have e : exposure l (fun i => x i / l i) = x := funext fun i => mul_div_cancel₀ _ (hl i).ne'
  rw [e] at g2
  have p1 := root_pos m.base.riskMeasure _ hpos
  generalize root m.base.riskMeasure (R x) = ρ at *
  generalize root m.base.riskMeasure (R' y) = ρ' at *
  have hq : ∀ i, 0 < exposure l y i / x i := fun i => div_pos (mul_pos (hl i) (hy i)) (hx i)
  have i1 : ∑ i, b i * (x i / l i / y i) = ∑ i, b i * (1 / (exposure l y i / x i)) := Finset.sum_congr rfl fun i _ => by
    unfold exposure
    rw [one_div_div, div_div]
  rw [i1] at g2
  have s1 : 0 < ∑ i, b i * (exposure l y i / x i) := Finset.sum_pos (fun i _ => mul_pos (hbs i) (hq i)) hne
  have p2 : 0 < ρ' := (mul_pos p1 s1).trans_le g1
  have prod : (∑ i, b i * (exposure l y i / x i)) * ∑ i, b i * (1 / (exposure l y i / x i)) ≤ 1 := by
    have s2 : 0 < ∑ i, b i * (1 / (exposure l y i / x i)) := Finset.sum_pos (fun i _ => mul_pos (hbs i) (one_div_pos.2 (hq i))) hne
    have := mul_le_mul g1 g2 (mul_pos p2 s2).le p2.le
    have hρ : 0 < ρ * ρ' := mul_pos p1 p2
    refine le_of_mul_le_mul_left ?_ hρ
    linarith
  have const := means_equal b _ hbs hq hb1 prod
  obtain ⟨A, hA⟩ : ∃ A, A = ∑ j, b j * (exposure l y j / x j) := ⟨_, rfl⟩
  rw [← hA] at const s1
  have form : ∀ i, y i = A * (x i / l i) := fun i => by
    have := const i
    rw [div_eq_iff (hx i).ne'] at this
    unfold exposure at this
    rw [← mul_div_assoc, eq_div_iff (hl i).ne', mul_comm (y i), this]
  have hS : A * ∑ j, x j / l j = 1 := by
    rw [← hsum', Finset.mul_sum]
    exact Finset.sum_congr rfl fun i _ => (form i).symm
  funext i
  rw [form i, unlevered, eq_div_iff (right_ne_zero_of_mul (hS ▸ one_ne_zero)), mul_right_comm, hS, one_mul]

/-! ### Inverse volatility -/

/-- **C150.** The same for `InverseVolatility`. -/
theorem C150_inverse_volatility (l : Fin n → ℝ) (hl : ∀ i, 0 < l i) (cov : Matrix (Fin n) (Fin n) ℝ) (x : Fin n → ℝ) (hx : Naive.inverseVolatility cov = some x) : Naive.inverseVolatility (fun i j => l i * l j * cov i j) = some (unlevered l x) := by
  unfold Naive.inverseVolatility at hx ⊢
  split_ifs at hx with hc
  rw [if_pos fun i => mul_pos (mul_pos (hl i) (hl i)) (hc i)]
  have e : ∀ i, √(l i * l i * cov i i) = l i * √(cov i i) := fun i => by rw [Real.sqrt_mul (mul_self_nonneg _), Real.sqrt_mul_self (hl i).le]
  simp only [e]
  unfold Naive.normalise at hx ⊢
  split_ifs at hx with h0
  have hx : x = fun i => 1 / √(cov i i) / ∑ j, 1 / √(cov j j) := (Option.some.inj hx).symm
  have hS : 0 < ∑ j, 1 / √(cov j j) := lt_of_le_of_ne (Finset.sum_nonneg fun j _ => by positivity) (Ne.symm h0)
  have hne : (Finset.univ : Finset (Fin n)).Nonempty := by
    by_contra hne
    rw [Finset.not_nonempty_iff_eq_empty] at hne
    rw [hne, Finset.sum_empty] at h0
    exact h0 rfl
  have hS' : 0 < ∑ j, 1 / (l j * √(cov j j)) := Finset.sum_pos (fun j _ => by have := hl j; have := Real.sqrt_pos.2 (hc j); positivity) hne
  rw [if_neg hS'.ne']
  congr 1
  have ex : ∀ i, x i / l i = 1 / (l i * √(cov i i)) / ∑ j, 1 / √(cov j j) := fun i => by
    rw [hx, div_right_comm, div_div 1, mul_comm (√(cov i i))]
  funext i
  unfold unlevered
  simp only [ex]
  rw [← Finset.sum_div, div_div_div_cancel_right₀ hS.ne']

/-! ### Maximum diversification -/

theorem weighted_levered (l : Fin n → ℝ) (hl : ∀ i, 0 < l i) (cov : Fin n → Fin n → ℝ) (w : Fin n → ℝ) : weightedVolatility (fun i j => l i * l j * cov i j) w = weightedVolatility cov (exposure l w) := by
  refine Finset.sum_congr rfl fun i _ => ?_
  rw [Real.sqrt_mul (mul_self_nonneg _), Real.sqrt_mul_self (hl i).le, exposure]
  ring

theorem volatility_levered (l : Fin n → ℝ) (cov : Fin n → Fin n → ℝ) (w : Fin n → ℝ) : volatility (fun i j => l i * l j * cov i j) w = volatility cov (exposure l w) := by
  unfold volatility
  congr 1
  exact Finset.sum_congr rfl fun i _ => Finset.sum_congr rfl fun j _ => by simp only [exposure]; ring

theorem weighted_scaled (cov : Fin n → Fin n → ℝ) (c : ℝ) (w : Fin n → ℝ) : weightedVolatility cov (fun i => c * w i) = c * weightedVolatility cov w := by
  unfold weightedVolatility
  rw [Finset.mul_sum]
  exact Finset.sum_congr rfl fun i _ => by ring

theorem volatility_scaled (cov : Fin n → Fin n → ℝ) (c : ℝ) (hc : 0 ≤ c) (w : Fin n → ℝ) : volatility cov (fun i => c * w i) = c * volatility cov w := by
  unfold volatility
  have e : ∑ i, ∑ j, c * w i * cov i j * (c * w j) = c * c * ∑ i, ∑ j, w i * cov i j * w j := by
    rw [Finset.mul_sum]
    refine Finset.sum_congr rfl fun i _ => ?_
    rw [Finset.mul_sum]
    exact Finset.sum_congr rfl fun j _ => by ring
  rw [e, Real.sqrt_mul (mul_self_nonneg c), Real.sqrt_mul_self hc]

/-- **C150.** The same for `MaximumDiversification`: the exposure of the fit on the levered assets has the greatest diversification ratio of all long-only portfolios of the original ones (cross-multiplied). -/
theorem C150_maximum_diversification (l : Fin n → ℝ) (hl : ∀ i, 0 < l i) (cov : Fin n → Fin n → ℝ) (m : MeanRisk n T) (hcov : ∀ i j, ∑ q, m.cholesky i q * m.cholesky j q = l i * l j * cov i j) (hs : 0 < m.scale) (hso : 0 < m.scaleObjective)
    (htc : ∀ i, m.data.transactionCosts i = 0) (hfee : ∀ i, m.data.managementFees i = 0) (hrf : m.data.riskFreeRate = 0) (hl1 : m.l1Coef = 0) (hl2 : m.l2Coef = 0) (hte : m.maxTrackingError = none) (hret : m.minReturns = []) (hto : m.maxTurnover = none)
    (hlim : ∀ v : Fin n → ℝ, (∀ i, 0 ≤ v i) → ∑ i, v i = 1 → RespectsLimits m.weights v) (cs : List (Constraint ℝ n)) (hcs : getWeightConstraints (maximumDiversification (fun i j => l i * l j * cov i j) m).weights true true m.scale = .ok cs)
    (w : Fin n → ℝ) (k : ℝ) (hk : 0 < k) (a : (riskProgram (maximumDiversification (fun i j => l i * l j * cov i j) m) .standardDeviation w k).Aux) (h : IsOptimum (maximumDiversification (fun i j => l i * l j * cov i j) m) cs w k a)
    (v : Fin n → ℝ) (hv : ∀ i, 0 ≤ v i) (hv0 : 0 < weightedVolatility cov v) :
    weightedVolatility cov v * volatility cov (exposure l (returnedWeights w k)) ≤ weightedVolatility cov (exposure l (returnedWeights w k)) * volatility cov v := by
  have hS : 0 < ∑ j, v j / l j := by
    refine lt_of_le_of_ne (Finset.sum_nonneg fun j _ => div_nonneg (hv j) (hl j).le) fun h0 => ?_
    have z := (Finset.sum_eq_zero_iff_of_nonneg fun j _ => div_nonneg (hv j) (hl j).le).1 h0.symm
    have z : ∀ j, v j = 0 := fun j => ((div_eq_zero_iff.1 (z j (Finset.mem_univ j))).resolve_right (hl j).ne')
    simp [weightedVolatility, z] at hv0
  have e : exposure l (unlevered l v) = fun i => (∑ j, v j / l j)⁻¹ * v i := funext fun i => by
    unfold exposure unlevered
    rw [← mul_div_assoc, mul_div_cancel₀ _ (hl i).ne', div_eq_inv_mul]
  have hc : 0 < (∑ j, v j / l j)⁻¹ := inv_pos.2 hS
  have key := (C61_cross (fun i j => l i * l j * cov i j) m hcov hs hso htc hfee hrf hl1 hl2 hte hret cs hcs w k hk a h (unlevered l v)
    (hlim _ (fun i => div_nonneg (div_nonneg (hv i) (hl i).le) hS.le) (by unfold unlevered; rw [← Finset.sum_div, div_self hS.ne'])) (fun x hx => by rw [hto] at hx; cases hx)
    (by rw [weighted_levered l hl, e, weighted_scaled]; exact mul_pos hc hv0)).2
  rw [weighted_levered l hl, weighted_levered l hl, volatility_levered, volatility_levered, e, weighted_scaled, volatility_scaled _ _ hc.le] at key
  refine le_of_mul_le_mul_left ?_ hc
  linarith

/-! ### Concrete cases -/

/-- `fourToOne` with the second asset levered two times. -/
noncomputable def fourLevered : RiskBudgeting 2 2 := ⟨{ fourToOne.base with cholesky := ![![1, 0], ![0, 2]] }, some ![4 / 5, 1 / 5], none⟩

theorem fourLevered_budget : riskBudget fourLevered = riskBudget fourToOne := rfl

theorem fourLevered_variance (w : Fin 2 → ℝ) : portfolioVariance fourLevered.base w = w 0 ^ 2 + 4 * w 1 ^ 2 := by
  simp [portfolioVariance, covarianceOf, fourLevered, Fin.sum_univ_two]
  ring

theorem fourLevered_optimum (P : Partition ℝ) : ∃ (cs : List (Constraint ℝ 2)) (w : Fin 2 → ℝ) (k c : ℝ) (a : (riskProgram fourLevered.base fourLevered.base.riskMeasure w (riskFactor fourLevered.base.riskMeasure k)).Aux),
    getWeightConstraints fourLevered.base.weights true false fourLevered.base.scale = .ok cs ∧ BudgetOptimum fourLevered cs w k c a ∧ returnedWeights w k = ![4 / 5, 1 / 5] := by
  obtain ⟨cs, hcs⟩ := longOnly_ok'
  have hbud : ∀ i, 0 < riskBudget fourLevered i := by
    rw [fourLevered_budget, fourToOne_budget]
    intro i
    fin_cases i <;> norm_num
  have hf : ScaleFree fourLevered.base := ⟨fun i => mul_zero _, fun h => by cases h⟩
  have hbeta : BetasOk fourLevered.base := by
    unfold BetasOk
    norm_num [fourLevered, fourToOne, twoAssets]
  have hR : IsRiskOf P fourLevered.base fourLevered.base.riskMeasure (portfolioVariance fourLevered.base) := fun w x => Iff.rfl
  have hx0 : ∀ i, 0 < (![4 / 5, 1 / 5] : Fin 2 → ℝ) i := by intro i; fin_cases i <;> norm_num
  obtain ⟨k, hk, hret, hopt⟩ := C60_sufficient P fourLevered one_pos one_pos (le_refl 2) hbeta _ hR hf longOnly_noLimits rfl hbud two_pos cs hcs ![4 / 5, 1 / 5] hx0 (by norm_num [Fin.sum_univ_two]) (portfolioVariance_nonneg _ _) (by
    intro v hv
    have hv0 := hv 0
    have hv1 := hv 1
    have hroot : ∀ y, root fourLevered.base.riskMeasure y = Real.sqrt y := fun y => if_pos rfl
    rw [hroot, hroot, fourLevered_variance, fourLevered_variance, fourLevered_budget, fourToOne_budget]
    simp only [share, Fin.sum_univ_two, Matrix.cons_val_zero, Matrix.cons_val_one]
    refine Real.le_sqrt_of_sq_le ?_
    rw [mul_pow, Real.sq_sqrt (by positivity)]
    norm_num
    nlinarith [sq_nonneg (v 0 - 4 * v 1)])
  refine ⟨cs, scaled k ![4 / 5, 1 / 5], k, 0, (Real.sqrt (portfolioVariance fourLevered.base (scaled k ![4 / 5, 1 / 5])) : ℝ), hcs, hopt _ ?_ ?_, hret⟩
  · change 0 ≤ Real.sqrt _ ∧ Real.sqrt (∑ j, ((∑ i, fourLevered.base.cholesky i j * scaled k ![4 / 5, 1 / 5] i) * 1) ^ 2) ≤ Real.sqrt _ * 1
    refine ⟨Real.sqrt_nonneg _, ?_⟩
    rw [mul_one]
    refine Real.sqrt_le_sqrt (le_of_eq ?_)
    simp only [mul_one]
    rw [portfolioVariance, ← quadratic_eq fourLevered.base.cholesky (covarianceOf fourLevered.base) fun _ _ => rfl]
  · change Real.sqrt _ ^ 2 ≤ _
    rw [Real.sq_sqrt (portfolioVariance_nonneg _ _)]

theorem fourLevered_levered : IsLevered ![1, 2] fourToOne.base fourLevered.base := by
  refine ⟨fun t i => ?_, fun i => (mul_zero _).symm, fun _ => rfl, fun _ => rfl, rfl, fun i j => ?_, fun i => ?_, rfl, rfl, rfl, rfl, rfl⟩
  · fin_cases i <;> simp [fourLevered, fourToOne, twoAssets]
  · fin_cases i <;> fin_cases j <;> simp [covarianceOf, fourLevered, fourToOne, twoAssets]
  · fin_cases i <;> simp [marOf, fourLevered, fourToOne, twoAssets]

/-- Weights 2/3 and 1/3 become 4/5 and 1/5: half as much of the second asset for each unit of the first. -/
example (P : Partition ℝ) : (![4 / 5, 1 / 5] : Fin 2 → ℝ) = unlevered ![1, 2] ![2 / 3, 1 / 3] := by
  obtain ⟨cs, w, k, c, a, hcs, ho, hw, hbud, -, hlim, hb, hpos⟩ := fourToOne_optimum P
  obtain ⟨cs', w', k', c', a', hcs', ho', hw'⟩ := fourLevered_optimum P
  rw [← hw, ← hw']
  exact C150_risk_budgeting P ![1, 2] (by intro i; fin_cases i <;> norm_num) fourToOne fourLevered fourLevered_levered fourLevered_budget one_pos one_pos one_pos one_pos le_rfl hb hb _ _ (fun _ _ => Iff.rfl) (fun _ _ => Iff.rfl)
    (fun h => by cases h) hlim hlim rfl rfl hbud two_pos cs cs' hcs hcs' w w' k k' c c' a a' ho ho' hpos

/-- Two uncorrelated assets of volatility 1, the second levered two times: weights 2/3 and 1/3, an exposure of 2/3 to each; no long-only portfolio of the original assets has a greater ratio. -/
example (v : Fin 2 → ℝ) (hv : ∀ i, 0 ≤ v i) (hv0 : 0 < weightedVolatility (fun i j => if i = j then 1 else 0) v) :
    weightedVolatility (fun i j => if i = j then 1 else 0) v * volatility (fun i j => if i = j then 1 else 0) (exposure ![1, 2] ![2 / 3, 1 / 3]) ≤
      weightedVolatility (fun i j => if i = j then 1 else 0) (exposure ![1, 2] ![2 / 3, 1 / 3]) * volatility (fun i j => if i = j then 1 else 0) v := by
  obtain ⟨cs, w, k, a, hcs, hk, ho, hw, -, hcov⟩ := oneTwo_best
  have e : oneTwo = fun i j => (![1, 2] : Fin 2 → ℝ) i * (![1, 2] : Fin 2 → ℝ) j * if i = j then 1 else 0 := by
    funext i j
    fin_cases i <;> fin_cases j <;> norm_num [oneTwo]
  rw [← hw]
  revert a ho hcs
  rw [e]
  intro a hcs ho
  refine C150_maximum_diversification ![1, 2] (by intro i; fin_cases i <;> norm_num) _ (oneTwoProblem 0 []) (fun i j => by rw [hcov, e]) one_pos one_pos (fun _ => rfl) (fun _ => rfl) rfl rfl rfl rfl rfl rfl
    (fun x h0 h1 => longOnly_limits x (h0 0) (h0 1) (by rw [← h1, Fin.sum_univ_two])) cs hcs w k hk a ho v hv hv0

end

end Skfolio.Convex
