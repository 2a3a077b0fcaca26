import Verif.Convex.RiskBudgetingTheorems
import Verif.Convex.RatioFindings
import Mathlib.Analysis.Calculus.Deriv.Pow

/-!
**C60**, continued: variance and standard deviation, the converse, a case that meets the hypotheses, and the effect of previous weights.
-/
set_option autoImplicit false

namespace Skfolio.Convex

open Skfolio.Measures

section
variable {n T : Nat}

/-- Variance of a portfolio. -/
noncomputable def portfolioVariance (m : MeanRisk n T) (w : Fin n → ℝ) : ℝ := ∑ i, ∑ j, w i * covarianceOf m i j * w j

theorem covarianceOf_symm (m : MeanRisk n T) (i j : Fin n) : covarianceOf m i j = covarianceOf m j i := by
  unfold covarianceOf
  exact Finset.sum_congr rfl fun l _ => mul_comm _ _

theorem portfolioVariance_nonneg (m : MeanRisk n T) (w : Fin n → ℝ) : 0 ≤ portfolioVariance m w := by
  rw [portfolioVariance, ← quadratic_eq m.cholesky (covarianceOf m) fun _ _ => rfl]
  exact Finset.sum_nonneg fun j _ => sq_nonneg _

theorem variance_step (m : MeanRisk n T) (x : Fin n → ℝ) (i : Fin n) (t : ℝ) :
    portfolioVariance m (x + Pi.single i t) = portfolioVariance m x + 2 * t * (∑ j, covarianceOf m i j * x j) + t ^ 2 * covarianceOf m i i := by
  have hsingle : ∀ f : Fin n → ℝ, ∑ j, (Pi.single i t : Fin n → ℝ) j * f j = t * f i := by
    intro f
    rw [Finset.sum_eq_single i]
    · rw [Pi.single_eq_same]
    · intro j _ hj
      rw [Pi.single_eq_of_ne hj, zero_mul]
    · simp
  have e3 : ∑ b, (Pi.single i t : Fin n → ℝ) b * ∑ a, covarianceOf m b a * x a = ∑ a, ∑ b, x a * covarianceOf m a b * (Pi.single i t : Fin n → ℝ) b := by
    rw [Finset.sum_comm]
    refine Finset.sum_congr rfl fun b _ => ?_
    rw [Finset.mul_sum]
    refine Finset.sum_congr rfl fun a _ => ?_
    rw [covarianceOf_symm m b a]
    ring
  have e1 : portfolioVariance m (x + Pi.single i t) = portfolioVariance m x + (∑ a, (Pi.single i t : Fin n → ℝ) a * ∑ b, covarianceOf m a b * x b) +
      (∑ a, ∑ b, x a * covarianceOf m a b * (Pi.single i t : Fin n → ℝ) b) + ∑ a, (Pi.single i t : Fin n → ℝ) a * ∑ b, (Pi.single i t : Fin n → ℝ) b * covarianceOf m a b := by
    unfold portfolioVariance
    simp only [Finset.mul_sum, ← Finset.sum_add_distrib]
    refine Finset.sum_congr rfl fun a _ => Finset.sum_congr rfl fun b _ => ?_
    rw [Pi.add_apply, Pi.add_apply]
    ring
  rw [e1, ← e3, hsingle, hsingle fun a => ∑ b, (Pi.single i t : Fin n → ℝ) b * covarianceOf m a b, hsingle]
  ring

/-- The contributions to the variance, from the subgradient of the standard deviation. -/
theorem variance_contributions (m : MeanRisk n T) (b x : Fin n → ℝ) (hb : ∀ i, 0 < b i) (hx : ∀ i, 0 < x i) (h : ∀ v : Fin n → ℝ, Real.sqrt (portfolioVariance m x) * ∑ i, share b i * (v i / x i) ≤ Real.sqrt (portfolioVariance m v)) (i : Fin n) :
    x i * ∑ j, covarianceOf m i j * x j = share b i * portfolioVariance m x := by
  have hB : 0 < ∑ j, b j := Finset.sum_pos (fun j _ => hb j) ⟨i, Finset.mem_univ _⟩
  have hshare : ∑ j, share b j = 1 := by
    simp only [share]
    rw [← Finset.sum_div, div_self hB.ne']
  have hlin : ∀ t : ℝ, ∑ j, share b j * ((x + Pi.single i t : Fin n → ℝ) j / x j) = 1 + t * (share b i / x i) := by
    intro t
    have : ∀ j, share b j * ((x + Pi.single i t : Fin n → ℝ) j / x j) = share b j + share b j / x j * (Pi.single i t : Fin n → ℝ) j := by
      intro j
      rw [Pi.add_apply, add_div, div_self (hx j).ne']
      ring
    simp only [this]
    rw [Finset.sum_add_distrib, hshare]
    congr 1
    rw [Finset.sum_eq_single i]
    · rw [Pi.single_eq_same]; ring
    · intro j _ hj
      rw [Pi.single_eq_of_ne hj, mul_zero]
    · simp
  obtain ⟨s, hsd⟩ : ∃ s, s = share b i / x i := ⟨_, rfl⟩
  obtain ⟨g, hg⟩ : ∃ g, g = ∑ j, covarianceOf m i j * x j := ⟨_, rfl⟩
  obtain ⟨q, hq⟩ : ∃ q, q = portfolioVariance m x := ⟨_, rfl⟩
  obtain ⟨d, hd⟩ : ∃ d, d = covarianceOf m i i := ⟨_, rfl⟩
  have hxs : x i * s = share b i := by rw [hsd]; field_simp [(hx i).ne']
  have hmin : IsLocalMin (fun t : ℝ => (2 * g * t + (d * t ^ 2)) - (q * s * 2 * t + (q * s ^ 2) * t ^ 2)) 0 := by
    have hev : ∀ᶠ t in nhds (0 : ℝ), 0 < 1 + t * s := by
      have hc : Filter.Tendsto (fun t : ℝ => 1 + t * s) (nhds 0) (nhds (1 + 0 * s)) := by
        apply Continuous.tendsto
        fun_prop
      rw [zero_mul, add_zero] at hc
      exact hc.eventually (lt_mem_nhds one_pos)
    filter_upwards [hev] with t ht
    have h1 := h (x + Pi.single i t)
    simp only [hlin, ← hsd] at h1
    have h2 := pow_le_pow_left₀ (mul_nonneg (Real.sqrt_nonneg _) ht.le) h1 2
    rw [mul_pow, Real.sq_sqrt (portfolioVariance_nonneg m _), Real.sq_sqrt (portfolioVariance_nonneg m _), variance_step, ← hg, ← hq, ← hd] at h2
    nlinarith
  have h1 : HasDerivAt (fun t : ℝ => (2 * g * t + (d * t ^ 2)) - (q * s * 2 * t + (q * s ^ 2) * t ^ 2)) ((2 * g + 0) - (q * s * 2 + 0)) 0 := by
    have hl : ∀ c : ℝ, HasDerivAt (fun t : ℝ => c * t) c 0 := fun c => by simpa using (hasDerivAt_id (0 : ℝ)).const_mul c
    have hs2 : ∀ c : ℝ, HasDerivAt (fun t : ℝ => c * t ^ 2) 0 0 := fun c => by simpa using ((hasDerivAt_id (0 : ℝ)).pow 2).const_mul c
    exact ((hl _).add (hs2 _)).sub ((hl _).add (hs2 _))
  have h0 := hmin.hasDerivAt_eq_zero h1
  rw [← hg, ← hq, ← hxs]
  linear_combination x i * h0 / 2

/-- **C60.** Variance and standard deviation: the contribution `x_i (C x)_i` of every asset to the variance `x' C x` is its share of the risk budget. -/
theorem C60_variance (P : Partition ℝ) (m : RiskBudgeting n T) (hr : m.base.riskMeasure = .variance ∨ m.base.riskMeasure = .standardDeviation) (hs : 0 < m.base.scale) (hso : 0 < m.base.scaleObjective) (hT : 2 ≤ T) (hb : BetasOk m.base)
    (hf : ∀ i, m.base.data.transactionCosts i * m.base.data.previousWeights i = 0) (hlim : NoLimits m.base.weights) (hret : m.minReturn = none) (hbud : ∀ i, 0 < riskBudget m i) (hn : 0 < n) (cs : List (Constraint ℝ n))
    (hcs : getWeightConstraints m.base.weights true false m.base.scale = .ok cs)
    (w : Fin n → ℝ) (k c : ℝ) (a : (riskProgram m.base m.base.riskMeasure w (riskFactor m.base.riskMeasure k)).Aux) (h : BudgetOptimum m cs w k c a) (i : Fin n) :
    returnedWeights w k i * ∑ j, covarianceOf m.base i j * returnedWeights w k j = share (riskBudget m) i * portfolioVariance m.base (returnedWeights w k) := by
  have hfree : ScaleFree m.base := ⟨hf, fun h1 => by rcases hr with h2 | h2 <;> rw [h2] at h1 <;> cases h1⟩
  rcases hr with hr | hr
  · have hR : IsRiskOf P m.base m.base.riskMeasure (portfolioVariance m.base) := by rw [hr]; exact fun w x => Iff.rfl
    obtain ⟨hx, -, -, hsub⟩ := C60_subgradient P m hs hso hT hb _ hR hfree hlim hret hbud hn cs hcs w k c a h
    refine variance_contributions m.base _ _ hbud hx (fun v => ?_) i
    have := hsub v
    rw [hr] at this
    simpa [root, degree] using this
  · have hR : IsRiskOf P m.base m.base.riskMeasure (fun w => Real.sqrt (portfolioVariance m.base w)) := by rw [hr]; exact fun w x => Iff.rfl
    obtain ⟨hx, -, -, hsub⟩ := C60_subgradient P m hs hso hT hb _ hR hfree hlim hret hbud hn cs hcs w k c a h
    refine variance_contributions m.base _ _ hbud hx (fun v => ?_) i
    have := hsub v
    rw [hr] at this
    simpa [root, degree] using this

/-- **C60.** The shares: one over the number of assets by default, else those of the given budgets; a budget of zero counts as `1e-10`. All budgets are then positive. -/
theorem C60_budgets (m : RiskBudgeting n T) : (m.budget = none → ∀ i, share (riskBudget m) i = 1 / n) ∧ (∀ b, m.budget = some b → (∀ i, 0 < b i) → ∀ i, share (riskBudget m) i = b i / ∑ j, b j) ∧
    ((∀ b, m.budget = some b → ∀ i, 0 ≤ b i) → ∀ i, 0 < riskBudget m i) ∧ ∀ b, m.budget = some b → ∀ i, b i = 0 → riskBudget m i = 1 / 10 ^ 10 := by
  refine ⟨fun h i => ?_, fun b h hb i => ?_, fun h i => ?_, fun b h i hi => ?_⟩
  · simp [share, riskBudget, h]
  · have : riskBudget m = b := by
      funext j
      simp [riskBudget, h, (hb j).ne']
    rw [this, share]
  · unfold riskBudget
    split
    · exact one_pos
    · next b hb =>
      split_ifs with h0
      · positivity
      · exact lt_of_le_of_ne (h b hb i) (Ne.symm h0)
  · simp [riskBudget, h, hi]

/-- **C60.** Conversely, every fully invested portfolio with positive weights and contributions in the proportion of the budgets is, scaled, an optimum: the solver may return it. `a` attains the risk of the scaled portfolio. -/
theorem C60_sufficient (P : Partition ℝ) (m : RiskBudgeting n T) (hs : 0 < m.base.scale) (hso : 0 < m.base.scaleObjective) (hT : 2 ≤ T) (hb : BetasOk m.base) (R : (Fin n → ℝ) → ℝ) (hR : IsRiskOf P m.base m.base.riskMeasure R)
    (hf : ScaleFree m.base) (hlim : NoLimits m.base.weights) (hret : m.minReturn = none) (hbud : ∀ i, 0 < riskBudget m i) (hn : 0 < n) (cs : List (Constraint ℝ n))
    (hcs : getWeightConstraints m.base.weights true false m.base.scale = .ok cs) (x : Fin n → ℝ) (hx : ∀ i, 0 < x i) (hsum : ∑ i, x i = 1) (h0 : 0 ≤ R x)
    (hg : ∀ v : Fin n → ℝ, (∀ i, 0 < v i) → root m.base.riskMeasure (R x) * ∑ i, share (riskBudget m) i * (v i / x i) ≤ root m.base.riskMeasure (R v)) :
    ∃ k, 0 < k ∧ returnedWeights (scaled k x) k = x ∧ ∀ a, (riskProgram m.base m.base.riskMeasure (scaled k x) (riskFactor m.base.riskMeasure k)).feasible a →
      (riskProgram m.base m.base.riskMeasure (scaled k x) (riskFactor m.base.riskMeasure k)).risk a ≤ R (scaled k x) → BudgetOptimum m cs (scaled k x) k 0 a := by
  have hne : Nonempty (Fin n) := ⟨⟨0, hn⟩⟩
  have hB : 0 < ∑ i, riskBudget m i := Finset.sum_pos (fun i _ => hbud i) Finset.univ_nonempty
  obtain ⟨k, hke⟩ : ∃ k, k = Real.exp (-((∑ i, riskBudget m i * Real.log (x i)) / ∑ i, riskBudget m i)) := ⟨_, rfl⟩
  have hk : 0 < k := by rw [hke]; exact Real.exp_pos _
  have hlog : ∑ i, riskBudget m i * Real.log (scaled k x i) = 0 := by
    rw [log_scaled _ _ hx k hk, hke, Real.log_exp]
    field_simp
    ring
  have hret' : returnedWeights (scaled k x) k = x := by
    funext i
    simp only [returnedWeights, scaled]
    field_simp
  refine ⟨k, hk, hret', fun a ha hle => ⟨⟨fun i => mul_pos hk (hx i), ?_, le_refl _, ?_, fun y hy => (by rw [hret] at hy; cases hy), ha⟩, ?_⟩⟩
  · rw [hlog, zero_mul]
  · refine (C19_weight_limits m.base.weights true false m.base.scale k hs hk _ cs hcs hlim.2.1).2 (hlim.2.2 _ (fun i => ?_) ?_)
    · exact div_pos (mul_pos hk (hx i)) hk
    · rw [← hsum]
      exact Finset.sum_congr rfl fun i _ => congrFun hret' i
  · intro w' k' c' a' hfe
    refine mul_le_mul_of_nonneg_right (hle.trans ?_) hso.le
    have h1 := (risk_glb P m.base hs hT hb _ R hR w').1
    rw [← program_scaleFree m.base hf w' (riskFactor m.base.riskMeasure k')] at h1
    refine le_trans ?_ (h1 a' hfe.aux)
    have hl : 0 ≤ ∑ i, riskBudget m i * Real.log (w' i) := hfe.nonneg.trans (le_of_mul_le_mul_right hfe.budget hs)
    have hrs := root_scaled P m.base hs hT hb R hR hf k x hk
    have hr0 : 0 ≤ root m.base.riskMeasure (R x) := by
      unfold root
      split_ifs
      · exact Real.sqrt_nonneg _
      · exact h0
    have key := budget_core_converse (fun v => root m.base.riskMeasure (R v)) (riskBudget m) hbud hn (scaled k x) (fun i => mul_pos hk (hx i)) hlog (by rw [hrs]; positivity) (fun v hv => by
      refine le_trans (le_of_eq ?_) (hg v hv)
      rw [hrs]
      have : ∑ i, share (riskBudget m) i * (v i / x i) = k * ∑ i, share (riskBudget m) i * (v i / scaled k x i) := by
        rw [Finset.mul_sum]
        refine Finset.sum_congr rfl fun i _ => ?_
        have hxi := (hx i).ne'
        simp only [scaled]
        field_simp
      rw [this]
      ring) w' hfe.positive hl
    rcases degree_cases m.base.riskMeasure with hd | hd
    · simpa [root, hd] using key
    · have hnn := risk_nonneg P m.base hs hT hb R hR hd w'
      simp only [root, hd, if_true] at key
      exact (Real.sqrt_le_sqrt_iff hnn).1 key

/-! #### A case that meets the hypotheses -/

theorem longOnly_noLimits : NoLimits longOnly := by
  refine ⟨rfl, rfl, fun w hw hs => longOnly_limits w (hw 0).le (hw 1).le ?_⟩
  rw [← hs, Fin.sum_univ_two]

theorem longOnly_ok' : ∃ cs, getWeightConstraints longOnly true false (1 : ℝ) = .ok cs := by
  unfold getWeightConstraints
  simp [longOnly, noLimits, isMip, simpleConstraints, minConstraint, longConstraint, shortConstraint, budgetConstraint, mipPart, bind, Except.bind, pure, Except.pure]

/-- Two uncorrelated assets of variance 1, the first with four times the risk budget of the second. -/
noncomputable def fourToOne : RiskBudgeting 2 2 := ⟨{ twoAssets 0 0 longOnly with riskMeasure := .variance }, some ![4 / 5, 1 / 5], none⟩

theorem fourToOne_budget : riskBudget fourToOne = ![4 / 5, 1 / 5] := by
  funext i
  fin_cases i <;> norm_num [riskBudget, fourToOne]

theorem fourToOne_variance (w : Fin 2 → ℝ) : portfolioVariance fourToOne.base w = w 0 ^ 2 + w 1 ^ 2 := by
  simp [portfolioVariance, covarianceOf, fourToOne, twoAssets, Fin.sum_univ_two]
  ring

/-- The weights 2/3 and 1/3 are an optimum, and every hypothesis of `C60_variance` holds. -/
theorem fourToOne_optimum (P : Partition ℝ) : ∃ (cs : List (Constraint ℝ 2)) (w : Fin 2 → ℝ) (k c : ℝ) (a : (riskProgram fourToOne.base fourToOne.base.riskMeasure w (riskFactor fourToOne.base.riskMeasure k)).Aux),
    getWeightConstraints fourToOne.base.weights true false fourToOne.base.scale = .ok cs ∧ BudgetOptimum fourToOne cs w k c a ∧ returnedWeights w k = ![2 / 3, 1 / 3] ∧ (∀ i, 0 < riskBudget fourToOne i) ∧ ScaleFree fourToOne.base ∧
    NoLimits fourToOne.base.weights ∧ BetasOk fourToOne.base ∧ 0 < portfolioVariance fourToOne.base (returnedWeights w k) := by
  obtain ⟨cs, hcs⟩ := longOnly_ok'
  have hbud : ∀ i, 0 < riskBudget fourToOne i := by
    rw [fourToOne_budget]
    intro i
    fin_cases i <;> norm_num
  have hf : ScaleFree fourToOne.base := ⟨fun i => mul_zero _, fun h => by cases h⟩
  have hbeta : BetasOk fourToOne.base := by
    unfold BetasOk
    norm_num [fourToOne, twoAssets]
  have hR : IsRiskOf P fourToOne.base fourToOne.base.riskMeasure (portfolioVariance fourToOne.base) := fun w x => Iff.rfl
  have hx0 : ∀ i, 0 < (![2 / 3, 1 / 3] : Fin 2 → ℝ) i := by intro i; fin_cases i <;> norm_num
  obtain ⟨k, hk, hret, hopt⟩ := C60_sufficient P fourToOne one_pos one_pos (le_refl 2) hbeta _ hR hf longOnly_noLimits rfl hbud two_pos cs hcs ![2 / 3, 1 / 3] hx0 (by norm_num [Fin.sum_univ_two]) (portfolioVariance_nonneg _ _) (by
    intro v hv
    have hv0 := hv 0
    have hv1 := hv 1
    have hroot : ∀ y, root fourToOne.base.riskMeasure y = Real.sqrt y := fun y => if_pos rfl
    rw [hroot, hroot, fourToOne_variance, fourToOne_variance, fourToOne_budget]
    simp only [share, Fin.sum_univ_two, Matrix.cons_val_zero, Matrix.cons_val_one]
    refine Real.le_sqrt_of_sq_le ?_
    rw [mul_pow, Real.sq_sqrt (by positivity)]
    norm_num
    nlinarith [sq_nonneg (v 0 - 2 * v 1)])
  refine ⟨cs, scaled k ![2 / 3, 1 / 3], k, 0, (Real.sqrt (portfolioVariance fourToOne.base (scaled k ![2 / 3, 1 / 3])) : ℝ), hcs, hopt _ ?_ ?_, hret, hbud, hf, longOnly_noLimits, hbeta, ?_⟩
  · change 0 ≤ Real.sqrt _ ∧ Real.sqrt (∑ j, ((∑ i, fourToOne.base.cholesky i j * scaled k ![2 / 3, 1 / 3] i) * 1) ^ 2) ≤ Real.sqrt _ * 1
    refine ⟨Real.sqrt_nonneg _, ?_⟩
    rw [mul_one]
    refine Real.sqrt_le_sqrt (le_of_eq ?_)
    simp only [mul_one]
    rw [portfolioVariance, ← quadratic_eq fourToOne.base.cholesky (covarianceOf fourToOne.base) fun _ _ => rfl]
  · change Real.sqrt _ ^ 2 ≤ _
    rw [Real.sq_sqrt (portfolioVariance_nonneg _ _)]
  · rw [hret, fourToOne_variance]
    norm_num

/-! #### Previous weights -/

/-- Two assets that lose 10% and 70%, transaction costs of 10%, half of the portfolio in the second asset before; equal risk budgets, worst realization. -/
noncomputable def withPrevious : RiskBudgeting 2 2 :=
  ⟨{ twoAssets 0 0 longOnly with
      riskMeasure := .worstRealization
      data := { returns := fun _ i => if i = 0 then -1 / 10 else -7 / 10, mu := fun _ => 0, previousWeights := fun i => if i = 0 then 0 else 1 / 2, transactionCosts := fun _ => 1 / 10, managementFees := fun _ => 0, riskFreeRate := 0 } },
    none, none⟩

/-- Loss of a portfolio of `withPrevious` after transaction costs. -/
noncomputable def lossWithCosts (w : Fin 2 → ℝ) : ℝ := w 0 / 10 + 7 * w 1 / 10 + (|w 0| / 10 + |w 1 - 1 / 2| / 10)

theorem withPrevious_feasible (w : Fin 2 → ℝ) (v : ℝ) : (riskProgram withPrevious.base .worstRealization w 1).feasible v ↔ lossWithCosts w ≤ v := by
  change (∀ t : Fin 2, -ptfReturns withPrevious.base.data w t * 1 + transactionCost withPrevious.base.data w 1 * 1 + managementFee withPrevious.base.data w * 1 ≤ v * 1) ↔ _
  have e : ∀ t : Fin 2, -ptfReturns withPrevious.base.data w t * 1 + transactionCost withPrevious.base.data w 1 * 1 + managementFee withPrevious.base.data w * 1 = lossWithCosts w := by
    intro t
    simp only [ptfReturns, transactionCost, managementFee, withPrevious, lossWithCosts, Fin.sum_univ_two, if_true, Fin.isValue, one_ne_zero, if_false, abs_mul]
    rw [abs_sub_comm (1 / 2 * 1) (w 1)]
    norm_num
    ring
  exact ⟨fun h => (by have := h 0; rw [e 0, mul_one] at this; exact this), fun h t => (by rw [e t, mul_one]; exact h)⟩

theorem withPrevious_betas : BetasOk withPrevious.base := by
  unfold BetasOk
  norm_num [withPrevious, twoAssets]

/-- `lossWithCosts` is the worst realization of the net returns. -/
theorem withPrevious_risk (P : Partition ℝ) : IsRiskOf P withPrevious.base withPrevious.base.riskMeasure lossWithCosts := by
  intro w x
  have h := program_atMost P withPrevious.base one_pos (le_refl 2) withPrevious_betas .worstRealization w x
  refine ⟨fun hx => ?_, fun hx => h.1 ⟨lossWithCosts w, (withPrevious_feasible w _).2 (le_refl _), hx⟩⟩
  obtain ⟨a, ha, hax⟩ := h.2 (by decide) (by decide) hx
  exact ((withPrevious_feasible w a).1 ha).trans hax

/-- **C60, finding.** With transaction costs and previous weights the risk budget is not met: the previous weights are not scaled with the weights (`factor` is 1 in the risk, L536-540). The budgets of the two assets are equal; the solver's optimum gives the
weights 0.8 and 0.2, whose contributions to the worst realization are 0.16 and 0.12. -/
theorem C60_previous_weights : ∃ (cs : List (Constraint ℝ 2)) (w : Fin 2 → ℝ) (k c : ℝ) (a : (riskProgram withPrevious.base withPrevious.base.riskMeasure w (riskFactor withPrevious.base.riskMeasure k)).Aux),
    getWeightConstraints withPrevious.base.weights true false withPrevious.base.scale = .ok cs ∧ BudgetOptimum withPrevious cs w k c a ∧ returnedWeights w k = ![4 / 5, 1 / 5] ∧ share (riskBudget withPrevious) 0 = share (riskBudget withPrevious) 1 ∧
    (∀ P, IsRiskOf P withPrevious.base withPrevious.base.riskMeasure lossWithCosts) ∧
    ∃ D0 D1 : ℝ, HasDerivAt (fun t : ℝ => lossWithCosts (returnedWeights w k + Pi.single 0 t)) D0 0 ∧ HasDerivAt (fun t : ℝ => lossWithCosts (returnedWeights w k + Pi.single 1 t)) D1 0 ∧
      returnedWeights w k 0 * D0 = 16 / 100 ∧ returnedWeights w k 1 * D1 = 12 / 100 := by
  obtain ⟨cs, hcs⟩ := longOnly_ok'
  have hret : returnedWeights (![2, 1 / 2] : Fin 2 → ℝ) (5 / 2) = ![4 / 5, 1 / 5] := by
    funext i
    fin_cases i <;> norm_num [returnedWeights]
  have hbud : riskBudget withPrevious = fun _ => 1 := rfl
  refine ⟨cs, ![2, 1 / 2], 5 / 2, 0, (3 / 4 : ℝ), hcs, ⟨⟨?_, ?_, le_refl _, ?_, fun y hy => (by cases hy), ?_⟩, ?_⟩, hret, rfl, withPrevious_risk, 2 / 10, 6 / 10, ?_, ?_, ?_, ?_⟩
  · intro i; fin_cases i <;> norm_num
  · rw [hbud, Fin.sum_univ_two]
    have : Real.log (1 / 2) = -Real.log 2 := by rw [one_div, Real.log_inv]
    change (1 * Real.log 2 + 1 * Real.log (1 / 2)) * 1 ≥ 0 * 1
    rw [this]
    linarith
  · refine (C19_weight_limits longOnly true false 1 (5 / 2) one_pos (by norm_num) _ cs hcs rfl).2 (longOnly_limits _ ?_ ?_ ?_) <;> norm_num
  · refine (withPrevious_feasible _ _).2 ?_
    norm_num [lossWithCosts]
  · intro w' k' c' (a' : ℝ) hfe
    have h1 : lossWithCosts w' ≤ a' := (withPrevious_feasible w' a').1 hfe.aux
    have hl : 0 ≤ ∑ i, riskBudget withPrevious i * Real.log (w' i) := hfe.nonneg.trans (le_of_mul_le_mul_right hfe.budget one_pos)
    have p0 := hfe.positive 0
    have p1 := hfe.positive 1
    rw [hbud, Fin.sum_univ_two, one_mul, one_mul, ← Real.log_mul p0.ne' p1.ne'] at hl
    have hprod : 1 ≤ w' 0 * w' 1 := (Real.log_nonneg_iff (mul_pos p0 p1)).1 hl
    change (3 / 4 : ℝ) * 1 ≤ a' * 1
    have h2 : w' 1 - 1 / 2 ≤ |w' 1 - 1 / 2| := le_abs_self _
    have h3 : w' 0 ≤ |w' 0| := le_abs_self _
    unfold lossWithCosts at h1
    have h4 : 4 ≤ w' 0 + 4 * w' 1 := by nlinarith [sq_nonneg (w' 0 - 4 * w' 1)]
    linarith
  · rw [hret]
    have h1 : HasDerivAt (fun t : ℝ => 4 / 5 / 10 + 7 * (1 / 5) / 10 + (4 / 5 / 10 + 3 / 10 / 10) + 2 / 10 * t) (2 / 10) (0 : ℝ) := by
      simpa using ((hasDerivAt_id (0 : ℝ)).const_mul (2 / 10 : ℝ)).const_add (4 / 5 / 10 + 7 * (1 / 5) / 10 + (4 / 5 / 10 + 3 / 10 / 10) : ℝ)
    refine h1.congr_of_eventuallyEq ?_
    filter_upwards [lt_mem_nhds (show (-1 / 2 : ℝ) < 0 by norm_num)] with t ht
    simp only [lossWithCosts, Pi.add_apply, Pi.single_eq_same, Matrix.cons_val_zero, Matrix.cons_val_one, Pi.single_eq_of_ne (show (1 : Fin 2) ≠ 0 by decide)]
    rw [abs_of_pos (show (0 : ℝ) < 4 / 5 + t by linarith), abs_of_neg (show (1 / 5 : ℝ) + 0 - 1 / 2 < 0 by norm_num)]
    ring
  · rw [hret]
    have h1 : HasDerivAt (fun t : ℝ => 4 / 5 / 10 + 7 * (1 / 5) / 10 + (4 / 5 / 10 + 3 / 10 / 10) + 6 / 10 * t) (6 / 10) (0 : ℝ) := by
      simpa using ((hasDerivAt_id (0 : ℝ)).const_mul (6 / 10 : ℝ)).const_add (4 / 5 / 10 + 7 * (1 / 5) / 10 + (4 / 5 / 10 + 3 / 10 / 10) : ℝ)
    refine h1.congr_of_eventuallyEq ?_
    filter_upwards [gt_mem_nhds (show (0 : ℝ) < 1 / 5 by norm_num)] with t ht
    simp only [lossWithCosts, Pi.add_apply, Pi.single_eq_same, Matrix.cons_val_zero, Matrix.cons_val_one, Pi.single_eq_of_ne (show (0 : Fin 2) ≠ 1 by decide)]
    rw [abs_of_pos (show (0 : ℝ) < 4 / 5 + 0 by norm_num), abs_of_neg (show (1 / 5 : ℝ) + t - 1 / 2 < 0 by linarith)]
    ring
  · rw [hret]; norm_num
  · rw [hret]; norm_num

end

end Skfolio.Convex
