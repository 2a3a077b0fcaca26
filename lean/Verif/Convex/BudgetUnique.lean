import Verif.Convex.LeverTheorems
import Verif.Convex.RelabelTheorems
import Verif.Convex.UniqueTheorems

/-! **C111.** The weights a `RiskBudgeting` or `MaximumDiversification` fit returns are determined by the problem, i.e. do not depend on the solver. -/
set_option autoImplicit false

namespace Skfolio.Convex

open Skfolio.Measures

section
variable {n T : Nat}

/-- **C111.** `RiskBudgeting`, for every risk measure: two solvers that both find an optimum return the same weights, if the portfolio of one of them is not free of risk. (No positive definite covariance is needed.) -/
theorem C111_risk_budgeting (P : Partition ℝ) (m : RiskBudgeting n T) (hs : 0 < m.base.scale) (hso : 0 < m.base.scaleObjective) (hT : 2 ≤ T) (hb : BetasOk m.base) (R : (Fin n → ℝ) → ℝ)
    (hR : IsRiskOf P m.base m.base.riskMeasure R) (hf : ScaleFree m.base) (hlim : NoLimits m.base.weights) (hret : m.minReturn = none) (hbud : ∀ i, 0 < riskBudget m i) (hn : 0 < n) (cs : List (Constraint ℝ n))
    (hcs : getWeightConstraints m.base.weights true false m.base.scale = .ok cs) (w w' : Fin n → ℝ) (k k' c c' : ℝ) (a : (riskProgram m.base m.base.riskMeasure w (riskFactor m.base.riskMeasure k)).Aux)
    (a' : (riskProgram m.base m.base.riskMeasure w' (riskFactor m.base.riskMeasure k')).Aux) (ho : BudgetOptimum m cs w k c a) (ho' : BudgetOptimum m cs w' k' c' a') (hpos : 0 < R (returnedWeights w k)) :
    returnedWeights w' k' = returnedWeights w k := by
  obtain ⟨hx, hsum, -, hg⟩ := C60_subgradient P m hs hso hT hb R hR hf hlim hret hbud hn cs hcs w k c a ho
  obtain ⟨hy, hsum', -, hg'⟩ := C60_subgradient P m hs hso hT hb R hR hf hlim hret hbud hn cs hcs w' k' c' a' ho'
  generalize returnedWeights w k = x at *
  generalize returnedWeights w' k' = y at *
  obtain ⟨hbs, hb1⟩ := share_sum (riskBudget m) hbud hn
  generalize share (riskBudget m) = b at *
  have hne : (Finset.univ : Finset (Fin n)).Nonempty := ⟨⟨0, hn⟩, Finset.mem_univ _⟩
  have g1 := hg y
  have g2 := hg' x
  have p1 := root_pos m.base.riskMeasure _ hpos
  generalize root m.base.riskMeasure (R x) = ρ at *
  generalize root m.base.riskMeasure (R y) = ρ' at *
  have hq : ∀ i, 0 < y i / x i := fun i => div_pos (hy i) (hx i)
  have i1 : ∑ i, b i * (x i / y i) = ∑ i, b i * (1 / (y i / x i)) := Finset.sum_congr rfl fun i _ => by rw [one_div_div]
  rw [i1] at g2
  have s1 : 0 < ∑ i, b i * (y i / x i) := Finset.sum_pos (fun i _ => mul_pos (hbs i) (hq i)) hne
  have p2 : 0 < ρ' := (mul_pos p1 s1).trans_le g1
  have prod : (∑ i, b i * (y i / x i)) * ∑ i, b i * (1 / (y i / x i)) ≤ 1 := by
    have s2 : 0 < ∑ i, b i * (1 / (y i / x i)) := Finset.sum_pos (fun i _ => mul_pos (hbs i) (one_div_pos.2 (hq i))) hne
    have := mul_le_mul g1 g2 (mul_pos p2 s2).le p2.le
    have hρ : 0 < ρ * ρ' := mul_pos p1 p2
    refine le_of_mul_le_mul_left ?_ hρ
    linarith
  have const := means_equal b _ hbs hq hb1 prod
  generalize ∑ j, b j * (y j / x j) = A at const
  have form : ∀ i, y i = A * x i := fun i => (div_eq_iff (hx i).ne').1 (const i)
  have hA : A = 1 := by
    have : A * ∑ j, x j = ∑ j, y j := by
      rw [Finset.mul_sum]
      exact Finset.sum_congr rfl fun i _ => (form i).symm
    rwa [hsum, hsum', mul_one] at this
  funext i
  rw [form i, hA, one_mul]

/-- **C111.** Reordering the assets, and their budgets with them, reorders the weights a `RiskBudgeting` fit returns, whatever the solver. -/
theorem C111_risk_budgeting_reordered (P : Partition ℝ) (s : Equiv.Perm (Fin n)) (m m' : RiskBudgeting n T) (hrel : Relabelled s m.base m'.base) (hbb : m'.budget = relabelOpt s m.budget) (hrr : m'.minReturn = m.minReturn) (hs : 0 < m.base.scale) (hso : 0 < m.base.scaleObjective) (hT : 2 ≤ T) (hb : BetasOk m.base)
    (R : (Fin n → ℝ) → ℝ) (hR : IsRiskOf P m.base m.base.riskMeasure R) (hf : ScaleFree m.base) (hlim : NoLimits m.base.weights) (hret : m.minReturn = none) (hbud : ∀ i, 0 < riskBudget m i) (hn : 0 < n)
    (cs cs' : List (Constraint ℝ n)) (hcs : getWeightConstraints m.base.weights true false m.base.scale = .ok cs) (hcs' : getWeightConstraints m'.base.weights true false m'.base.scale = .ok cs') (w w' : Fin n → ℝ) (k k' c c' : ℝ)
    (a : (riskProgram m.base m.base.riskMeasure w (riskFactor m.base.riskMeasure k)).Aux) (a' : (riskProgram m'.base m'.base.riskMeasure w' (riskFactor m'.base.riskMeasure k')).Aux) (ho : BudgetOptimum m cs w k c a)
    (ho' : BudgetOptimum m' cs' w' k' c' a') (hpos : 0 < R (returnedWeights w k)) (i : Fin n) : returnedWeights w' k' i = returnedWeights w k (s i) := by
  have e : w' = relabelWeights s (fun i => w' (s.symm i)) := by
    funext i
    simp [relabelWeights]
  generalize (fun i => w' (s.symm i)) = u at e
  subst e
  obtain ⟨b, ho''⟩ := (C108_risk_budgeting s m m' hrel hbb hrr cs cs' hcs hcs' u k' c').1 ⟨a', ho'⟩
  rw [← C111_risk_budgeting P m hs hso hT hb R hR hf hlim hret hbud hn cs hcs w u k k' c c' a b ho ho'' hpos]
  rfl

/-- **C111.** Assets that the problem does not distinguish, with equal risk budgets, get the same weight. -/
theorem C111_risk_budgeting_equal (P : Partition ℝ) (m : RiskBudgeting n T) (i j : Fin n) (hsym : Relabelled (Equiv.swap i j) m.base m.base) (hbb : m.budget = relabelOpt (Equiv.swap i j) m.budget) (hs : 0 < m.base.scale) (hso : 0 < m.base.scaleObjective) (hT : 2 ≤ T) (hb : BetasOk m.base)
    (R : (Fin n → ℝ) → ℝ) (hR : IsRiskOf P m.base m.base.riskMeasure R) (hf : ScaleFree m.base) (hlim : NoLimits m.base.weights) (hret : m.minReturn = none) (hbud : ∀ i, 0 < riskBudget m i) (hn : 0 < n)
    (cs : List (Constraint ℝ n)) (hcs : getWeightConstraints m.base.weights true false m.base.scale = .ok cs) (w : Fin n → ℝ) (k c : ℝ) (a : (riskProgram m.base m.base.riskMeasure w (riskFactor m.base.riskMeasure k)).Aux)
    (ho : BudgetOptimum m cs w k c a) (hpos : 0 < R (returnedWeights w k)) : returnedWeights w k i = returnedWeights w k j := by
  have := C111_risk_budgeting_reordered P (Equiv.swap i j) m m hsym hbb rfl hs hso hT hb R hR hf hlim hret hbud hn cs cs hcs hcs w w k k c c a a ho ho hpos i
  rwa [Equiv.swap_apply_left] at this

/-- Whatever the solver, it returns 2/3 and 1/3 for two uncorrelated assets of equal variance and risk budgets 4/5 and 1/5. -/
example (P : Partition ℝ) : ∃ cs : List (Constraint ℝ 2), getWeightConstraints fourToOne.base.weights true false fourToOne.base.scale = .ok cs ∧
    ∀ (w : Fin 2 → ℝ) (k c : ℝ) (a : (riskProgram fourToOne.base fourToOne.base.riskMeasure w (riskFactor fourToOne.base.riskMeasure k)).Aux), BudgetOptimum fourToOne cs w k c a → returnedWeights w k = ![2 / 3, 1 / 3] := by
  obtain ⟨cs, w, k, c, a, hcs, ho, hw, hbud, hf, hlim, hb, hpos⟩ := fourToOne_optimum P
  refine ⟨cs, hcs, fun w' k' c' a' ho' => ?_⟩
  rw [← hw]
  exact C111_risk_budgeting P fourToOne one_pos one_pos le_rfl hb _ (fun _ _ => Iff.rfl) hf hlim rfl hbud two_pos cs hcs w w' k k' c c' a a' ho ho' hpos

/-- The two assets in the other order, with the risk budgets 1/5 and 4/5. -/
noncomputable def oneToFour : RiskBudgeting 2 2 := ⟨{ fourToOne.base with data := relabelData (Equiv.swap 0 1) fourToOne.base.data }, some ![1 / 5, 4 / 5], none⟩

theorem oneToFour_relabelled : Relabelled (Equiv.swap 0 1) fourToOne.base oneToFour.base where
  data := rfl
  covariance := fun i j => by fin_cases i <;> fin_cases j <;> simp [covarianceOf, oneToFour, fourToOne, twoAssets]
  weights := rfl
  mar := rfl
  uncertainty := Or.inl ⟨rfl, rfl⟩
  overwrite := rfl
  objective := rfl
  riskMeasure := rfl
  betas := ⟨rfl, rfl, rfl, rfl⟩
  coefficients := ⟨rfl, rfl, rfl⟩
  tracking := ⟨rfl, rfl⟩
  turnover := rfl
  minReturns := rfl
  riskLimits := rfl
  scales := ⟨rfl, rfl⟩

theorem oneToFour_budget : oneToFour.budget = relabelOpt (Equiv.swap 0 1) fourToOne.budget := by
  change some ![1 / 5, 4 / 5] = some fun i => ![4 / 5, 1 / 5] (Equiv.swap 0 1 i)
  congr 1
  funext i
  fin_cases i <;> simp

/-- There is an optimum, and whatever the solver, it returns 1/3 and 2/3. -/
example (P : Partition ℝ) : ∃ cs : List (Constraint ℝ 2), getWeightConstraints oneToFour.base.weights true false oneToFour.base.scale = .ok cs ∧ (∃ w k c a, BudgetOptimum oneToFour cs w k c a) ∧
    ∀ (w : Fin 2 → ℝ) (k c : ℝ) (a : (riskProgram oneToFour.base oneToFour.base.riskMeasure w (riskFactor oneToFour.base.riskMeasure k)).Aux), BudgetOptimum oneToFour cs w k c a → returnedWeights w k = ![1 / 3, 2 / 3] := by
  obtain ⟨cs, w, k, c, a, hcs, ho, hw, hbud, hf, hlim, hb, hpos⟩ := fourToOne_optimum P
  refine ⟨cs, hcs, ?_, fun w' k' c' a' ho' => funext fun i => ?_⟩
  · obtain ⟨b, hb⟩ := (C108_risk_budgeting (Equiv.swap 0 1) fourToOne oneToFour oneToFour_relabelled oneToFour_budget rfl cs cs hcs hcs w k c).2 ⟨a, ho⟩
    exact ⟨_, k, c, b, hb⟩
  · rw [C111_risk_budgeting_reordered P (Equiv.swap 0 1) fourToOne oneToFour oneToFour_relabelled oneToFour_budget rfl one_pos one_pos le_rfl hb _ (fun _ _ => Iff.rfl) hf hlim rfl hbud two_pos cs cs hcs hcs w w' k k' c c' a a' ho ho' hpos i, hw]
    fin_cases i <;> simp

/-- Two uncorrelated assets of variance 1 and equal returns, with equal risk budgets (the default). -/
noncomputable def evenAssets : RiskBudgeting 2 2 := ⟨{ fourToOne.base with data := { fourToOne.base.data with returns := fun t _ => if t = 0 then 3 / 100 else 4 / 100, mu := fun _ => 7 / 200 } }, none, none⟩

theorem evenAssets_budget (i : Fin 2) : 0 < riskBudget evenAssets i ∧ riskBudget evenAssets i = riskBudget evenAssets 0 := by
  fin_cases i <;> norm_num [riskBudget, evenAssets]

theorem evenAssets_variance (w : Fin 2 → ℝ) : portfolioVariance evenAssets.base w = w 0 ^ 2 + w 1 ^ 2 := fourToOne_variance w

theorem evenAssets_relabelled : Relabelled (Equiv.swap 0 1) evenAssets.base evenAssets.base where
  data := rfl
  covariance := oneToFour_relabelled.covariance
  weights := rfl
  mar := rfl
  uncertainty := Or.inl ⟨rfl, rfl⟩
  overwrite := rfl
  objective := rfl
  riskMeasure := rfl
  betas := ⟨rfl, rfl, rfl, rfl⟩
  coefficients := ⟨rfl, rfl, rfl⟩
  tracking := ⟨rfl, rfl⟩
  turnover := rfl
  minReturns := rfl
  riskLimits := rfl
  scales := ⟨rfl, rfl⟩

/-- There is an optimum, and whatever the solver, both assets get the same weight. -/
example (P : Partition ℝ) : ∃ cs : List (Constraint ℝ 2), getWeightConstraints evenAssets.base.weights true false evenAssets.base.scale = .ok cs ∧ (∃ w k c a, BudgetOptimum evenAssets cs w k c a) ∧
    ∀ (w : Fin 2 → ℝ) (k c : ℝ) (a : (riskProgram evenAssets.base evenAssets.base.riskMeasure w (riskFactor evenAssets.base.riskMeasure k)).Aux), BudgetOptimum evenAssets cs w k c a → returnedWeights w k 0 = returnedWeights w k 1 := by
  obtain ⟨cs, hcs⟩ := longOnly_ok'
  have hbud : ∀ i, 0 < riskBudget evenAssets i := fun i => (evenAssets_budget i).1
  have hf : ScaleFree evenAssets.base := ⟨fun i => mul_zero _, fun h => by cases h⟩
  have hbeta : BetasOk evenAssets.base := by
    unfold BetasOk
    norm_num [evenAssets, fourToOne, twoAssets]
  have hR : IsRiskOf P evenAssets.base evenAssets.base.riskMeasure (portfolioVariance evenAssets.base) := fun w x => Iff.rfl
  refine ⟨cs, hcs, ?_, fun w k c a ho => ?_⟩
  · have hx0 : ∀ i, 0 < (![1 / 2, 1 / 2] : Fin 2 → ℝ) i := by intro i; fin_cases i <;> norm_num
    obtain ⟨k, hk, hret, hopt⟩ := C60_sufficient P evenAssets one_pos one_pos (le_refl 2) hbeta _ hR hf longOnly_noLimits rfl hbud two_pos cs hcs ![1 / 2, 1 / 2] hx0 (by norm_num [Fin.sum_univ_two]) (portfolioVariance_nonneg _ _) (by
      intro v hv
      have hv0 := hv 0
      have hv1 := hv 1
      have hroot : ∀ y, root evenAssets.base.riskMeasure y = Real.sqrt y := fun y => if_pos rfl
      have hsh : ∀ i, share (riskBudget evenAssets) i = 1 / 2 := fun i => by
        have h0 := hbud 0
        rw [share, Fin.sum_univ_two, (evenAssets_budget i).2, (evenAssets_budget 1).2, div_eq_div_iff (by positivity) two_ne_zero]
        ring
      rw [hroot, hroot, evenAssets_variance, evenAssets_variance]
      simp only [hsh, Fin.sum_univ_two, Matrix.cons_val_zero, Matrix.cons_val_one]
      refine Real.le_sqrt_of_sq_le ?_
      rw [mul_pow, Real.sq_sqrt (by positivity)]
      norm_num
      nlinarith [sq_nonneg (v 0 - v 1)])
    refine ⟨scaled k ![1 / 2, 1 / 2], k, 0, (Real.sqrt (portfolioVariance evenAssets.base (scaled k ![1 / 2, 1 / 2])) : ℝ), hopt _ ?_ ?_⟩
    · change 0 ≤ Real.sqrt _ ∧ Real.sqrt (∑ j, ((∑ i, evenAssets.base.cholesky i j * scaled k ![1 / 2, 1 / 2] i) * 1) ^ 2) ≤ Real.sqrt _ * 1
      refine ⟨Real.sqrt_nonneg _, ?_⟩
      rw [mul_one]
      refine Real.sqrt_le_sqrt (le_of_eq ?_)
      simp only [mul_one]
      rw [portfolioVariance, ← quadratic_eq evenAssets.base.cholesky (covarianceOf evenAssets.base) fun _ _ => rfl]
    · change Real.sqrt _ ^ 2 ≤ _
      rw [Real.sq_sqrt (portfolioVariance_nonneg _ _)]
  · obtain ⟨hx, -⟩ := C60_subgradient P evenAssets one_pos one_pos (le_refl 2) hbeta _ hR hf longOnly_noLimits rfl hbud two_pos cs hcs w k c a ho
    refine C111_risk_budgeting_equal P evenAssets 0 1 evenAssets_relabelled rfl one_pos one_pos (le_refl 2) hbeta _ hR hf longOnly_noLimits rfl hbud two_pos cs hcs w k c a ho ?_
    rw [evenAssets_variance]
    have := hx 0
    positivity

/-! ### Maximum diversification -/

/-- **C111.** `MaximumDiversification`: two solvers that both find an optimum return the same weights, if the covariance is positive definite and a budget other than 0 is set (the default is 1), without penalties and tracking error limit. -/
theorem C111_maximum_diversification (cov : Fin n → Fin n → ℝ) (m : MeanRisk n T) (hs : 0 < m.scale) (hso : 0 < m.scaleObjective) (hT : 2 ≤ T) (cs : List (Constraint ℝ n))
    (hcs : getWeightConstraints (maximumDiversification cov m).weights true true m.scale = .ok cs) (hmip : isMip (maximumDiversification cov m).weights = false) (hte : m.maxTrackingError = none) (hl1 : m.l1Coef = 0) (hl2 : m.l2Coef = 0)
    (hcov : ∀ i j, ∑ l, m.cholesky i l * m.cholesky j l = cov i j) (hpd : ∀ v : Fin n → ℝ, v ≠ 0 → 0 < ∑ i, ∑ j, v i * cov i j * v j) (b : ℝ) (hb : m.weights.budget = some b) (hb0 : b ≠ 0) (w w' : Fin n → ℝ) (k k' : ℝ)
    (hk : 0 < k) (hk' : 0 < k') (a : (riskProgram (maximumDiversification cov m) .standardDeviation w k).Aux) (a' : (riskProgram (maximumDiversification cov m) .standardDeviation w' k').Aux)
    (h : IsOptimum (maximumDiversification cov m) cs w k a) (h' : IsOptimum (maximumDiversification cov m) cs w' k' a') : returnedWeights w k = returnedWeights w' k' := by
  refine C111_maximum_sharpe (maximumDiversification cov m) hs hso hT rfl hmip cs hcs (fun _ _ q => by cases q) hte rfl rfl hl1 hl2 rfl (fun v hv => ?_) b hb hb0 w w' k k' hk hk' a a' h h'
  have := hpd v hv
  simpa only [covarianceOf, maximumDiversification, hcov] using this

/-- Whatever the solver, 2/3 and 1/3 of two uncorrelated assets of volatilities 1 and 2 are returned. -/
example : ∃ cs : List (Constraint ℝ 2), getWeightConstraints (maximumDiversification oneTwo (oneTwoProblem 0 [])).weights true true 1 = .ok cs ∧
    ∀ (w : Fin 2 → ℝ) (k : ℝ) (a : (riskProgram (maximumDiversification oneTwo (oneTwoProblem 0 [])) .standardDeviation w k).Aux), 0 < k → IsOptimum (maximumDiversification oneTwo (oneTwoProblem 0 [])) cs w k a → returnedWeights w k = ![2 / 3, 1 / 3] := by
  obtain ⟨cs, w, k, a, hcs, hk, ho, hw, -, hcov⟩ := oneTwo_best
  refine ⟨cs, hcs, fun w' k' a' hk' ho' => ?_⟩
  rw [← hw]
  refine C111_maximum_diversification oneTwo (oneTwoProblem 0 []) one_pos one_pos le_rfl cs hcs rfl rfl rfl rfl hcov (fun v hv => ?_) 1 rfl one_ne_zero w' w k' k hk' hk a' a ho' ho
  have e : ∑ i, ∑ j, v i * oneTwo i j * v j = v 0 ^ 2 + 4 * v 1 ^ 2 := by
    simp [oneTwo, Fin.sum_univ_two]
    ring
  rw [e]
  by_contra hle
  have h0 : v 0 = 0 := by nlinarith [sq_nonneg (v 0), sq_nonneg (v 1)]
  have h1 : v 1 = 0 := by nlinarith [sq_nonneg (v 0), sq_nonneg (v 1)]
  exact hv (funext fun i => by fin_cases i <;> assumption)

end

end Skfolio.Convex
