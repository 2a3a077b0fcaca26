import Verif.Convex.LeverTheorems
import Verif.Convex.BudgetProportions

/-!
**C151.** More risk budget, more weight: how the weights of `RiskBudgeting` move when the risk budgets are changed.
-/
set_option autoImplicit false

namespace Skfolio.Convex

open Skfolio.Measures

section
variable {n T : Nat}

/-! ### Specification -/

/-- The budget `t` is moved from asset `j` to asset `i`. -/
structure Moved (i j : Fin n) (t : ℝ) (b b' : Fin n → ℝ) : Prop where
  distinct : i ≠ j
  receiver : b' i = b i + t
  source : b' j = b j - t
  others : ∀ l, l ≠ i → l ≠ j → b' l = b l

/-- The budget of asset `i` is raised by `t`. -/
structure Raised (i : Fin n) (t : ℝ) (b b' : Fin n → ℝ) : Prop where
  receiver : b' i = b i + t
  others : ∀ l, l ≠ i → b' l = b l

/-! ### Means -/

/-- The logarithm of a weighted mean is at least the mean of the logarithms, and more unless all numbers are equal. -/
theorem log_mean (s r : Fin n → ℝ) (hs : ∀ i, 0 < s i) (hr : ∀ i, 0 < r i) (hsum : ∑ i, s i = 1) (hn : 0 < n) :
    ∑ i, s i * Real.log (r i) ≤ Real.log (∑ i, s i * r i) ∧ (∑ i, s i * Real.log (r i) = Real.log (∑ i, s i * r i) → ∀ i, r i = ∑ j, s j * r j) := by
  have hne : (Finset.univ : Finset (Fin n)).Nonempty := ⟨⟨0, hn⟩, Finset.mem_univ _⟩
  obtain ⟨A, hA⟩ : ∃ A, A = ∑ j, s j * r j := ⟨_, rfl⟩
  rw [← hA]
  have hA0 : 0 < A := by rw [hA]; exact Finset.sum_pos (fun j _ => mul_pos (hs j) (hr j)) hne
  have each : ∀ i, 0 ≤ s i * (r i / A - 1 - Real.log (r i / A)) := fun i => mul_nonneg (hs i).le (sub_nonneg.2 (Real.log_le_sub_one_of_pos (div_pos (hr i) hA0)))
  have total : ∑ i, s i * (r i / A - 1 - Real.log (r i / A)) = Real.log A - ∑ i, s i * Real.log (r i) := by
    have e : ∀ i, s i * (r i / A - 1 - Real.log (r i / A)) = s i * r i / A - s i - (s i * Real.log (r i) - s i * Real.log A) := fun i => by
      rw [Real.log_div (hr i).ne' hA0.ne']
      ring
    rw [Finset.sum_congr rfl fun i _ => e i, Finset.sum_sub_distrib, Finset.sum_sub_distrib, Finset.sum_sub_distrib, ← Finset.sum_div, ← hA, ← Finset.sum_mul, hsum, div_self hA0.ne']
    ring
  refine ⟨by linarith [Finset.sum_nonneg fun i (_ : i ∈ Finset.univ) => each i], fun h i => ?_⟩
  rw [h, sub_self] at total
  have zero := (Finset.sum_eq_zero_iff_of_nonneg fun i _ => each i).1 total i (Finset.mem_univ i)
  rcases mul_eq_zero.1 zero with z | z
  · exact absurd z (hs i).ne'
  · by_contra hne'
    have : r i / A ≠ 1 := fun q => hne' (by rwa [div_eq_one_iff_eq hA0.ne'] at q)
    linarith [Real.log_lt_sub_one_of_pos (div_pos (hr i) hA0) this]

/-! ### The weights -/

section
variable (P : Partition ℝ) (m : RiskBudgeting n T) (hs : 0 < m.base.scale) (hso : 0 < m.base.scaleObjective) (hT : 2 ≤ T) (hb : BetasOk m.base) (R : (Fin n → ℝ) → ℝ) (hR : IsRiskOf P m.base m.base.riskMeasure R)
  (hf : ScaleFree m.base) (hlim : NoLimits m.base.weights) (hret : m.minReturn = none) (hn : 0 < n) (cs : List (Constraint ℝ n)) (hcs : getWeightConstraints m.base.weights true false m.base.scale = .ok cs)
  (b b' : Fin n → ℝ) (hb0 : ∀ i, 0 < b i) (hb0' : ∀ i, 0 < b' i) (w w' : Fin n → ℝ) (k k' c c' : ℝ) (a : (riskProgram m.base m.base.riskMeasure w (riskFactor m.base.riskMeasure k)).Aux)
  (a' : (riskProgram m.base m.base.riskMeasure w' (riskFactor m.base.riskMeasure k')).Aux) (ho : BudgetOptimum (withBudget m (some b)) cs w k c a) (ho' : BudgetOptimum (withBudget m (some b')) cs w' k' c' a')
  (hpos : 0 < R (returnedWeights w k))

theorem riskBudget_given (m : RiskBudgeting n T) (b : Fin n → ℝ) (hb0 : ∀ i, 0 < b i) : riskBudget (withBudget m (some b)) = b := funext fun i => if_neg (hb0 i).ne'

include hs hso hT hb hR hf hlim hret hn hcs hb0 hb0' ho ho' hpos

theorem budgets_core : (∀ i, 0 < returnedWeights w k i) ∧ (∀ i, 0 < returnedWeights w' k' i) ∧
    0 ≤ ∑ i, (share b' i - share b i) * Real.log (returnedWeights w' k' i / returnedWeights w k i) ∧
    (∑ i, (share b' i - share b i) * Real.log (returnedWeights w' k' i / returnedWeights w k i) = 0 → returnedWeights w' k' = returnedWeights w k) := by
  have e := riskBudget_given m b hb0
  have e' := riskBudget_given m b' hb0'
  obtain ⟨hx, hsum, -, hg⟩ := C60_subgradient P (withBudget m (some b)) hs hso hT hb R hR hf hlim hret (by rw [e]; exact hb0) hn cs hcs w k c a ho
  obtain ⟨hy, hsum', -, hg'⟩ := C60_subgradient P (withBudget m (some b')) hs hso hT hb R hR hf hlim hret (by rw [e']; exact hb0') hn cs hcs w' k' c' a' ho'
  rw [e] at hg
  rw [e'] at hg'
  refine ⟨hx, hy, ?_⟩
  generalize returnedWeights w k = x at *
  generalize returnedWeights w' k' = y at *
  obtain ⟨hbs, hb1⟩ := share_sum b hb0 hn
  obtain ⟨hbs', hb1'⟩ := share_sum b' hb0' hn
  generalize share b = s at *
  generalize share b' = s' at *
  have hne : (Finset.univ : Finset (Fin n)).Nonempty := ⟨⟨0, hn⟩, Finset.mem_univ _⟩
  have g1 := hg y
  have g2 := hg' x
  have p1 : 0 < root (withBudget m (some b)).base.riskMeasure (R x) := root_pos _ _ hpos
  change root m.base.riskMeasure (R x) * _ ≤ root m.base.riskMeasure (R y) at g1
  change root m.base.riskMeasure (R y) * _ ≤ root m.base.riskMeasure (R x) at g2
  change 0 < root m.base.riskMeasure (R x) at p1
  generalize root m.base.riskMeasure (R x) = ρ at *
  generalize root m.base.riskMeasure (R y) = ρ' at *
  have hq : ∀ i, 0 < y i / x i := fun i => div_pos (hy i) (hx i)
  have hq' : ∀ i, 0 < x i / y i := fun i => div_pos (hx i) (hy i)
  have s1 : 0 < ∑ i, s i * (y i / x i) := Finset.sum_pos (fun i _ => mul_pos (hbs i) (hq i)) hne
  have s2 : 0 < ∑ i, s' i * (x i / y i) := Finset.sum_pos (fun i _ => mul_pos (hbs' i) (hq' i)) hne
  have p2 : 0 < ρ' := (mul_pos p1 s1).trans_le g1
  obtain ⟨l1, q1⟩ := log_mean s _ hbs hq hb1 hn
  obtain ⟨l2, -⟩ := log_mean s' _ hbs' hq' hb1' hn
  have t1 := Real.log_le_log (mul_pos p1 s1) g1
  have t2 := Real.log_le_log (mul_pos p2 s2) g2
  rw [Real.log_mul p1.ne' s1.ne'] at t1
  rw [Real.log_mul p2.ne' s2.ne'] at t2
  have inv : ∑ i, s' i * Real.log (x i / y i) = -∑ i, s' i * Real.log (y i / x i) := by
    rw [← Finset.sum_neg_distrib]
    exact Finset.sum_congr rfl fun i _ => by rw [← inv_div, Real.log_inv, mul_neg]
  have split : ∑ i, (s' i - s i) * Real.log (y i / x i) = ∑ i, s' i * Real.log (y i / x i) - ∑ i, s i * Real.log (y i / x i) := by
    rw [← Finset.sum_sub_distrib]
    exact Finset.sum_congr rfl fun i _ => sub_mul _ _ _
  refine ⟨by linarith, fun h => ?_⟩
  have const := q1 (by linarith)
  generalize ∑ j, s j * (y j / x j) = A at const
  have form : ∀ i, y i = A * x i := fun i => (div_eq_iff (hx i).ne').1 (const i)
  have hA : A = 1 := by
    have : A * ∑ j, x j = ∑ j, y j := by
      rw [Finset.mul_sum]
      exact Finset.sum_congr rfl fun i _ => (form i).symm
    rwa [hsum, hsum', mul_one] at this
  funext i
  rw [form i, hA, one_mul]

/-- **C151.** For every risk measure and every change of the budgets: the weights move with the budgets, in that the changes of the shares and of the logarithms of the weights are not negatively correlated. -/
theorem C151_monotone : 0 ≤ ∑ i, (share b' i - share b i) * (Real.log (returnedWeights w' k' i) - Real.log (returnedWeights w k i)) := by
  obtain ⟨hx, hy, h, -⟩ := budgets_core P m hs hso hT hb R hR hf hlim hret hn cs hcs b b' hb0 hb0' w w' k k' c c' a a' ho ho' hpos
  rw [Finset.sum_congr rfl fun i _ => by rw [← Real.log_div (hy i).ne' (hx i).ne']]
  exact h

omit hs hso hT hb hR hf hlim hret hn hcs hb0 hb0' ho ho' hpos in
theorem moved_sum (i j : Fin n) (t : ℝ) (h : Moved i j t b b') : (∑ l, b' l = ∑ l, b l) ∧ ∀ f : Fin n → ℝ, ∑ l, (share b' l - share b l) * f l = t / (∑ l, b l) * (f i - f j) := by
  have e : ∀ l, b' l - b l = (if l = i then t else 0) - if l = j then t else 0 := fun l => by
    by_cases h1 : l = i
    · subst h1
      rw [if_pos rfl, if_neg h.distinct, h.receiver]
      ring
    · by_cases h2 : l = j
      · subst h2
        rw [if_neg h1, if_pos rfl, h.source]
        ring
      · rw [if_neg h1, if_neg h2, h.others l h1 h2]
        ring
  have hsum : ∑ l, b' l = ∑ l, b l := by
    rw [← sub_eq_zero, ← Finset.sum_sub_distrib, Finset.sum_congr rfl fun l _ => e l, Finset.sum_sub_distrib, Finset.sum_ite_eq', Finset.sum_ite_eq', if_pos (Finset.mem_univ _), if_pos (Finset.mem_univ _), sub_self]
  refine ⟨hsum, fun f => ?_⟩
  have e2 : ∀ l, (share b' l - share b l) * f l = ((if l = i then t / (∑ l, b l) * f l else 0) - if l = j then t / (∑ l, b l) * f l else 0) := fun l => by
    rw [share, share, hsum, ← sub_div, e]
    split_ifs <;> ring
  rw [Finset.sum_congr rfl fun l _ => e2 l, Finset.sum_sub_distrib, Finset.sum_ite_eq', Finset.sum_ite_eq', if_pos (Finset.mem_univ _), if_pos (Finset.mem_univ _)]
  ring

/-- **C151.** For every risk measure: if budget is moved from asset `j` to asset `i`, the weight of `i` relative to that of `j` does not fall. -/
theorem C151_moved (i j : Fin n) (t : ℝ) (ht : 0 < t) (hmove : Moved i j t b b') : returnedWeights w k i / returnedWeights w k j ≤ returnedWeights w' k' i / returnedWeights w' k' j := by
  obtain ⟨hx, hy, h, -⟩ := budgets_core P m hs hso hT hb R hR hf hlim hret hn cs hcs b b' hb0 hb0' w w' k k' c c' a a' ho ho' hpos
  rw [(moved_sum b b' i j t hmove).2] at h
  have hB : 0 < ∑ l, b l := Finset.sum_pos (fun l _ => hb0 l) ⟨i, Finset.mem_univ _⟩
  have h1 := sub_nonneg.1 (nonneg_of_mul_nonneg_right h (div_pos ht hB))
  have h2 := (Real.log_le_log_iff (div_pos (hy j) (hx j)) (div_pos (hy i) (hx i))).1 h1
  rw [div_le_div_iff₀ (hx j) (hx i)] at h2
  rw [div_le_div_iff₀ (hx j) (hy j)]
  linarith

/-- **C151.** With the variance or the standard deviation it rises. -/
theorem C151_moved_strict (hr : m.base.riskMeasure = .variance ∨ m.base.riskMeasure = .standardDeviation) (hv : 0 < portfolioVariance m.base (returnedWeights w k)) (i j : Fin n) (t : ℝ) (ht : 0 < t) (hmove : Moved i j t b b') :
    returnedWeights w k i / returnedWeights w k j < returnedWeights w' k' i / returnedWeights w' k' j := by
  refine lt_of_le_of_ne (C151_moved P m hs hso hT hb R hR hf hlim hret hn cs hcs b b' hb0 hb0' w w' k k' c c' a a' ho ho' hpos i j t ht hmove) fun heq => ?_
  obtain ⟨hx, hy, -, h⟩ := budgets_core P m hs hso hT hb R hR hf hlim hret hn cs hcs b b' hb0 hb0' w w' k k' c c' a a' ho ho' hpos
  obtain ⟨hsum, hdiff⟩ := moved_sum b b' i j t hmove
  have hB : 0 < ∑ l, b l := Finset.sum_pos (fun l _ => hb0 l) ⟨i, Finset.mem_univ _⟩
  have same : returnedWeights w' k' = returnedWeights w k := h (by
    rw [hdiff]
    have : returnedWeights w' k' i / returnedWeights w k i = returnedWeights w' k' j / returnedWeights w k j := by
      rw [div_eq_div_iff (hx j).ne' (hy j).ne'] at heq
      rw [div_eq_div_iff (hx i).ne' (hx j).ne']
      linarith
    rw [this, sub_self, mul_zero])
  have e := riskBudget_given m b hb0
  have e' := riskBudget_given m b' hb0'
  have v := C60_variance P (withBudget m (some b)) hr hs hso hT hb hf.1 hlim hret (by rw [e]; exact hb0) hn cs hcs w k c a ho i
  have v' := C60_variance P (withBudget m (some b')) hr hs hso hT hb hf.1 hlim hret (by rw [e']; exact hb0') hn cs hcs w' k' c' a' ho' i
  rw [e] at v
  rw [e', same] at v'
  have hs' := mul_right_cancel₀ hv.ne' (v.symm.trans v')
  rw [share, share, hsum, hmove.receiver, div_left_inj' hB.ne'] at hs'
  linarith

/-- **C151.** For every risk measure: if the budget of an asset is raised, its weight grows by at least the average factor (the geometric mean, weighted by the old budgets). -/
theorem C151_raised (i : Fin n) (t : ℝ) (ht : 0 < t) (hup : Raised i t b b') :
    ∑ l, share b l * Real.log (returnedWeights w' k' l / returnedWeights w k l) ≤ Real.log (returnedWeights w' k' i / returnedWeights w k i) := by
  obtain ⟨-, -, h, -⟩ := budgets_core P m hs hso hT hb R hR hf hlim hret hn cs hcs b b' hb0 hb0' w w' k k' c c' a a' ho ho' hpos
  have hB : 0 < ∑ l, b l := Finset.sum_pos (fun l _ => hb0 l) ⟨i, Finset.mem_univ _⟩
  have e : ∀ l, b' l = b l + if l = i then t else 0 := fun l => by
    by_cases h1 : l = i
    · subst h1
      rw [if_pos rfl, hup.receiver]
    · rw [if_neg h1, hup.others l h1, add_zero]
  have hsum : ∑ l, b' l = (∑ l, b l) + t := by rw [Finset.sum_congr rfl fun l _ => e l, Finset.sum_add_distrib, Finset.sum_ite_eq', if_pos (Finset.mem_univ _)]
  obtain ⟨B, hBe⟩ : ∃ B, B = ∑ l, b l := ⟨_, rfl⟩
  have hBt : 0 < B + t := by rw [hBe]; linarith
  rw [← hBe] at hB hsum
  have e2 : ∀ l, (share b' l - share b l) * Real.log (returnedWeights w' k' l / returnedWeights w k l) = t / (B + t) * ((if l = i then Real.log (returnedWeights w' k' l / returnedWeights w k l) else 0) - share b l * Real.log (returnedWeights w' k' l / returnedWeights w k l)) := fun l => by
    rw [share, share, hsum, ← hBe, e]
    split_ifs <;> field_simp <;> ring
  rw [Finset.sum_congr rfl fun l _ => e2 l, ← Finset.mul_sum, Finset.sum_sub_distrib, Finset.sum_ite_eq', if_pos (Finset.mem_univ _)] at h
  exact sub_nonneg.1 (nonneg_of_mul_nonneg_right h (div_pos ht hBt))

end

/-! ### A concrete case -/

/-- Equal budgets for the two uncorrelated assets of variance 1: weights 1/2 and 1/2. -/
theorem halves_optimum (P : Partition ℝ) (l : ℝ) (hl : 0 < l) (cs : List (Constraint ℝ 2)) (hcs : getWeightConstraints longOnly true false (1 : ℝ) = .ok cs) :
    ∃ (w : Fin 2 → ℝ) (k c : ℝ) (a : (riskProgram fourToOne.base fourToOne.base.riskMeasure w (riskFactor fourToOne.base.riskMeasure k)).Aux),
      BudgetOptimum (withBudget fourToOne (some ![l, l])) cs w k c a ∧ returnedWeights w k = ![1 / 2, 1 / 2] := by
  have hpos : ∀ i, 0 < (![1 / 2, 1 / 2] : Fin 2 → ℝ) i := by intro i; fin_cases i <;> norm_num
  have hbud : ∀ i, 0 < (![l, l] : Fin 2 → ℝ) i := by intro i; fin_cases i <;> exact hl
  have e := riskBudget_given fourToOne _ hbud
  have hsh : ∀ i, share ![l, l] i = 1 / 2 := fun i => by
    rw [share, Fin.sum_univ_two]
    fin_cases i <;> simp <;> field_simp <;> norm_num
  have hf : ScaleFree fourToOne.base := ⟨fun i => mul_zero _, fun h => by cases h⟩
  have hbeta : BetasOk fourToOne.base := by
    unfold BetasOk
    norm_num [fourToOne, twoAssets]
  have hR : IsRiskOf P fourToOne.base fourToOne.base.riskMeasure (portfolioVariance fourToOne.base) := fun w x => Iff.rfl
  obtain ⟨k, hk, hret, hopt⟩ := C60_sufficient P (withBudget fourToOne (some ![l, l])) one_pos one_pos (le_refl 2) hbeta _ hR hf longOnly_noLimits rfl (by rw [e]; exact hbud) two_pos cs hcs ![1 / 2, 1 / 2] hpos
    (by norm_num [Fin.sum_univ_two]) (portfolioVariance_nonneg _ _) (by
      intro v hv
      have hv0 := hv 0
      have hv1 := hv 1
      have hroot : ∀ y, root (withBudget fourToOne (some ![l, l])).base.riskMeasure y = Real.sqrt y := fun y => if_pos rfl
      rw [hroot, hroot, fourToOne_variance, fourToOne_variance, e]
      simp only [hsh, Fin.sum_univ_two, Matrix.cons_val_zero, Matrix.cons_val_one]
      refine Real.le_sqrt_of_sq_le ?_
      rw [mul_pow, Real.sq_sqrt (by positivity)]
      norm_num
      nlinarith [sq_nonneg (v 0 - v 1)])
  refine ⟨scaled k ![1 / 2, 1 / 2], k, 0, (Real.sqrt (portfolioVariance fourToOne.base (scaled k ![1 / 2, 1 / 2])) : ℝ), hopt _ ?_ ?_, hret⟩
  · change 0 ≤ Real.sqrt _ ∧ Real.sqrt (∑ j, ((∑ i, fourToOne.base.cholesky i j * scaled k ![1 / 2, 1 / 2] i) * 1) ^ 2) ≤ Real.sqrt _ * 1
    refine ⟨Real.sqrt_nonneg _, ?_⟩
    rw [mul_one]
    refine Real.sqrt_le_sqrt (le_of_eq ?_)
    simp only [mul_one]
    rw [portfolioVariance, ← quadratic_eq fourToOne.base.cholesky (covarianceOf fourToOne.base) fun _ _ => rfl]
  · change Real.sqrt _ ^ 2 ≤ _
    rw [Real.sq_sqrt (portfolioVariance_nonneg _ _)]

/-- Moving 3/10 of the budget to the first asset takes the weights from 1/2 and 1/2 to 2/3 and 1/3, whatever the solver. -/
example (P : Partition ℝ) : ∃ cs, getWeightConstraints longOnly true false (1 : ℝ) = .ok cs ∧ ∃ (w : Fin 2 → ℝ) (k c : ℝ) (a : (riskProgram fourToOne.base fourToOne.base.riskMeasure w (riskFactor fourToOne.base.riskMeasure k)).Aux),
    BudgetOptimum (withBudget fourToOne (some ![4 / 5, 1 / 5])) cs w k c a ∧ 1 < returnedWeights w k 0 / returnedWeights w k 1 := by
  obtain ⟨cs, w', k', c', a', hcs, ho', hw', hbud, hf, hlim, hb, hpos'⟩ := fourToOne_optimum P
  obtain ⟨w, k, c, a, ho, hw⟩ := halves_optimum P (1 / 2) (by norm_num) cs hcs
  refine ⟨cs, hcs, w', k', c', a', ho', ?_⟩
  have hpos : 0 < portfolioVariance fourToOne.base (returnedWeights w k) := by
    rw [hw, fourToOne_variance]
    norm_num
  have := C151_moved_strict P fourToOne one_pos one_pos le_rfl hb _ (fun _ _ => Iff.rfl) hf hlim rfl two_pos cs hcs ![1 / 2, 1 / 2] ![4 / 5, 1 / 5] (by intro i; fin_cases i <;> norm_num) (by intro i; fin_cases i <;> norm_num) w w' k k' c c' a a' ho ho' hpos
    (Or.inl rfl) hpos 0 1 (3 / 10) (by norm_num) ⟨by decide, by norm_num, by norm_num, fun l h0 h1 => by fin_cases l <;> simp at h0 h1⟩
  rw [hw] at this
  norm_num at this
  exact this

/-- Raising the budget of the first asset from 1/5 to 4/5, that of the second being 1/5: the weight of the first grows. -/
example (P : Partition ℝ) : ∃ cs, getWeightConstraints longOnly true false (1 : ℝ) = .ok cs ∧ ∃ (w : Fin 2 → ℝ) (k c : ℝ) (a : (riskProgram fourToOne.base fourToOne.base.riskMeasure w (riskFactor fourToOne.base.riskMeasure k)).Aux),
    BudgetOptimum (withBudget fourToOne (some ![4 / 5, 1 / 5])) cs w k c a ∧ ∑ l, share ![1 / 5, 1 / 5] l * Real.log (returnedWeights w k l / ![1 / 2, 1 / 2] l) ≤ Real.log (returnedWeights w k 0 / (1 / 2)) := by
  obtain ⟨cs, w', k', c', a', hcs, ho', hw', hbud, hf, hlim, hb, hpos'⟩ := fourToOne_optimum P
  obtain ⟨w, k, c, a, ho, hw⟩ := halves_optimum P (1 / 5) (by norm_num) cs hcs
  refine ⟨cs, hcs, w', k', c', a', ho', ?_⟩
  have hpos : 0 < portfolioVariance fourToOne.base (returnedWeights w k) := by
    rw [hw, fourToOne_variance]
    norm_num
  have := C151_raised P fourToOne one_pos one_pos le_rfl hb _ (fun _ _ => Iff.rfl) hf hlim rfl two_pos cs hcs ![1 / 5, 1 / 5] ![4 / 5, 1 / 5] (by intro i; fin_cases i <;> norm_num) (by intro i; fin_cases i <;> norm_num) w w' k k' c c' a a' ho ho' hpos
    0 (3 / 5) (by norm_num) ⟨by norm_num, fun l h0 => by fin_cases l <;> simp at h0 ⊢⟩
  rw [hw] at this
  exact this

end

end Skfolio.Convex
