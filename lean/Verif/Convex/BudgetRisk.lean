import Verif.Convex.BudgetMoves
import Verif.Convex.UniqueTheorems
import Verif.Convex.BudgetUnique

/-!
**C152.** How risky a risk-budgeting portfolio is: between the portfolio of least risk and the one that holds the assets in proportion to their budgets.
-/
set_option autoImplicit false

namespace Skfolio.Convex

open Skfolio.Measures

section
variable {n T : Nat}

/-- The `MeanRisk` of least risk with the same data, risk measure and limits on the weights. -/
def leastRiskOf (m : MeanRisk n T) : MeanRisk n T :=
  { m with objective := .minimizeRisk, l1Coef := 0, l2Coef := 0, maxTrackingError := none, maxTurnover := none, minReturns := [], riskLimits := fun _ => none }

/-- By the inequality between the arithmetic and the harmonic mean. -/
theorem shares_squared (s x : Fin n → ℝ) (hx : ∀ i, 0 < x i) (hs1 : ∑ i, s i = 1) (hx1 : ∑ i, x i = 1) : 1 ≤ ∑ i, s i * (s i / x i) := by
  have e : ∀ i, s i * (s i / x i) = (s i - x i) ^ 2 / x i + 2 * s i - x i := fun i => by
    have := (hx i).ne'
    field_simp
    ring
  rw [Finset.sum_congr rfl fun i _ => e i, Finset.sum_sub_distrib, Finset.sum_add_distrib, ← Finset.mul_sum, hs1, hx1]
  have : 0 ≤ ∑ i, (s i - x i) ^ 2 / x i := Finset.sum_nonneg fun i _ => div_nonneg (sq_nonneg _) (hx i).le
  linarith

section
variable (P : Partition ℝ) (m : RiskBudgeting n T) (hs : 0 < m.base.scale) (hso : 0 < m.base.scaleObjective) (hT : 2 ≤ T) (hb : BetasOk m.base) (R : (Fin n → ℝ) → ℝ) (hR : IsRiskOf P m.base m.base.riskMeasure R)
  (hf : ScaleFree m.base) (hlim : NoLimits m.base.weights) (hret : m.minReturn = none) (hbud : ∀ i, 0 < riskBudget m i) (hn : 0 < n) (cs : List (Constraint ℝ n))
  (hcs : getWeightConstraints m.base.weights true false m.base.scale = .ok cs) (w : Fin n → ℝ) (k c : ℝ) (a : (riskProgram m.base m.base.riskMeasure w (riskFactor m.base.riskMeasure k)).Aux) (h : BudgetOptimum m cs w k c a)
include hs hso hT hb hR hf hlim hret hbud hn hcs h

/-- **C152.** For every risk measure, the portfolio that `RiskBudgeting` returns is no riskier than the one that holds the assets in proportion to their risk budgets. -/
theorem C152_capital : R (returnedWeights w k) ≤ R (share (riskBudget m)) := by
  obtain ⟨hx, hsum, h0, hg⟩ := C60_subgradient P m hs hso hT hb R hR hf hlim hret hbud hn cs hcs w k c a h
  obtain ⟨-, hb1⟩ := share_sum (riskBudget m) hbud hn
  have hroot : 0 ≤ root m.base.riskMeasure (R (returnedWeights w k)) := by
    unfold root
    split_ifs
    · exact Real.sqrt_nonneg _
    · exact h0
  have key : root m.base.riskMeasure (R (returnedWeights w k)) ≤ root m.base.riskMeasure (R (share (riskBudget m))) :=
    (le_mul_of_one_le_right hroot (shares_squared _ _ hx hb1 hsum)).trans (hg (share (riskBudget m)))
  unfold root at key
  split_ifs at key with hd
  · exact (Real.sqrt_le_sqrt_iff (risk_nonneg P m.base hs hT hb R hR hd _)).1 key
  · exact key

/-- **C152.** With the default budgets (equal risk contributions) it is no riskier than the equally weighted portfolio. -/
theorem C152_equal (hnone : m.budget = none) : R (returnedWeights w k) ≤ R fun _ => 1 / n := by
  have e : share (riskBudget m) = fun _ => 1 / (n : ℝ) := funext fun i => by
    unfold share riskBudget
    rw [hnone]
    simp
  rw [← e]
  exact C152_capital P m hs hso hT hb R hR hf hlim hret hbud hn cs hcs w k c a h

/-- **C152.** The share of an asset in the risk is at most the risk of its position on its own. -/
theorem C152_stand_alone (j : Fin n) : share (riskBudget m) j * root m.base.riskMeasure (R (returnedWeights w k)) ≤ root m.base.riskMeasure (R (Pi.single j (returnedWeights w k j))) := by
  obtain ⟨hx, -, -, hg⟩ := C60_subgradient P m hs hso hT hb R hR hf hlim hret hbud hn cs hcs w k c a h
  have := hg (Pi.single j (returnedWeights w k j))
  rw [Finset.sum_eq_single j (fun i _ hne => by rw [Pi.single_eq_of_ne hne, zero_div, mul_zero]) (fun hj => absurd (Finset.mem_univ j) hj), Pi.single_eq_same, div_self (hx j).ne', mul_one, mul_comm] at this
  exact this

/-- **C152.** The portfolio of least risk that `MeanRisk` returns with the same data and limits is no riskier. -/
theorem C152_least (cs' : List (Constraint ℝ n)) (hcs' : getWeightConstraints m.base.weights (factorIsVariable (leastRiskOf m.base)) true m.base.scale = .ok cs') (v : Fin n → ℝ) (k' : ℝ)
    (a' : (riskProgram (leastRiskOf m.base) (leastRiskOf m.base).riskMeasure v k').Aux) (h' : IsOptimum (leastRiskOf m.base) cs' v k' a') : R (returnedWeights v k') ≤ R (returnedWeights w k) := by
  obtain ⟨hx, hsum, -, -⟩ := C60_subgradient P m hs hso hT hb R hR hf hlim hret hbud hn cs hcs w k c a h
  have hR' : IsRiskOf P (leastRiskOf m.base) (leastRiskOf m.base).riskMeasure R := by
    intro u x
    rw [← hR u x]
    change RiskAtMost P (leastRiskOf m.base) m.base.riskMeasure u x ↔ _
    cases m.base.riskMeasure <;> exact Iff.rfl
  have := (C67_minimize_risk P (leastRiskOf m.base) hs hso hT hb cs' hcs' R hR' rfl v k' a' h').2 (returnedWeights w k)
    { within :=
        { limits := hlim.2.2 _ hx hsum
          cardinality := cardinality_trivial _ hlim.2.1 _
          returns := ⟨fun _ q => (by cases q), fun _ q => absurd q List.not_mem_nil⟩
          tracking := fun _ q => by cases q
          risks := fun _ _ q => by cases q }
      entropic := fun _ _ _ q => by cases q
      bigM := fun q => by
        have := hlim.2.1
        rw [show (leastRiskOf m.base).weights = m.base.weights from rfl, this] at q
        cases q }
  simpa [penalty, leastRiskOf] using this

end

/-! ### A concrete case -/

/-- With the budgets 4/5 and 1/5, the variance of the weights 2/3 and 1/3 is at most that of the weights 4/5 and 1/5. -/
example (P : Partition ℝ) : portfolioVariance fourToOne.base ![2 / 3, 1 / 3] ≤ portfolioVariance fourToOne.base ![4 / 5, 1 / 5] := by
  obtain ⟨cs, w, k, c, a, hcs, ho, hw, hbud, hf, hlim, hb, -⟩ := fourToOne_optimum P
  have := C152_capital P fourToOne one_pos one_pos le_rfl hb _ (fun _ _ => Iff.rfl) hf hlim rfl hbud two_pos cs hcs w k c a ho
  rw [hw, fourToOne_budget] at this
  have e : share (![4 / 5, 1 / 5] : Fin 2 → ℝ) = ![4 / 5, 1 / 5] := funext fun i => by fin_cases i <;> norm_num [share, Fin.sum_univ_two]
  rwa [e] at this

/-- The weights 1/2 and 1/2 have the least variance. -/
theorem halves_least (cs : List (Constraint ℝ 2)) (hcs : getWeightConstraints longOnly false true (1 : ℝ) = .ok cs) : IsOptimum (leastRiskOf fourToOne.base) cs ![1 / 2, 1 / 2] 1 (Real.sqrt (1 / 2) : ℝ) := by
  refine ⟨⟨fun _ => rfl, fun x hx => (by cases hx), fun x hx => (by cases hx), ?_, fun z hz => absurd hz List.not_mem_nil, fun r x hx => (by cases hx), ?_, fun h => by cases h⟩, ?_⟩
  · refine (C19_weight_limits longOnly false true 1 1 one_pos one_pos _ cs hcs rfl).2 (longOnly_limits _ ?_ ?_ ?_) <;> norm_num
  · exact (twoAssets_std 0 0 longOnly _ 1 _).2 ⟨Real.sqrt_nonneg _, Real.sqrt_le_sqrt (by norm_num)⟩
  · intro w' k' (v : ℝ) h
    have hk : k' = 1 := h.factor (by decide)
    subst hk
    have hl := ((C19_weight_limits longOnly false true 1 1 one_pos one_pos w' cs hcs rfl).1 h.weight).budget 1 rfl
    simp only [div_one] at hl
    rw [Fin.sum_univ_two] at hl
    obtain ⟨hv0, hv⟩ := (twoAssets_std 0 0 longOnly w' 1 v).1 h.aux
    change Real.sqrt (1 / 2) ^ 2 * 1 + (0 * _ + 0 * _) * 1 ≤ v ^ 2 * 1 + (0 * _ + 0 * _) * 1
    have h1 : Real.sqrt (1 / 2) ≤ v := (Real.sqrt_le_sqrt (by nlinarith [sq_nonneg (w' 0 - w' 1)])).trans hv
    have := pow_le_pow_left₀ (Real.sqrt_nonneg _) h1 2
    linarith

/-- The variance of the weights 2/3 and 1/3 is between that of the weights 1/2 and 1/2 and that of the weights 4/5 and 1/5. -/
example (P : Partition ℝ) : portfolioVariance fourToOne.base ![1 / 2, 1 / 2] ≤ portfolioVariance fourToOne.base ![2 / 3, 1 / 3] := by
  obtain ⟨cs, w, k, c, a, hcs, ho, hw, hbud, hf, hlim, hb, -⟩ := fourToOne_optimum P
  obtain ⟨cs', hcs'⟩ := frontier_ok
  have := C152_least P fourToOne one_pos one_pos le_rfl hb _ (fun _ _ => Iff.rfl) hf hlim rfl hbud two_pos cs hcs w k c a ho cs' hcs' _ _ _ (halves_least cs' hcs')
  rwa [hw, returned_one] at this

/-- Two uncorrelated assets of variances 1 and 4 with the default budgets: weights 2/3 and 1/3, of a smaller variance than 1/2 and 1/2. -/
example (P : Partition ℝ) : portfolioVariance fourLevered.base ![2 / 3, 1 / 3] ≤ portfolioVariance fourLevered.base fun _ => 1 / (2 : Nat) := by
  obtain ⟨cs, hcs⟩ := longOnly_ok'
  have hbud : ∀ i, 0 < riskBudget (withBudget fourLevered none) i := fun i => one_pos
  have hf : ScaleFree fourLevered.base := ⟨fun i => mul_zero _, fun h => by cases h⟩
  have hbeta : BetasOk fourLevered.base := by
    unfold BetasOk
    norm_num [fourLevered, fourToOne, twoAssets]
  have hR : IsRiskOf P fourLevered.base fourLevered.base.riskMeasure (portfolioVariance fourLevered.base) := fun w x => Iff.rfl
  have hx0 : ∀ i, 0 < (![2 / 3, 1 / 3] : Fin 2 → ℝ) i := by intro i; fin_cases i <;> norm_num
  obtain ⟨k, hk, hret, hopt⟩ := C60_sufficient P (withBudget fourLevered none) one_pos one_pos (le_refl 2) hbeta _ hR hf longOnly_noLimits rfl hbud two_pos cs hcs ![2 / 3, 1 / 3] hx0 (by norm_num [Fin.sum_univ_two]) (portfolioVariance_nonneg _ _) (by
    intro v hv
    have hv0 := hv 0
    have hv1 := hv 1
    have hroot : ∀ y, root (withBudget fourLevered none).base.riskMeasure y = Real.sqrt y := fun y => if_pos rfl
    have hsh : ∀ i, share (riskBudget (withBudget fourLevered none)) i = 1 / 2 := fun i => by norm_num [share, riskBudget, withBudget, Fin.sum_univ_two]
    rw [hroot, hroot, fourLevered_variance, fourLevered_variance]
    simp only [hsh, Fin.sum_univ_two, Matrix.cons_val_zero, Matrix.cons_val_one]
    refine Real.le_sqrt_of_sq_le ?_
    rw [mul_pow, Real.sq_sqrt (by positivity)]
    norm_num
    nlinarith [sq_nonneg (v 0 - 2 * v 1)])
  rw [← hret]
  refine C152_equal P (withBudget fourLevered none) one_pos one_pos le_rfl hbeta _ hR hf longOnly_noLimits rfl hbud two_pos cs hcs _ k 0 (Real.sqrt (portfolioVariance fourLevered.base (scaled k ![2 / 3, 1 / 3])) : ℝ) (hopt _ ?_ ?_) rfl
  · change 0 ≤ Real.sqrt _ ∧ Real.sqrt (∑ j, ((∑ i, fourLevered.base.cholesky i j * scaled k ![2 / 3, 1 / 3] i) * 1) ^ 2) ≤ Real.sqrt _ * 1
    refine ⟨Real.sqrt_nonneg _, ?_⟩
    rw [mul_one]
    refine Real.sqrt_le_sqrt (le_of_eq ?_)
    simp only [mul_one]
    rw [portfolioVariance, ← quadratic_eq fourLevered.base.cholesky (covarianceOf fourLevered.base) fun _ _ => rfl]
  · change Real.sqrt _ ^ 2 ≤ _
    rw [Real.sq_sqrt (portfolioVariance_nonneg _ _)]

end

end Skfolio.Convex
