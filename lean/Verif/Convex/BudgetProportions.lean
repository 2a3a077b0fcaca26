import Verif.Convex.RiskBudgetingFindings
import Verif.Convex.CustomModel

/-!
**C137.** The budgets of `RiskBudgeting` matter only through their proportions.
-/
set_option autoImplicit false

namespace Skfolio.Convex

open Skfolio.Measures

section
variable {n T : Nat}

/-- `RiskBudgeting` with other budgets. -/
def withBudget (m : RiskBudgeting n T) (b : Option (Fin n → ℝ)) : RiskBudgeting n T := ⟨m.base, b, m.minReturn⟩

theorem feasible_of_budgets (m m' : RiskBudgeting n T) (hb : m'.base = m.base) (hr : m'.minReturn = m.minReturn) (l : ℝ) (hl : 0 < l) (hbud : ∀ i, riskBudget m' i = l * riskBudget m i) (cs : List (Constraint ℝ n)) (w : Fin n → ℝ) (k c : ℝ) (hs : 0 < m.base.scale) :
    (∀ i, 0 < w i) ∧ (∑ i, riskBudget m i * Real.log (w i)) * m.base.scale ≥ c * m.base.scale ∧ 0 ≤ c ↔
      (∀ i, 0 < w i) ∧ (∑ i, riskBudget m' i * Real.log (w i)) * m'.base.scale ≥ l * c * m'.base.scale ∧ 0 ≤ l * c := by
  have hsum : ∑ i, riskBudget m' i * Real.log (w i) = l * ∑ i, riskBudget m i * Real.log (w i) := by
    rw [Finset.mul_sum]
    exact Finset.sum_congr rfl fun i _ => by rw [hbud, mul_assoc]
  rw [hb, hsum, ge_iff_le, ge_iff_le, mul_le_mul_iff_left₀ hs, mul_le_mul_iff_left₀ hs, mul_le_mul_iff_right₀ hl, mul_nonneg_iff_of_pos_left hl]

theorem optimum_of_budgets (m : RiskBudgeting n T) (b : Option (Fin n → ℝ)) (l : ℝ) (hl : 0 < l) (hbud : ∀ i, riskBudget (withBudget m b) i = l * riskBudget m i) (hs : 0 < m.base.scale) (cs : List (Constraint ℝ n)) (con : List (WeightProp n)) (g : WeightExpr n)
    (w : Fin n → ℝ) (k c : ℝ) (a : (riskProgram m.base m.base.riskMeasure w (riskFactor m.base.riskMeasure k)).Aux) :
    CustomBudgetOptimum m cs con g w k c a ↔ CustomBudgetOptimum (withBudget m b) cs con g w k (l * c) a := by
  have key : ∀ (w : Fin n → ℝ) (k c : ℝ) (a : (riskProgram m.base m.base.riskMeasure w (riskFactor m.base.riskMeasure k)).Aux), BudgetFeasible m cs w k c a ↔ BudgetFeasible (withBudget m b) cs w k (l * c) a := by
    intro w k c a
    have e := feasible_of_budgets m (withBudget m b) rfl rfl l hl hbud cs w k c hs
    constructor
    · intro h
      obtain ⟨h1, h2, h3⟩ := e.1 ⟨h.positive, h.budget, h.nonneg⟩
      exact ⟨h1, h2, h3, h.weight, h.return', h.aux⟩
    · intro h
      obtain ⟨h1, h2, h3⟩ := e.2 ⟨h.positive, h.budget, h.nonneg⟩
      exact ⟨h1, h2, h3, h.weight, h.return', h.aux⟩
  constructor
  · rintro ⟨⟨h1, h2⟩, h3⟩
    refine ⟨⟨(key w k c a).1 h1, h2⟩, fun w' k' c' a' hf hc => ?_⟩
    have hc' : c' = l * (l⁻¹ * c') := by rw [← mul_assoc, mul_inv_cancel₀ hl.ne', one_mul]
    rw [hc'] at hf
    exact h3 w' k' _ a' ((key w' k' _ a').2 hf) hc
  · rintro ⟨⟨h1, h2⟩, h3⟩
    exact ⟨⟨(key w k c a).2 h1, h2⟩, fun w' k' c' a' hf hc => h3 w' k' _ a' ((key w' k' c' a').1 hf) hc⟩

/-- **C137.** Multiplying all the budgets by a positive number does not change the optima: budgets in percent, or that do not sum to one, give the same weights. Limits, minimum return, custom objectives and constraints may be present. -/
theorem C137_proportions (m : RiskBudgeting n T) (b : Fin n → ℝ) (hb : m.budget = some b) (hb0 : ∀ i, b i ≠ 0) (l : ℝ) (hl : 0 < l) (hs : 0 < m.base.scale) (cs : List (Constraint ℝ n)) (con : List (WeightProp n)) (g : WeightExpr n) (w : Fin n → ℝ) (k : ℝ) :
    (∃ c a, CustomBudgetOptimum m cs con g w k c a) ↔ ∃ c a, CustomBudgetOptimum (withBudget m (some fun i => l * b i)) cs con g w k c a := by
  have hbud : ∀ i, riskBudget (withBudget m (some fun i => l * b i)) i = l * riskBudget m i := by
    intro i
    simp only [riskBudget, withBudget, hb, mul_eq_zero, hl.ne', false_or, hb0 i, if_false]
  have key := optimum_of_budgets m _ l hl hbud hs cs con g w k
  constructor
  · rintro ⟨c, a, h⟩
    exact ⟨l * c, a, (key c a).1 h⟩
  · rintro ⟨c, a, h⟩
    refine ⟨l⁻¹ * c, a, (key _ a).2 ?_⟩
    rw [← mul_assoc, mul_inv_cancel₀ hl.ne', one_mul]
    exact h

/-- **C137.** Leaving out the budgets is the same as giving all the assets the same positive budget, whatever its value. -/
theorem C137_default (m : RiskBudgeting n T) (hb : m.budget = none) (l : ℝ) (hl : 0 < l) (hs : 0 < m.base.scale) (cs : List (Constraint ℝ n)) (con : List (WeightProp n)) (g : WeightExpr n) (w : Fin n → ℝ) (k : ℝ) :
    (∃ c a, CustomBudgetOptimum m cs con g w k c a) ↔ ∃ c a, CustomBudgetOptimum (withBudget m (some fun _ => l)) cs con g w k c a := by
  have hbud : ∀ i, riskBudget (withBudget m (some fun _ => l)) i = l * riskBudget m i := by
    intro i
    simp only [riskBudget, withBudget, hb, hl.ne', if_false, mul_one]
  have key := optimum_of_budgets m _ l hl hbud hs cs con g w k
  constructor
  · rintro ⟨c, a, h⟩
    exact ⟨l * c, a, (key c a).1 h⟩
  · rintro ⟨c, a, h⟩
    refine ⟨l⁻¹ * c, a, (key _ a).2 ?_⟩
    rw [← mul_assoc, mul_inv_cancel₀ hl.ne', one_mul]
    exact h

/-- **C137.** Every asset has a positive weight, also an asset with budget zero: the budgets cannot exclude an asset. -/
theorem C137_no_exclusion (m : RiskBudgeting n T) (cs : List (Constraint ℝ n)) (con : List (WeightProp n)) (g : WeightExpr n) (w : Fin n → ℝ) (k c : ℝ) (hk : 0 < k) (a : (riskProgram m.base m.base.riskMeasure w (riskFactor m.base.riskMeasure k)).Aux)
    (h : CustomBudgetOptimum m cs con g w k c a) (i : Fin n) : 0 < returnedWeights w k i := by
  have := div_pos (h.1.1.positive i) hk
  exact this

end

/-- **C137.** With a budget of zero the proportions do change: zero is replaced by the absolute value `1e-10`, so that the share of the asset depends on the size of the other budgets. -/
theorem C137_zero_budget (m : RiskBudgeting 2 2) : share (riskBudget (withBudget m (some ![0, 1]))) 0 ≠ share (riskBudget (withBudget m (some ![0, 2]))) 0 := by
  norm_num [share, riskBudget, withBudget, Fin.sum_univ_two]

/-! ### Examples -/

/-- The weights 2/3 and 1/3 are an optimum for the budgets 4/5 and 1/5, hence for the budgets 80 and 20. -/
example (P : Partition ℝ) : ∃ (cs : List (Constraint ℝ 2)) (w : Fin 2 → ℝ) (k c : ℝ) (a : (riskProgram fourToOne.base fourToOne.base.riskMeasure w (riskFactor fourToOne.base.riskMeasure k)).Aux),
    CustomBudgetOptimum (withBudget fourToOne (some fun i => 100 * (![4 / 5, 1 / 5] : Fin 2 → ℝ) i)) cs [] (fun _ => 0) w k c a ∧ returnedWeights w k = ![2 / 3, 1 / 3] := by
  obtain ⟨cs, w, k, c, a, -, hopt, hret, -⟩ := fourToOne_optimum P
  have h : CustomBudgetOptimum fourToOne cs [] (fun _ => 0) w k c a := ⟨⟨hopt.1, by simp⟩, fun w' k' c' a' hf _ => by simpa using hopt.2 w' k' c' a' hf⟩
  obtain ⟨c', a', h'⟩ := (C137_proportions fourToOne ![4 / 5, 1 / 5] rfl (fun i => by fin_cases i <;> norm_num) 100 (by norm_num) one_pos cs [] (fun _ => 0) w k).1 ⟨c, a, h⟩
  exact ⟨cs, w, k, c', a', h', hret⟩

end Skfolio.Convex
