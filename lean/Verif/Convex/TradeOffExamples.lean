import Verif.Convex.FrontierConvex
import Verif.Convex.RiskBudgetingFindings

/-! **C117** and **C118**: concrete fits that meet the hypotheses. -/
set_option autoImplicit false

namespace Skfolio.Convex

open Skfolio.Measures

/-- Two uncorrelated assets of variance 1 and expected returns of 4 % and 2 %, long-only and fully invested; the utility with the variance and the risk aversion `c` is maximised. -/
noncomputable def utilityAssets (c : ℝ) : MeanRisk 2 2 := { frontierAssets (4 / 100) (2 / 100) with objective := .maximizeUtility, riskMeasure := .variance, riskAversion := c }

theorem utility_feasible (c : ℝ) (cs : List (Constraint ℝ 2)) (hcs : getWeightConstraints longOnly false true (1 : ℝ) = .ok cs) (w : Fin 2 → ℝ) (k v : ℝ) :
    Feasible (utilityAssets c) cs w k v ↔ k = 1 ∧ 0 ≤ w 0 ∧ 0 ≤ w 1 ∧ w 0 + w 1 = 1 ∧ 0 ≤ v ∧ Real.sqrt (w 0 ^ 2 + w 1 ^ 2) ≤ v := by
  have key := frontier_feasible (4 / 100) (2 / 100) .maximizeUtility (by decide) [] cs hcs w k v
  have e : Feasible (utilityAssets c) cs w k v ↔ Feasible { frontierAssets (4 / 100) (2 / 100) with objective := .maximizeUtility, minReturns := [] } cs w k v := by
    constructor
    · exact fun h => ⟨h.factor, h.tracking, h.turnover, h.weight, h.return', h.risks, h.aux, h.ratio⟩
    · exact fun h => ⟨h.factor, h.tracking, h.turnover, h.weight, h.return', h.risks, h.aux, h.ratio⟩
  rw [e, key]
  simp

/-- The optimum holds `1 / 2 + 1 / (200 c)` of the first asset. -/
theorem utility_optimum (c p : ℝ) (hc : 0 < c) (hp0 : 1 / 2 ≤ p) (hp1 : p ≤ 1) (hp : c * (4 * p - 2) = 2 / 100) (cs : List (Constraint ℝ 2)) (hcs : getWeightConstraints longOnly false true (1 : ℝ) = .ok cs) :
    IsOptimum (utilityAssets c) cs ![p, 1 - p] 1 (Real.sqrt (p ^ 2 + (1 - p) ^ 2)) := by
  refine ⟨(utility_feasible c cs hcs _ _ _).2 ⟨rfl, ?_, ?_, ?_, Real.sqrt_nonneg _, le_of_eq ?_⟩, ?_⟩
  · simp
    linarith
  · simp
    linarith
  · simp
  · simp
  intro w' k' (v : ℝ) h
  obtain ⟨rfl, -, -, hb, hv0, hv⟩ := (utility_feasible c cs hcs _ _ _).1 h
  change -(expectedReturn (frontierAssets (4 / 100) (2 / 100)) ![p, 1 - p] 1 * 1 - c * (Real.sqrt (p ^ 2 + (1 - p) ^ 2)) ^ 2 * 1 - (0 * _ + 0 * _) * 1) ≤
    -(expectedReturn (frontierAssets (4 / 100) (2 / 100)) w' 1 * 1 - c * v ^ 2 * 1 - (0 * _ + 0 * _) * 1)
  rw [frontier_expected, frontier_expected, Real.sq_sqrt (by positivity)]
  have hv2 : w' 0 ^ 2 + w' 1 ^ 2 ≤ v ^ 2 := (Real.sqrt_le_left hv0).1 hv
  have e : w' 1 = 1 - w' 0 := by linarith
  rw [e] at hv2 ⊢
  simp only [Matrix.cons_val_zero, Matrix.cons_val_one]
  have h1 := mul_le_mul_of_nonneg_left hv2 hc.le
  have h2 := mul_nonneg hc.le (sq_nonneg (w' 0 - p))
  have h3 : c * (4 * p - 2) * (w' 0 - p) = 2 / 100 * (w' 0 - p) := by rw [hp]
  nlinarith [h1, h2, h3]

theorem tradeoff_betas : BetasOk (frontierAssets (4 / 100) (2 / 100)) := by
  refine ⟨⟨?_, ?_⟩, ⟨?_, ?_⟩, ⟨?_, ?_⟩, ?_, ?_⟩ <;> norm_num [frontierAssets, twoAssets]

/-- Risk aversions of 0.02 and 0.04: 75 % and 62.5 % of the asset with the greater expected return. -/
example : ∃ (cs : List (Constraint ℝ 2)) (a₁ a₂ : ℝ), getWeightConstraints (utilityAssets 1).weights (factorIsVariable (utilityAssets 1)) true (utilityAssets 1).scale = .ok cs ∧ BetasOk (utilityAssets 1) ∧
    IsRiskOf (sortPartition ℝ) (utilityAssets 1) (utilityAssets 1).riskMeasure (portfolioVariance (utilityAssets 1)) ∧ (utilityAssets 1).objective = .maximizeUtility ∧
    IsOptimum { utilityAssets 1 with riskAversion := 1 / 50 } cs ![3 / 4, 1 - 3 / 4] 1 a₁ ∧ IsOptimum { utilityAssets 1 with riskAversion := 1 / 25 } cs ![5 / 8, 1 - 5 / 8] 1 a₂ := by
  obtain ⟨cs, hcs⟩ := frontier_ok
  exact ⟨cs, _, _, hcs, tradeoff_betas, fun w x => Iff.rfl, rfl, utility_optimum (1 / 50) (3 / 4) (by norm_num) (by norm_num) (by norm_num) (by norm_num) cs hcs,
    utility_optimum (1 / 25) (5 / 8) (by norm_num) (by norm_num) (by norm_num) (by norm_num) cs hcs⟩

/-- Every other portfolio is within the limits, and `C117_utility_efficient` compares with all of them. -/
example (p : ℝ) (h0 : 0 ≤ p) (h1 : p ≤ 1) : Comparable (sortPartition ℝ) (utilityAssets (1 / 50)) ![p, 1 - p] := by
  refine ⟨⟨longOnly_limits _ (by simpa using h0) (by simpa using h1) (by simp), ?_, ?_, fun x hx => (by cases hx), fun r x hx => (by cases hx)⟩, fun r _ x hx => (by cases hx), fun h => (by cases h)⟩
  · constructor <;> intros <;> simp_all [utilityAssets, frontierAssets, twoAssets, longOnly, noLimits]
  · constructor <;> intros <;> simp_all [utilityAssets, frontierAssets, twoAssets, longOnly, noLimits]

/-- The expected return is maximised with the penalties `l1` and `l2`. -/
noncomputable def penalisedAssets (l1 l2 : ℝ) : MeanRisk 2 2 := { frontierAssets (4 / 100) (2 / 100) with objective := .maximizeReturn, l1Coef := l1, l2Coef := l2 }

theorem penalised_optimum (l1 l2 p : ℝ) (hl2 : 0 < l2) (hp0 : 1 / 2 ≤ p) (hp1 : p ≤ 1) (hp : l2 * (4 * p - 2) = 2 / 100) (cs : List (Constraint ℝ 2)) (hcs : getWeightConstraints longOnly false true (1 : ℝ) = .ok cs) :
    IsOptimum (penalisedAssets l1 l2) cs ![p, 1 - p] 1 (1 : ℝ) := by
  have hf : ∀ (w : Fin 2 → ℝ) (k v : ℝ), Feasible (penalisedAssets l1 l2) cs w k v ↔ k = 1 ∧ 0 ≤ w 0 ∧ 0 ≤ w 1 ∧ w 0 + w 1 = 1 ∧ 0 ≤ v ∧ Real.sqrt (w 0 ^ 2 + w 1 ^ 2) ≤ v := by
    intro w k v
    have key := frontier_feasible (4 / 100) (2 / 100) .maximizeReturn (by decide) [] cs hcs w k v
    have e : Feasible (penalisedAssets l1 l2) cs w k v ↔ Feasible { frontierAssets (4 / 100) (2 / 100) with objective := .maximizeReturn, minReturns := [] } cs w k v := by
      constructor
      · exact fun h => ⟨h.factor, h.tracking, h.turnover, h.weight, h.return', h.risks, h.aux, h.ratio⟩
      · exact fun h => ⟨h.factor, h.tracking, h.turnover, h.weight, h.return', h.risks, h.aux, h.ratio⟩
    rw [e, key]
    simp
  refine ⟨(hf _ _ _).2 ⟨rfl, ?_, ?_, ?_, zero_le_one, ?_⟩, ?_⟩
  · simp
    linarith
  · simp
    linarith
  · simp
  · simp only [Matrix.cons_val_zero, Matrix.cons_val_one]
    exact Real.sqrt_le_one.2 (by nlinarith)
  intro w' k' (v : ℝ) h
  obtain ⟨rfl, g0, g1, hb, hv0, hv⟩ := (hf _ _ _).1 h
  change -(expectedReturn (frontierAssets (4 / 100) (2 / 100)) ![p, 1 - p] 1 * 1 - (l1 * (∑ i, |(![p, 1 - p] : Fin 2 → ℝ) i|) + l2 * ∑ i, (![p, 1 - p] : Fin 2 → ℝ) i ^ 2) * 1) ≤
    -(expectedReturn (frontierAssets (4 / 100) (2 / 100)) w' 1 * 1 - (l1 * (∑ i, |w' i|) + l2 * ∑ i, w' i ^ 2) * 1)
  rw [frontier_expected, frontier_expected]
  simp only [Fin.sum_univ_two, Matrix.cons_val_zero, Matrix.cons_val_one]
  rw [abs_of_nonneg g0, abs_of_nonneg g1, abs_of_nonneg (by linarith : 0 ≤ p), abs_of_nonneg (by linarith : 0 ≤ 1 - p), hb, add_sub_cancel]
  have e : w' 1 = 1 - w' 0 := by linarith
  rw [e]
  have h2 := mul_nonneg hl2.le (sq_nonneg (w' 0 - p))
  have h3 : l2 * (4 * p - 2) * (w' 0 - p) = 2 / 100 * (w' 0 - p) := by rw [hp]
  nlinarith [h2, h3]

/-- Penalties `l2_coef` of 0.02 and 0.04, and penalties `l1_coef` of 0 and 1. -/
example : ∃ cs, (∃ a₁ a₂ : ℝ, IsOptimum { penalisedAssets 0 1 with l2Coef := 1 / 50 } cs ![3 / 4, 1 - 3 / 4] 1 a₁ ∧ IsOptimum { penalisedAssets 0 1 with l2Coef := 1 / 25 } cs ![5 / 8, 1 - 5 / 8] 1 a₂) ∧
    ∃ a₁ a₂ : ℝ, IsOptimum { penalisedAssets 0 (1 / 50) with l1Coef := 0 } cs ![3 / 4, 1 - 3 / 4] 1 a₁ ∧ IsOptimum { penalisedAssets 0 (1 / 50) with l1Coef := 1 } cs ![3 / 4, 1 - 3 / 4] 1 a₂ := by
  obtain ⟨cs, hcs⟩ := frontier_ok
  refine ⟨cs, ⟨_, _, penalised_optimum 0 (1 / 50) (3 / 4) ?_ ?_ ?_ ?_ cs hcs, penalised_optimum 0 (1 / 25) (5 / 8) ?_ ?_ ?_ ?_ cs hcs⟩, _, _, penalised_optimum 0 (1 / 50) (3 / 4) ?_ ?_ ?_ ?_ cs hcs,
    penalised_optimum 1 (1 / 50) (3 / 4) ?_ ?_ ?_ ?_ cs hcs⟩ <;> norm_num

/-- Three targets on the frontier; the portfolio of the middle one is between the others. -/
example : ∃ cs, getWeightConstraints (frontierAssets (4 / 100) (2 / 100)).weights (factorIsVariable (frontierAssets (4 / 100) (2 / 100))) true 1 = .ok cs ∧ isMip (frontierAssets (4 / 100) (2 / 100)).weights = false ∧
    ∃ a₁ a₂ a : ℝ, IsOptimum (withTarget (frontierAssets (4 / 100) (2 / 100)) (4 / 100 * (6 / 10) + 2 / 100 * (1 - 6 / 10))) cs ![6 / 10, 1 - 6 / 10] 1 a₁ ∧
      IsOptimum (withTarget (frontierAssets (4 / 100) (2 / 100)) (4 / 100 * 1 + 2 / 100 * (1 - 1))) cs ![1, 1 - 1] 1 a₂ ∧
      IsOptimum (withTarget (frontierAssets (4 / 100) (2 / 100)) ((1 - 1 / 2) * (4 / 100 * (6 / 10) + 2 / 100 * (1 - 6 / 10)) + 1 / 2 * (4 / 100 * 1 + 2 / 100 * (1 - 1)))) cs ![8 / 10, 1 - 8 / 10] 1 a := by
  obtain ⟨cs, hcs⟩ := frontier_ok
  refine ⟨cs, hcs, rfl, _, _, Real.sqrt ((8 / 10) ^ 2 + (1 - 8 / 10) ^ 2), frontier_point _ _ (6 / 10) (by norm_num) (by norm_num) (by norm_num) cs hcs, frontier_point _ _ 1 (by norm_num) (by norm_num) (by norm_num) cs hcs, ?_⟩
  have := frontier_point (4 / 100) (2 / 100) (8 / 10) (by norm_num) (by norm_num) (by norm_num) cs hcs
  rw [show (4 / 100 * (8 / 10) + 2 / 100 * (1 - 8 / 10) : ℝ) = (1 - 1 / 2) * (4 / 100 * (6 / 10) + 2 / 100 * (1 - 6 / 10)) + 1 / 2 * (4 / 100 * 1 + 2 / 100 * (1 - 1)) by norm_num] at this
  exact this

/-- A limit on the standard deviation that binds: the greatest expected return holds as much of the first asset as the limit allows. -/
theorem limited_optimum (p : ℝ) (hp0 : 1 / 2 ≤ p) (hp1 : p ≤ 1) (cs : List (Constraint ℝ 2)) (hcs : getWeightConstraints longOnly false true (1 : ℝ) = .ok cs) :
    IsOptimum (withRiskLimit { frontierAssets (4 / 100) (2 / 100) with objective := .maximizeReturn } .standardDeviation (Real.sqrt (p ^ 2 + (1 - p) ^ 2))) cs ![p, 1 - p] 1 (1 : ℝ) := by
  have hf := frontier_feasible (4 / 100) (2 / 100) .maximizeReturn (by decide) [] cs hcs
  have hlim : ∀ q x, (withRiskLimit { frontierAssets (4 / 100) (2 / 100) with objective := .maximizeReturn } .standardDeviation (Real.sqrt (p ^ 2 + (1 - p) ^ 2))).riskLimits q = some x → q = .standardDeviation ∧ x = Real.sqrt (p ^ 2 + (1 - p) ^ 2) := by
    intro q x hx
    have hx : (if q = .standardDeviation then some (Real.sqrt (p ^ 2 + (1 - p) ^ 2)) else none) = some x := hx
    split_ifs at hx with hq
    exact ⟨hq, (Option.some.inj hx).symm⟩
  have hself := (hf ![p, 1 - p] 1 1).2 ⟨rfl, by simp; linarith, by simp; linarith, by simp, by simp, zero_le_one, by
    simp only [Matrix.cons_val_zero, Matrix.cons_val_one]
    exact Real.sqrt_le_one.2 (by nlinarith)⟩
  refine ⟨⟨hself.factor, hself.tracking, hself.turnover, hself.weight, hself.return', fun q x hx => ?_, hself.aux, hself.ratio⟩, ?_⟩
  · obtain ⟨rfl, rfl⟩ := hlim q x hx
    refine ⟨(Real.sqrt (p ^ 2 + (1 - p) ^ 2) : ℝ), (frontier_std (4 / 100) (2 / 100) _ 1 _).2 ⟨Real.sqrt_nonneg _, by simp⟩, ?_⟩
    change Real.sqrt (p ^ 2 + (1 - p) ^ 2) * 1 ≤ Real.sqrt (p ^ 2 + (1 - p) ^ 2) * 1 * 1
    linarith
  intro w' k' (v : ℝ) h
  have h' : Feasible { frontierAssets (4 / 100) (2 / 100) with objective := .maximizeReturn, minReturns := [] } cs w' k' v :=
    ⟨h.factor, h.tracking, h.turnover, h.weight, h.return', fun r x hx => (by cases hx), h.aux, h.ratio⟩
  obtain ⟨rfl, -, h1, hb, -⟩ := (hf _ _ _).1 h'
  obtain ⟨b, hb1, hb2⟩ := h.risks .standardDeviation _ rfl
  revert hb1 hb2
  revert b
  rintro (b : ℝ) hb1 hb2
  have hb3 := ((frontier_std (4 / 100) (2 / 100) w' 1 b).1 hb1).2
  have hb2 : b * 1 ≤ Real.sqrt (p ^ 2 + (1 - p) ^ 2) * 1 * 1 := hb2
  have hle : w' 0 ^ 2 + w' 1 ^ 2 ≤ p ^ 2 + (1 - p) ^ 2 := (Real.sqrt_le_sqrt_iff (by positivity)).1 (hb3.trans (by rwa [mul_one, mul_one, mul_one] at hb2))
  change -(expectedReturn (frontierAssets (4 / 100) (2 / 100)) ![p, 1 - p] 1 * 1 - (0 * _ + 0 * _) * 1) ≤ -(expectedReturn (frontierAssets (4 / 100) (2 / 100)) w' 1 * 1 - (0 * _ + 0 * _) * 1)
  rw [frontier_expected, frontier_expected]
  have e : w' 1 = 1 - w' 0 := by linarith
  rw [e] at hle ⊢
  simp only [Matrix.cons_val_zero, Matrix.cons_val_one]
  have : w' 0 ≤ p := by
    by_contra hlt
    nlinarith [not_le.1 hlt]
  linarith

/-- Limits of 5/7 and 1 on the standard deviation, and 13/17 between them: 4/7, all and 12/17 of the first asset. -/
example : ∃ cs, getWeightConstraints longOnly false true (1 : ℝ) = .ok cs ∧ ∃ a₁ a₂ a : ℝ,
    IsOptimum (withRiskLimit { frontierAssets (4 / 100) (2 / 100) with objective := .maximizeReturn } .standardDeviation (5 / 7)) cs ![4 / 7, 1 - 4 / 7] 1 a₁ ∧
    IsOptimum (withRiskLimit { frontierAssets (4 / 100) (2 / 100) with objective := .maximizeReturn } .standardDeviation 1) cs ![1, 1 - 1] 1 a₂ ∧
    IsOptimum (withRiskLimit { frontierAssets (4 / 100) (2 / 100) with objective := .maximizeReturn } .standardDeviation ((1 - 3 / 17) * (5 / 7) + 3 / 17 * 1)) cs ![12 / 17, 1 - 12 / 17] 1 a := by
  obtain ⟨cs, hcs⟩ := frontier_ok
  have h1 := limited_optimum (4 / 7) (by norm_num) (by norm_num) cs hcs
  have h2 := limited_optimum 1 (by norm_num) (by norm_num) cs hcs
  have h3 := limited_optimum (12 / 17) (by norm_num) (by norm_num) cs hcs
  rw [show ((4 / 7 : ℝ) ^ 2 + (1 - 4 / 7) ^ 2) = (5 / 7) ^ 2 by norm_num, Real.sqrt_sq (by norm_num)] at h1
  rw [show ((1 : ℝ) ^ 2 + (1 - 1) ^ 2) = 1 ^ 2 by norm_num, Real.sqrt_sq (by norm_num)] at h2
  rw [show ((12 / 17 : ℝ) ^ 2 + (1 - 12 / 17) ^ 2) = ((1 - 3 / 17) * (5 / 7) + 3 / 17 * 1) ^ 2 by norm_num, Real.sqrt_sq (by norm_num)] at h3
  exact ⟨cs, hcs, _, _, _, h1, h2, h3⟩

end Skfolio.Convex
