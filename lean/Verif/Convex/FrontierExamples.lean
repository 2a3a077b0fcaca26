import Verif.Convex.FrontierTheorems

/-! **C67** and **C68**: concrete fits that meet the hypotheses, and the fit that fails. -/
set_option autoImplicit false

namespace Skfolio.Convex

open Skfolio.Measures

section

/-- Two uncorrelated assets of variance 1, long-only and fully invested; the standard deviation is minimised. -/
noncomputable def frontierAssets (x y : ℝ) : MeanRisk 2 2 := { twoAssets x y longOnly with objective := .minimizeRisk }

theorem frontier_ok : ∃ cs, getWeightConstraints longOnly false true (1 : ℝ) = .ok cs := by
  unfold getWeightConstraints
  simp [longOnly, noLimits, isMip, simpleConstraints, minConstraint, longConstraint, shortConstraint, budgetConstraint, mipPart, bind, Except.bind, pure, Except.pure]

theorem frontier_expected (x y : ℝ) (w : Fin 2 → ℝ) (k : ℝ) : expectedReturn (frontierAssets x y) w k = x * w 0 + y * w 1 := twoAssets_expected x y longOnly w k

theorem frontier_std (x y : ℝ) (w : Fin 2 → ℝ) (k v : ℝ) :
    (riskProgram (frontierAssets x y) .standardDeviation w k).feasible v ↔ 0 ≤ v ∧ Real.sqrt (w 0 ^ 2 + w 1 ^ 2) ≤ v := twoAssets_std x y longOnly w k v

/-- The points of the problem with an objective other than the ratio and the minimum returns `l`. -/
theorem frontier_feasible (x y : ℝ) (o : Objective) (ho : o ≠ .maximizeRatio) (l : List ℝ) (cs : List (Constraint ℝ 2)) (hcs : getWeightConstraints longOnly false true (1 : ℝ) = .ok cs) (w : Fin 2 → ℝ) (k v : ℝ) :
    Feasible { frontierAssets x y with objective := o, minReturns := l } cs w k v ↔ k = 1 ∧ 0 ≤ w 0 ∧ 0 ≤ w 1 ∧ w 0 + w 1 = 1 ∧ (∀ z ∈ l, z ≤ x * w 0 + y * w 1) ∧ 0 ≤ v ∧ Real.sqrt (w 0 ^ 2 + w 1 ^ 2) ≤ v := by
  constructor
  · intro h
    have hk : k = 1 := h.factor ho
    subst hk
    have hl := (C19_weight_limits longOnly false true 1 1 one_pos one_pos w cs hcs rfl).1 h.weight
    have hv := (frontier_std x y w 1 v).1 h.aux
    have h0 := hl.atLeast _ rfl 0
    have h1 := hl.atLeast _ rfl 1
    have hb := hl.budget 1 rfl
    simp only [div_one] at h0 h1 hb
    rw [Fin.sum_univ_two] at hb
    refine ⟨rfl, h0, h1, hb, fun z hz => ?_, hv⟩
    have : expectedReturn (frontierAssets x y) w 1 * 1 ≥ z * 1 * 1 := h.return' z hz
    rw [frontier_expected] at this
    linarith
  · rintro ⟨rfl, h0, h1, hb, hz, hv⟩
    refine ⟨fun _ => rfl, fun x hx => (by cases hx), fun x hx => (by cases hx), ?_, fun z hz' => ?_, fun r x hx => (by cases hx), (frontier_std x y w 1 v).2 hv, fun h => absurd h ho⟩
    · refine (C19_weight_limits longOnly false true 1 1 one_pos one_pos w cs hcs rfl).2 (longOnly_limits _ ?_ ?_ ?_)
      · simpa using h0
      · simpa using h1
      · simpa using hb
    · change expectedReturn (frontierAssets x y) w 1 * 1 ≥ z * 1 * 1
      rw [frontier_expected]
      linarith [hz z hz']

theorem frontier_min (x y : ℝ) (cs : List (Constraint ℝ 2)) (hcs : getWeightConstraints longOnly false true (1 : ℝ) = .ok cs) :
    IsOptimum { frontierAssets x y with objective := .minimizeRisk } cs ![1 / 2, 1 / 2] 1 (Real.sqrt (1 / 2)) := by
  refine ⟨(frontier_feasible x y .minimizeRisk (by decide) [] cs hcs _ _ _).2 ⟨rfl, by norm_num, by norm_num, by norm_num, by simp, Real.sqrt_nonneg _, Real.sqrt_le_sqrt (by norm_num)⟩, ?_⟩
  intro w' k' (v : ℝ) h
  obtain ⟨rfl, -, -, hb, -, -, hv⟩ := (frontier_feasible x y .minimizeRisk (by decide) [] cs hcs _ _ _).1 h
  change Real.sqrt (1 / 2) * 1 + (0 * _ + 0 * _) * 1 ≤ v * 1 + (0 * _ + 0 * _) * 1
  have : Real.sqrt (1 / 2) ≤ Real.sqrt (w' 0 ^ 2 + w' 1 ^ 2) := Real.sqrt_le_sqrt (by nlinarith [sq_nonneg (w' 0 - w' 1)])
  linarith

theorem frontier_max (x y : ℝ) (hxy : y ≤ x) (cs : List (Constraint ℝ 2)) (hcs : getWeightConstraints longOnly false true (1 : ℝ) = .ok cs) :
    IsOptimum { frontierAssets x y with objective := .maximizeReturn } cs ![1, 0] 1 (1 : ℝ) := by
  refine ⟨(frontier_feasible x y .maximizeReturn (by decide) [] cs hcs _ _ _).2 ⟨rfl, by norm_num, by norm_num, by norm_num, by simp, by norm_num, by norm_num⟩, ?_⟩
  intro w' k' (v : ℝ) h
  obtain ⟨rfl, -, h1, hb, -, -, hv⟩ := (frontier_feasible x y .maximizeReturn (by decide) [] cs hcs _ _ _).1 h
  change -(expectedReturn (frontierAssets x y) ![1, 0] 1 * 1 - (0 * _ + 0 * _) * 1) ≤ -(expectedReturn (frontierAssets x y) w' 1 * 1 - (0 * _ + 0 * _) * 1)
  rw [frontier_expected, frontier_expected]
  have : w' 0 = 1 - w' 1 := by linarith
  rw [this]
  simp only [Matrix.cons_val_zero, Matrix.cons_val_one]
  nlinarith

theorem frontier_point (x y p : ℝ) (hxy : y < x) (hp0 : 1 / 2 ≤ p) (hp1 : p ≤ 1) (cs : List (Constraint ℝ 2)) (hcs : getWeightConstraints longOnly false true (1 : ℝ) = .ok cs) :
    IsOptimum (withTarget (frontierAssets x y) (x * p + y * (1 - p))) cs ![p, 1 - p] 1 (Real.sqrt (p ^ 2 + (1 - p) ^ 2)) := by
  refine ⟨(frontier_feasible x y .minimizeRisk (by decide) [x * p + y * (1 - p)] cs hcs _ _ _).2 ⟨rfl, ?_, ?_, ?_, ?_, Real.sqrt_nonneg _, le_of_eq ?_⟩, ?_⟩
  · simp
    linarith
  · simp
    linarith
  · simp
  · simp
  · simp
  intro w' k' (v : ℝ) h
  obtain ⟨rfl, -, -, hb, hz, -, hv⟩ := (frontier_feasible x y .minimizeRisk (by decide) [x * p + y * (1 - p)] cs hcs _ _ _).1 h
  change Real.sqrt (p ^ 2 + (1 - p) ^ 2) * 1 + (0 * _ + 0 * _) * 1 ≤ v * 1 + (0 * _ + 0 * _) * 1
  have hz' := hz _ List.mem_cons_self
  have e : w' 1 = 1 - w' 0 := by linarith
  rw [e] at hz' hv
  have hp : p ≤ w' 0 := by
    by_contra hcon
    nlinarith [not_le.1 hcon]
  have : Real.sqrt (p ^ 2 + (1 - p) ^ 2) ≤ Real.sqrt (w' 0 ^ 2 + (1 - w' 0) ^ 2) := Real.sqrt_le_sqrt (by nlinarith)
  linarith

/-- Expected returns of 4 % and 2 %, three portfolios: the targets are 3.03 %, 3.515 % and 4 %, and all hypotheses of the theorems hold. -/
example : ∃ (cs : List (Constraint ℝ 2)) (R : (Fin 2 → ℝ) → ℝ) (P : Partition ℝ), getWeightConstraints (frontierAssets (4 / 100) (2 / 100)).weights (factorIsVariable (frontierAssets (4 / 100) (2 / 100))) true 1 = .ok cs ∧
    BetasOk (frontierAssets (4 / 100) (2 / 100)) ∧ IsRiskOf P (frontierAssets (4 / 100) (2 / 100)) .standardDeviation R ∧ isMip (frontierAssets (4 / 100) (2 / 100)).weights = false ∧
    FrontierRun (frontierAssets (4 / 100) (2 / 100)) cs 3 ![1 / 2, 1 / 2] ![1, 0] [303 / 10000, 3515 / 100000, 4 / 100] [![515 / 1000, 1 - 515 / 1000], ![7575 / 10000, 1 - 7575 / 10000], ![1, 1 - 1]] ∧
    max (netExpectedReturn (frontierAssets (4 / 100) (2 / 100)) ![1 / 2, 1 / 2]) (1 / 10 ^ 10) * (101 / 100) ≤ netExpectedReturn (frontierAssets (4 / 100) (2 / 100)) ![1, 0] := by
  obtain ⟨cs, hcs⟩ := frontier_ok
  have hb : BetasOk (frontierAssets (4 / 100) (2 / 100)) := by
    refine ⟨⟨?_, ?_⟩, ⟨?_, ?_⟩, ⟨?_, ?_⟩, ?_, ?_⟩ <;> norm_num [frontierAssets, twoAssets]
  obtain ⟨R, hR⟩ := exists_risk (sortPartition ℝ) (frontierAssets (4 / 100) (2 / 100)) one_pos le_rfl hb .standardDeviation
  have e0 : expectedReturn (frontierAssets (4 / 100) (2 / 100)) ![1 / 2, 1 / 2] 1 = 3 / 100 := by
    rw [frontier_expected]
    norm_num
  have e1 : expectedReturn (frontierAssets (4 / 100) (2 / 100)) ![1, 0] 1 = 4 / 100 := by
    rw [frontier_expected]
    norm_num
  have em : max (3 / 100 : ℝ) (1 / 10 ^ 10) = 3 / 100 := max_eq_left (by norm_num)
  refine ⟨cs, R, (sortPartition ℝ), hcs, hb, hR, rfl, ⟨⟨_, frontier_min _ _ cs hcs⟩, ⟨_, frontier_max _ _ (by norm_num) cs hcs⟩, ?_, ?_⟩, ?_⟩
  · rw [e0, e1]
    have : (frontierAssets (4 / 100) (2 / 100)).objective = .minimizeRisk := rfl
    unfold frontierTargets
    rw [em, this, if_neg (by decide), if_neg (by decide), if_neg (by norm_num), show Int.toNat 3 = 3 from rfl]
    simp only [linspace]
    norm_num [List.range_succ]
  · refine .cons ?_ (.cons ?_ (.cons ?_ .nil))
    · have := frontier_point (4 / 100) (2 / 100) (515 / 1000) (by norm_num) (by norm_num) (by norm_num) cs hcs
      rw [show (4 / 100 * (515 / 1000) + 2 / 100 * (1 - 515 / 1000) : ℝ) = 303 / 10000 by norm_num] at this
      exact ⟨_, this⟩
    · have := frontier_point (4 / 100) (2 / 100) (7575 / 10000) (by norm_num) (by norm_num) (by norm_num) cs hcs
      rw [show (4 / 100 * (7575 / 10000) + 2 / 100 * (1 - 7575 / 10000) : ℝ) = 3515 / 100000 by norm_num] at this
      exact ⟨_, this⟩
    · have := frontier_point (4 / 100) (2 / 100) 1 (by norm_num) (by norm_num) (by norm_num) cs hcs
      rw [show (4 / 100 * 1 + 2 / 100 * (1 - 1) : ℝ) = 4 / 100 by norm_num] at this
      exact ⟨_, this⟩
  · rw [← expected_one, ← expected_one, e0, e1, em]
    norm_num

/-- **C68.** Finding: with equal expected returns of 4 % the problem of the first target has no solution: the fit fails, although the frontier is a single portfolio. -/
theorem C68_equal_returns : ∃ (cs : List (Constraint ℝ 2)) (w0 w1 : Fin 2 → ℝ) (targets : List ℝ), getWeightConstraints longOnly false true (1 : ℝ) = .ok cs ∧
    (∃ a, IsOptimum { frontierAssets (4 / 100) (4 / 100) with objective := .minimizeRisk } cs w0 1 a) ∧ (∃ a, IsOptimum { frontierAssets (4 / 100) (4 / 100) with objective := .maximizeReturn } cs w1 1 a) ∧
    frontierTargets .minimizeRisk (expectedReturn (frontierAssets (4 / 100) (4 / 100)) w0 1) (expectedReturn (frontierAssets (4 / 100) (4 / 100)) w1 1) 2 = .ok targets ∧
    ∃ x, targets.head? = some x ∧ ∀ w k a, ¬ Feasible (withTarget (frontierAssets (4 / 100) (4 / 100)) x) cs w k a := by
  obtain ⟨cs, hcs⟩ := frontier_ok
  have e0 : expectedReturn (frontierAssets (4 / 100) (4 / 100)) ![1 / 2, 1 / 2] 1 = 4 / 100 := by
    rw [frontier_expected]
    norm_num
  have e1 : expectedReturn (frontierAssets (4 / 100) (4 / 100)) ![1, 0] 1 = 4 / 100 := by
    rw [frontier_expected]
    norm_num
  have em : max (4 / 100 : ℝ) (1 / 10 ^ 10) = 4 / 100 := max_eq_left (by norm_num)
  have hmax := frontier_max (4 / 100) (4 / 100) le_rfl cs hcs
  have ht : frontierTargets .minimizeRisk (expectedReturn (frontierAssets (4 / 100) (4 / 100)) ![1 / 2, 1 / 2] 1) (expectedReturn (frontierAssets (4 / 100) (4 / 100)) ![1, 0] 1) 2 = .ok [404 / 10000, 4 / 100] := by
    rw [e0, e1]
    unfold frontierTargets
    rw [em, if_neg (by decide), if_neg (by decide), if_neg (by norm_num), show Int.toNat 2 = 2 from rfl]
    simp only [linspace]
    norm_num [List.range_succ]
  refine ⟨cs, ![1 / 2, 1 / 2], ![1, 0], _, hcs, ⟨_, frontier_min _ _ cs hcs⟩, ⟨_, hmax⟩, ht, ?_⟩
  refine C68_unattainable (frontierAssets (4 / 100) (4 / 100)) one_pos one_pos rfl cs rfl rfl 2 ![1 / 2, 1 / 2] ![1, 0] _ ⟨_, hmax⟩ ht ?_
  rw [← expected_one, ← expected_one, e0, e1, em]
  norm_num

end

end Skfolio.Convex
