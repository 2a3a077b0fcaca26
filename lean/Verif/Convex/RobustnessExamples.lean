import Verif.Convex.RobustnessTheorems
import Verif.Convex.TradeOffExamples

/-! **C119**: concrete fits that meet the hypotheses. -/
set_option autoImplicit false

namespace Skfolio.Convex

open Skfolio.Measures

/-- Expected returns of 4 % and 2 %, with an uncertainty set whose shape is the identity. -/
noncomputable def uncertainAssets : MeanRisk 2 2 := { frontierAssets (4 / 100) (2 / 100) with objective := .maximizeReturn }

def identityShape : Fin 2 → Fin 2 → ℝ := fun i j => if i = j then 1 else 0

theorem spread_identity (w : Fin 2 → ℝ) : spread identityShape w = Real.sqrt (w 0 ^ 2 + w 1 ^ 2) := by simp [spread, identityShape, Fin.sum_univ_two]

theorem uncertain_expected (kappa : ℝ) (w : Fin 2 → ℝ) : expectedReturn (withUncertainty uncertainAssets kappa identityShape) w 1 = 4 / 100 * w 0 + 2 / 100 * w 1 - kappa * Real.sqrt (w 0 ^ 2 + w 1 ^ 2) := by
  rw [expected_one, expected_uncertainty, spread_identity, ← frontier_expected (4 / 100) (2 / 100) w 1, ← expected_one]
  rfl

theorem uncertain_feasible (kappa : ℝ) (cs : List (Constraint ℝ 2)) (hcs : getWeightConstraints longOnly false true (1 : ℝ) = .ok cs) (w : Fin 2 → ℝ) (k v : ℝ) :
    Feasible (withUncertainty uncertainAssets kappa identityShape) cs w k v ↔ k = 1 ∧ 0 ≤ w 0 ∧ 0 ≤ w 1 ∧ w 0 + w 1 = 1 ∧ 0 ≤ v ∧ Real.sqrt (w 0 ^ 2 + w 1 ^ 2) ≤ v := by
  have key := frontier_feasible (4 / 100) (2 / 100) .maximizeReturn (by decide) [] cs hcs w k v
  have e : Feasible (withUncertainty uncertainAssets kappa identityShape) cs w k v ↔ Feasible { frontierAssets (4 / 100) (2 / 100) with objective := .maximizeReturn, minReturns := [] } cs w k v := by
    constructor
    · exact fun h => ⟨h.factor, h.tracking, h.turnover, h.weight, fun x hx => (by cases hx), h.risks, h.aux, fun h => (by cases h)⟩
    · exact fun h => ⟨h.factor, h.tracking, h.turnover, h.weight, fun x hx => (by cases hx), h.risks, h.aux, fun h => (by cases h)⟩
  rw [e, key]
  simp

/-- A portfolio `v` is the optimum if it supports the worst expected return: `a`, `b` is a direction of length 1. -/
theorem uncertain_optimum (kappa : ℝ) (hk : 0 ≤ kappa) (v : Fin 2 → ℝ) (h0 : 0 ≤ v 0) (h1 : 0 ≤ v 1) (hv : v 0 + v 1 = 1) (a b V : ℝ) (hab : a ^ 2 + b ^ 2 = 1) (ha : 4 / 100 - kappa * a ≤ V) (hb : 2 / 100 - kappa * b ≤ V)
    (hV : 4 / 100 * v 0 + 2 / 100 * v 1 - kappa * Real.sqrt (v 0 ^ 2 + v 1 ^ 2) = V) (cs : List (Constraint ℝ 2)) (hcs : getWeightConstraints longOnly false true (1 : ℝ) = .ok cs) :
    IsOptimum (withUncertainty uncertainAssets kappa identityShape) cs v 1 (1 : ℝ) := by
  refine ⟨(uncertain_feasible kappa cs hcs _ _ _).2 ⟨rfl, h0, h1, hv, zero_le_one, Real.sqrt_le_one.2 (by nlinarith)⟩, ?_⟩
  intro w' k' (x : ℝ) h
  obtain ⟨rfl, g0, g1, hs, -⟩ := (uncertain_feasible kappa cs hcs _ _ _).1 h
  change -(expectedReturn (withUncertainty uncertainAssets kappa identityShape) v 1 * 1 - (0 * _ + 0 * _) * 1) ≤ -(expectedReturn (withUncertainty uncertainAssets kappa identityShape) w' 1 * 1 - (0 * _ + 0 * _) * 1)
  rw [uncertain_expected, uncertain_expected, hV]
  have hsup : a * w' 0 + b * w' 1 ≤ Real.sqrt (w' 0 ^ 2 + w' 1 ^ 2) := by
    refine Real.le_sqrt_of_sq_le ?_
    nlinarith [sq_nonneg (a * w' 1 - b * w' 0)]
  have e : V * w' 0 + V * w' 1 = V := by rw [← mul_add, hs, mul_one]
  nlinarith [mul_le_mul_of_nonneg_left hsup hk, mul_le_mul_of_nonneg_right ha g0, mul_le_mul_of_nonneg_right hb g1]

/-- Radii of 0.01 and 0.1: only the asset of the greater expected return, and four sevenths of it. -/
example : ∃ (cs : List (Constraint ℝ 2)) (a₁ a₂ : ℝ), BetasOk uncertainAssets ∧ IsRiskOf (sortPartition ℝ) uncertainAssets uncertainAssets.riskMeasure (fun w => Real.sqrt (∑ i, ∑ j, w i * covarianceOf uncertainAssets i j * w j)) ∧
    uncertainAssets.minReturns = [] ∧ IsOptimum (withUncertainty uncertainAssets (1 / 100) identityShape) cs ![1, 0] 1 a₁ ∧ IsOptimum (withUncertainty uncertainAssets (1 / 10) identityShape) cs ![4 / 7, 3 / 7] 1 a₂ := by
  obtain ⟨cs, hcs⟩ := frontier_ok
  have e : Real.sqrt ((4 / 7) ^ 2 + (3 / 7) ^ 2) = 5 / 7 := by
    rw [show ((4 / 7 : ℝ) ^ 2 + (3 / 7) ^ 2) = (5 / 7) ^ 2 by norm_num]
    exact Real.sqrt_sq (by norm_num)
  refine ⟨cs, 1, 1, tradeoff_betas, fun w x => Iff.rfl, rfl, uncertain_optimum (1 / 100) (by norm_num) _ ?_ ?_ ?_ 1 0 (3 / 100) ?_ ?_ ?_ ?_ cs hcs,
    uncertain_optimum (1 / 10) (by norm_num) _ ?_ ?_ ?_ (4 / 5) (3 / 5) (-4 / 100) ?_ ?_ ?_ ?_ cs hcs⟩
  all_goals try simp only [Matrix.cons_val_zero, Matrix.cons_val_one]
  all_goals try rw [e]
  all_goals norm_num

/-- Everything is in the second asset and moving to the first, with 2 % more expected return, costs `c` for what is sold and for what is bought. -/
noncomputable def costlyAssets : MeanRisk 2 2 :=
  { frontierAssets (4 / 100) (2 / 100) with objective := .maximizeReturn, data := { (frontierAssets (4 / 100) (2 / 100)).data with previousWeights := ![0, 1] } }

theorem costly_feasible (c : ℝ) (cs : List (Constraint ℝ 2)) (hcs : getWeightConstraints longOnly false true (1 : ℝ) = .ok cs) (w : Fin 2 → ℝ) (k v : ℝ) :
    Feasible (withCosts costlyAssets c) cs w k v ↔ k = 1 ∧ 0 ≤ w 0 ∧ 0 ≤ w 1 ∧ w 0 + w 1 = 1 ∧ 0 ≤ v ∧ Real.sqrt (w 0 ^ 2 + w 1 ^ 2) ≤ v := by
  have key := frontier_feasible (4 / 100) (2 / 100) .maximizeReturn (by decide) [] cs hcs w k v
  have e : Feasible (withCosts costlyAssets c) cs w k v ↔ Feasible { frontierAssets (4 / 100) (2 / 100) with objective := .maximizeReturn, minReturns := [] } cs w k v := by
    constructor
    · exact fun h => ⟨h.factor, h.tracking, fun x hx => (by cases hx), h.weight, fun x hx => (by cases hx), fun r x hx => (by cases hx), h.aux, fun h => (by cases h)⟩
    · exact fun h => ⟨h.factor, h.tracking, fun x hx => (by cases hx), h.weight, fun x hx => (by cases hx), fun r x hx => (by cases hx), h.aux, fun h => (by cases h)⟩
  rw [e, key]
  simp

theorem costly_expected (c : ℝ) (hc : 0 ≤ c) (w : Fin 2 → ℝ) : expectedReturn (withCosts costlyAssets c) w 1 = 4 / 100 * w 0 + 2 / 100 * w 1 - c * (|w 0| + |w 1 - 1|) := by
  rw [expected_one, expected_costs _ c hc]
  simp [netExpectedReturn, withCosts, costlyAssets, frontierAssets, twoAssets, muUncertainty, traded, Fin.sum_univ_two]
  ring

/-- Costs of 0 and of 2 %: everything is moved, and nothing. -/
example : ∃ (cs : List (Constraint ℝ 2)) (a₁ a₂ : ℝ), getWeightConstraints costlyAssets.weights (factorIsVariable costlyAssets) true costlyAssets.scale = .ok cs ∧ BetasOk costlyAssets ∧ isMip costlyAssets.weights = false ∧
    (∀ c, IsRiskOf (sortPartition ℝ) (withCosts costlyAssets c) costlyAssets.riskMeasure (fun w => Real.sqrt (∑ i, ∑ j, w i * covarianceOf costlyAssets i j * w j))) ∧
    IsOptimum (withCosts costlyAssets 0) cs ![1, 0] 1 a₁ ∧ IsOptimum (withCosts costlyAssets (2 / 100)) cs ![0, 1] 1 a₂ := by
  obtain ⟨cs, hcs⟩ := frontier_ok
  refine ⟨cs, 1, 1, hcs, tradeoff_betas, rfl, fun c w x => Iff.rfl, ⟨(costly_feasible 0 cs hcs _ _ _).2 ⟨rfl, by simp, by simp, by simp, zero_le_one, by simp⟩, ?_⟩,
    ⟨(costly_feasible (2 / 100) cs hcs _ _ _).2 ⟨rfl, by simp, by simp, by simp, zero_le_one, by simp⟩, ?_⟩⟩
  · intro w' k' (x : ℝ) h
    obtain ⟨rfl, g0, g1, hs, -⟩ := (costly_feasible 0 cs hcs _ _ _).1 h
    change -(expectedReturn (withCosts costlyAssets 0) ![1, 0] 1 * 1 - (0 * _ + 0 * _) * 1) ≤ -(expectedReturn (withCosts costlyAssets 0) w' 1 * 1 - (0 * _ + 0 * _) * 1)
    rw [costly_expected 0 le_rfl, costly_expected 0 le_rfl]
    simp only [Matrix.cons_val_zero, Matrix.cons_val_one]
    linarith
  · intro w' k' (x : ℝ) h
    obtain ⟨rfl, g0, g1, hs, -⟩ := (costly_feasible (2 / 100) cs hcs _ _ _).1 h
    change -(expectedReturn (withCosts costlyAssets (2 / 100)) ![0, 1] 1 * 1 - (0 * _ + 0 * _) * 1) ≤ -(expectedReturn (withCosts costlyAssets (2 / 100)) w' 1 * 1 - (0 * _ + 0 * _) * 1)
    rw [costly_expected _ (by norm_num), costly_expected _ (by norm_num)]
    simp only [Matrix.cons_val_zero, Matrix.cons_val_one, abs_zero, sub_self]
    linarith [le_abs_self (w' 0), neg_abs_le (w' 1 - 1)]

/-- One asset with return 0: the worst disutility is three times the radius (up to a radius of one half), for every such pair of radii and the ones between them. -/
theorem robustExample_radius (ε : ℝ) (hε : 0 ≤ ε) (hε' : ε ≤ 1 / 2) : ∃ cs, getWeightConstraints robustExample.weights false true robustExample.scale = .ok cs ∧ RobustOptimum (withRadius robustExample ε) cs (fun _ => 1) robustExampleAux ∧
    IsWorst robustExample ε (fun _ => 1) (3 * ε) := by
  obtain ⟨cs, hcs, hm, hopt, -⟩ := robustExample_optimum
  have hlim := fun w' => C19_weight_limits robustExample.weights false true robustExample.scale 1 (by simp [robustExample]) one_pos w' cs hcs hm
  have hro : RobustOptimum (withRadius robustExample ε) cs (fun _ => 1) robustExampleAux := by
    refine ⟨⟨hopt.1.1, robust_feasible_radius _ _ _ _ hopt.1.2⟩, ?_⟩
    intro w' p' hw' hp'
    have hp' := robust_feasible_radius' _ _ _ _ hp'
    have h1 := ((hlim w').1 hw').budget 1 rfl
    simp only [div_one, Finset.univ_unique, Finset.sum_singleton] at h1
    obtain ⟨g1, g2, -⟩ := feasible_piece robustExample (by simp [robustExample]) w' p' hp' false 0
    obtain ⟨k1, k2, k3⟩ := feasible_piece robustExample (by simp [robustExample]) w' p' hp' true 0
    have g1 := g1 0
    have k1 := k1 0
    have k3 := (abs_le.1 (k3 0)).2
    have h1 : w' 0 = 1 := h1
    simp [pieceOffset, pieceSlope, pieceDual, robustExample, offset1, offset2, slope2, h1] at g1 g2 k1 k2 k3
    simp [robustObjective, withRadius, robustExample, robustExampleAux]
    norm_num at g1 g2 k1 k2 k3 ⊢
    nlinarith [mul_le_mul_of_nonneg_left k3 hε, mul_le_mul_of_nonneg_right hε' k1]
  refine ⟨cs, hcs, hro, ?_⟩
  have := (C62_optimal (withRadius robustExample ε) (by simp [withRadius, robustExample]) (by simp [withRadius, robustExample]) one_pos (by norm_num [withRadius, robustExample]) (by norm_num [withRadius, robustExample])
    (by norm_num [withRadius, robustExample]) (by norm_num [withRadius, robustExample]) cs hcs hm _ _ hro).2.1
  rw [objective_value (withRadius robustExample ε) (by simp [withRadius, robustExample])] at this
  have e : (withRadius robustExample ε).radius * robustExampleAux.lb + 1 / ((1 : Nat) : ℝ) * ∑ i, robustExampleAux.s i = 3 * ε := by
    simp [withRadius, robustExampleAux]
    ring
  rw [e] at this
  exact this

end Skfolio.Convex
