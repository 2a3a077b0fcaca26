import Verif.Convex.LooserTheorems
import Verif.Convex.RobustnessTheorems

/-! **C112.** Relaxing the limits of `DistributionallyRobustCVaR` does not worsen its portfolio. -/
set_option autoImplicit false

namespace Skfolio.Convex

section
variable {n T : Nat}

section
variable (m : Robust n T) (hs : 0 < m.scale) (q : Params ℝ n) (hq : LooserWeights m.weights q) (cs cs' : List (Constraint ℝ n)) (hcs : getWeightConstraints m.weights false true m.scale = .ok cs)
  (hcs' : getWeightConstraints q false true m.scale = .ok cs') (hm' : isMip q = false)
include hs hq hcs hcs' hm'

theorem robust_looser (w : Fin n → ℝ) (h : ∀ c ∈ cs, c w 1) : ∀ c ∈ cs', c w 1 :=
  (C19_weight_limits q false true m.scale 1 hs one_pos w cs' hcs' hm').2 (limits_looser _ _ hq _ (C19_weight_limits_mip m.weights false true m.scale 1 hs one_pos w cs hcs h))

/-- **C112.** With looser limits on the weights, the worst case of the portfolio that `DistributionallyRobustCVaR` returns is not worse. -/
theorem C112_distributionally_robust (hso : 0 < m.scaleObjective) (hT : 0 < T) (hb0 : 0 ≤ m.cvarBeta) (hb : m.cvarBeta < 1) (hr : 0 ≤ m.riskAversion) (hret : ∀ i j, -1 ≤ m.returns i j) (hm : isMip m.weights = false) (w w' : Fin n → ℝ)
    (p p' : RobustAux n T) (h : RobustOptimum m cs w p) (h' : RobustOptimum { m with weights := q } cs' w' p') : ∃ V V', IsWorst m m.radius w V ∧ IsWorst m m.radius w' V' ∧ V' ≤ V := by
  obtain ⟨-, hV, -⟩ := C62_optimal m hs hso hT hb0 hb hr hret cs hcs hm w p h
  obtain ⟨-, hV', -⟩ := C62_optimal { m with weights := q } hs hso hT hb0 hb hr hret cs' hcs' hm' w' p' h'
  exact ⟨_, _, hV, hV', div_le_div_of_nonneg_right (h'.2 w p (robust_looser m hs q hq cs cs' hcs hcs' hm' w h.1.1) ⟨h.1.2.u, h.1.2.v, h.1.2.first, h.1.2.second, h.1.2.norm1, h.1.2.norm2⟩) hso.le⟩

/-- **C112.** If its portfolio under the looser limits meets the tighter ones, it is a portfolio it may return under the tighter ones. -/
theorem C112_robust_not_binding (hm : isMip m.weights = false) (w : Fin n → ℝ) (p : RobustAux n T) (h' : RobustOptimum { m with weights := q } cs' w p) (hw : RespectsLimits m.weights w) : RobustOptimum m cs w p := by
  obtain ⟨⟨-, f⟩, hopt⟩ := h'
  refine ⟨⟨(C19_weight_limits m.weights false true m.scale 1 hs one_pos w cs hcs hm).2 ?_, ⟨f.u, f.v, f.first, f.second, f.norm1, f.norm2⟩⟩, fun v b hv g => hopt v b (robust_looser m hs q hq cs cs' hcs hcs' hm' v hv) ⟨g.u, g.v, g.first, g.second, g.norm1, g.norm2⟩⟩
  simpa using hw

end

end

/-! ### A concrete case -/

/-- The weights of `robustExample` may add up to between 9/10 and 1. -/
noncomputable def looseBudget : Params ℝ 1 := { robustExample.weights with budget := none, minBudget := some (9 / 10), maxBudget := some 1 }

theorem looseBudget_looser : LooserWeights robustExample.weights looseBudget where
  minWeights := fun lo h => ⟨lo, h, fun _ => le_rfl⟩
  maxWeights := fun hi h => ⟨hi, h, fun _ => le_rfl⟩
  maxLong := fun _ h => by cases h
  maxShort := fun _ h => by cases h
  minBudget := fun x h => ⟨1, Or.inr rfl, by cases h; norm_num⟩
  maxBudget := fun x h => ⟨1, Or.inr rfl, by cases h; exact le_rfl⟩
  budget := fun _ h => by cases h
  equations := fun _ h => h
  inequalities := fun _ h => by cases h
  matrix := fun _ h => by cases h
  cardinality := fun _ h => by cases h
  groups := fun _ h => by cases h
  thresholdLong := fun _ h => by cases h
  thresholdShort := fun _ h => by cases h

/-- With the looser budget the optimum is to invest 9/10, and the worst disutility is 27 % instead of 30 %. -/
theorem looseBudget_optimum : ∃ cs, getWeightConstraints looseBudget false true robustExample.scale = .ok cs ∧ RobustOptimum { robustExample with weights := looseBudget } cs (fun _ => 9 / 10) ⟨fun _ _ => 0, fun _ _ => 0, 27 / 10, 0, fun _ => 0⟩ := by
  obtain ⟨cs, hcs⟩ : ∃ cs, getWeightConstraints looseBudget false true robustExample.scale = .ok cs := by
    unfold getWeightConstraints
    simp [looseBudget, robustExample, isMip, simpleConstraints, minConstraint, longConstraint, shortConstraint, budgetConstraint, mipPart, bind, Except.bind, pure, Except.pure]
  have hlim := fun w' => C19_weight_limits looseBudget false true robustExample.scale 1 (by simp [robustExample]) one_pos w' cs hcs (by simp [isMip, looseBudget, robustExample])
  refine ⟨cs, hcs, ⟨⟨?_, ?_⟩, ?_⟩⟩
  · refine (hlim _).2 ?_
    constructor <;> norm_num [looseBudget, robustExample] <;> (intro x h; cases h)
  · constructor
    · simp
    · simp
    · norm_num [robustExample, slope1, offset1]
    · norm_num [robustExample, slope2, offset2]
    · intro i
      simp only [robustExample, slope1, mul_one]
      rw [pi_norm_le_iff_of_nonneg (by norm_num)]
      intro j
      norm_num
    · intro i
      simp only [robustExample, slope2, mul_one]
      rw [pi_norm_le_iff_of_nonneg (by norm_num)]
      intro j
      norm_num
  · intro w' p' hw' hp'
    have h1 := ((hlim w').1 hw').minBudget (9 / 10) rfl
    simp only [div_one, Finset.univ_unique, Finset.sum_singleton] at h1
    obtain ⟨g1, g2, -⟩ := feasible_piece { robustExample with weights := looseBudget } (by simp [robustExample]) w' p' hp' false 0
    obtain ⟨k1, k2, k3⟩ := feasible_piece { robustExample with weights := looseBudget } (by simp [robustExample]) w' p' hp' true 0
    have g1 := g1 0
    have k1 := k1 0
    have k3 := (abs_le.1 (k3 0)).2
    have h1 : 9 / 10 ≤ w' 0 := h1
    simp [pieceOffset, pieceSlope, pieceDual, robustExample, offset1, offset2, slope2] at g1 g2 k1 k2 k3
    simp [robustObjective, robustExample]
    norm_num at g1 g2 k1 k2 k3 ⊢
    linarith

example : ∃ V V', IsWorst robustExample (1 / 10) (fun _ => 1) V ∧ IsWorst robustExample (1 / 10) (fun _ => 9 / 10) V' ∧ V' ≤ V := by
  obtain ⟨cs, hcs, hm, ho, -⟩ := robustExample_optimum
  obtain ⟨cs', hcs', ho'⟩ := looseBudget_optimum
  exact C112_distributionally_robust robustExample one_pos looseBudget looseBudget_looser cs cs' hcs hcs' rfl one_pos one_pos (by norm_num [robustExample]) (by norm_num [robustExample]) (by norm_num [robustExample]) (by norm_num [robustExample]) hm _ _ _ _ ho ho'

end Skfolio.Convex
