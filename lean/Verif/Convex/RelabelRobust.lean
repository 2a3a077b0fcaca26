import Verif.Convex.RelabelTheorems
import Verif.Convex.RobustTheorems
import Verif.Convex.ShuffleTheorems

/-!
C108 for `DistributionallyRobustCVaR`: the order of the assets does not matter. C138 for `DistributionallyRobustCVaR`: listing the assets several times does matter.
-/
set_option autoImplicit false

namespace Skfolio.Convex

section
variable {n n' T : Nat}

/-! ### The order of the assets -/

/-- The problem with asset `s i` in column `i`. -/
def robustRelabel (s : Equiv.Perm (Fin n)) (m : Robust n T) : Robust n T := { m with returns := fun t i => m.returns t (s i), weights := relabelParams s m.weights }

/-- The variables that belong to the assets, in the new order. -/
def auxRelabel (s : Equiv.Perm (Fin n)) (p : RobustAux n T) : RobustAux n T := { p with u := fun t i => p.u t (s i), v := fun t i => p.v t (s i) }

theorem max_norm_relabel (s : Equiv.Perm (Fin n)) (f : Fin n → ℝ) : ‖fun i => f (s i)‖ = ‖f‖ := by
  refine le_antisymm ((pi_norm_le_iff_of_nonneg (norm_nonneg _)).2 fun i => norm_le_pi_norm f (s i)) ((pi_norm_le_iff_of_nonneg (norm_nonneg _)).2 fun i => ?_)
  have := norm_le_pi_norm (fun i => f (s i)) (s.symm i)
  simpa using this

theorem robust_feasible_relabel (s : Equiv.Perm (Fin n)) (m : Robust n T) (w : Fin n → ℝ) (p : RobustAux n T) :
    RobustFeasible (robustRelabel s m) (relabelWeights s w) (auxRelabel s p) ↔ RobustFeasible m w p := by
  have e1 : ∀ t, ∑ i, m.returns t (s i) * w (s i) = ∑ i, m.returns t i * w i := fun t => sum_relabel s fun i => m.returns t i * w i
  have e2 : ∀ t, ∑ i, p.u t (s i) * (1 + m.returns t (s i)) * 1 = ∑ i, p.u t i * (1 + m.returns t i) * 1 := fun t => sum_relabel s fun i => p.u t i * (1 + m.returns t i) * 1
  have e3 : ∀ t, ∑ i, p.v t (s i) * (1 + m.returns t (s i)) * 1 = ∑ i, p.v t i * (1 + m.returns t i) * 1 := fun t => sum_relabel s fun i => p.v t i * (1 + m.returns t i) * 1
  have n1 : ∀ t, ‖fun i => -p.u t (s i) - slope1 m * w (s i)‖ = ‖fun i => -p.u t i - slope1 m * w i‖ := fun t => max_norm_relabel s fun i => -p.u t i - slope1 m * w i
  have n2 : ∀ t, ‖fun i => -p.v t (s i) - slope2 m * w (s i)‖ = ‖fun i => -p.v t i - slope2 m * w i‖ := fun t => max_norm_relabel s fun i => -p.v t i - slope2 m * w i
  constructor
  · intro h
    refine ⟨fun t i => ?_, fun t i => ?_, fun t => ?_, fun t => ?_, fun t => ?_, fun t => ?_⟩
    · simpa [auxRelabel, robustRelabel] using h.u t (s.symm i)
    · simpa [auxRelabel, robustRelabel] using h.v t (s.symm i)
    · rw [← e1, ← e2]; exact h.first t
    · rw [← e1, ← e3]; exact h.second t
    · rw [← n1]; exact h.norm1 t
    · rw [← n2]; exact h.norm2 t
  · intro h
    refine ⟨fun t i => h.u t (s i), fun t i => h.v t (s i), fun t => ?_, fun t => ?_, fun t => ?_, fun t => ?_⟩
    · have := h.first t
      rw [← e1, ← e2] at this; exact this
    · have := h.second t
      rw [← e1, ← e3] at this; exact this
    · have := h.norm1 t
      rw [← n1] at this; exact this
    · have := h.norm2 t
      rw [← n2] at this; exact this

theorem same_constraints (s : Equiv.Perm (Fin n)) {cs' cs : List (Constraint ℝ n)} (h : List.Forall₂ (SameConstraint s) cs' cs) (w : Fin n → ℝ) (k : ℝ) :
    (∀ c ∈ cs', c (relabelWeights s w) k) ↔ ∀ c ∈ cs, c w k := by
  induction h with
  | nil => simp
  | cons h _ ih => simp only [List.forall_mem_cons, ih, h w k]

/-- **C108.** `DistributionallyRobustCVaR` on permuted assets: refused with the same error exactly if it was, and otherwise its optimal solutions are the permuted ones. -/
theorem C108_distributionally_robust (s : Equiv.Perm (Fin n)) (m : Robust n T) :
    (∀ e, getWeightConstraints (robustRelabel s m).weights false true m.scale = .error e ↔ getWeightConstraints m.weights false true m.scale = .error e) ∧
    ∀ cs cs', getWeightConstraints m.weights false true m.scale = .ok cs → getWeightConstraints (robustRelabel s m).weights false true m.scale = .ok cs' →
      ∀ w, (∃ p, RobustOptimum (robustRelabel s m) cs' (relabelWeights s w) p) ↔ ∃ p, RobustOptimum m cs w p := by
  have h := C108_weight_constraints s m.weights false true m.scale
  change SameOutcome s (getWeightConstraints (robustRelabel s m).weights false true m.scale) _ at h
  generalize getWeightConstraints (robustRelabel s m).weights false true m.scale = x at h ⊢
  generalize getWeightConstraints m.weights false true m.scale = y at h ⊢
  have surj : ∀ w : Fin n → ℝ, ∃ v, relabelWeights s v = w := fun w => ⟨fun i => w (s.symm i), by funext i; simp [relabelWeights]⟩
  have surj' : ∀ p : RobustAux n T, ∃ q, auxRelabel s q = p := fun p => ⟨{ p with u := fun t i => p.u t (s.symm i), v := fun t i => p.v t (s.symm i) }, by simp [auxRelabel]⟩
  refine ⟨fun e => ?_, fun cs cs' hcs hcs' w => ?_⟩
  · cases x <;> cases y
    · have h : _ = _ := h
      rw [h]
    · exact h.elim
    · exact h.elim
    · simp
  · subst hcs hcs'
    have h : List.Forall₂ (SameConstraint s) cs' cs := h
    constructor
    · rintro ⟨p, ⟨h1, h2⟩, h3⟩
      obtain ⟨p, rfl⟩ := surj' p
      refine ⟨p, ⟨(same_constraints s h w 1).1 h1, (robust_feasible_relabel s m w p).1 h2⟩, fun w' p' hw' hp' => ?_⟩
      exact h3 (relabelWeights s w') (auxRelabel s p') ((same_constraints s h w' 1).2 hw') ((robust_feasible_relabel s m w' p').2 hp')
    · rintro ⟨p, ⟨h1, h2⟩, h3⟩
      refine ⟨auxRelabel s p, ⟨(same_constraints s h w 1).2 h1, (robust_feasible_relabel s m w p).2 h2⟩, fun w' p' hw' hp' => ?_⟩
      obtain ⟨w', rfl⟩ := surj w'
      obtain ⟨p', rfl⟩ := surj' p'
      exact h3 w' p' ((same_constraints s h w' 1).1 hw') ((robust_feasible_relabel s m w' p').1 hp')

/-! ### Assets listed several times -/

/-- The assets of `m'` are those of `m`, each listed `c` times. -/
structure ListedTimes (f : Fin n' → Fin n) (c : Nat) (m : Robust n T) (m' : Robust n' T) : Prop where
  times : ∀ i, (Finset.univ.filter fun j => f j = i).card = c
  returns : ∀ t j, m'.returns t j = m.returns t (f j)
  level : m'.cvarBeta = m.cvarBeta
  aversion : m'.riskAversion = m.riskAversion
  radius : m'.radius = m.radius
  scale : m'.scale = m.scale
  scaleObjective : m'.scaleObjective = m.scaleObjective

theorem sum_listed (f : Fin n' → Fin n) (c : Nat) (hc : c ≠ 0) (times : ∀ i, (Finset.univ.filter fun j => f j = i).card = c) (g : Fin n → ℝ) : ∑ j, g (f j) / c = ∑ i, g i := by
  rw [← Finset.sum_fiberwise (s := Finset.univ) (g := f)]
  refine Finset.sum_congr rfl fun i _ => ?_
  rw [Finset.sum_congr rfl fun j hj => by rw [(Finset.mem_filter.1 hj).2], Finset.sum_const, times i, nsmul_eq_mul]
  have : (c : ℝ) ≠ 0 := Nat.cast_ne_zero.2 hc
  field_simp

theorem norm_listed (f : Fin n' → Fin n) (c : Nat) (hc : c ≠ 0) (g : Fin n → ℝ) : ‖fun j => g (f j) / c‖ ≤ ‖g‖ / c := by
  have : (0 : ℝ) < c := by exact_mod_cast Nat.pos_of_ne_zero hc
  refine (pi_norm_le_iff_of_nonneg (by positivity)).2 fun j => ?_
  rw [norm_div, Real.norm_natCast]
  exact div_le_div_of_nonneg_right (norm_le_pi_norm g (f j)) this.le

/-- **C138.** `DistributionallyRobustCVaR` is not indifferent: if every asset is listed `c` times and each position is split evenly between the copies, the part of the objective that guards against the ball is divided by `c`, so that the fit on the copies promises a better worst
case for the same investments. -/
theorem C138_radius_favours_copies (f : Fin n' → Fin n) (c : Nat) (hc : c ≠ 0) (m : Robust n T) (m' : Robust n' T) (h : ListedTimes f c m m') (hs : 0 < m.scale) (cs' : List (Constraint ℝ n')) (w : Fin n → ℝ) (p : RobustAux n T)
    (hw : RobustFeasible m w p) (hl : ∀ k ∈ cs', k (fun j => w (f j) / c) 1) (w' : Fin n' → ℝ) (p' : RobustAux n' T) (h' : RobustOptimum m' cs' w' p') :
    robustObjective m' p' ≤ robustObjective m p - (1 - 1 / c) * (m.radius * p.lb * m.scaleObjective) := by
  have hc0 : (0 : ℝ) < c := by exact_mod_cast Nat.pos_of_ne_zero hc
  have s1 : slope1 m' = slope1 m := rfl
  have s2 : slope2 m' = slope2 m := by unfold slope2; rw [h.aversion, h.level]
  have o1 : offset1 m' = offset1 m := h.aversion
  have o2 : offset2 m' = offset2 m := by unfold offset2; rw [h.aversion, h.level]
  have e1 : ∀ t, ∑ j, m'.returns t j * (w (f j) / c) = ∑ i, m.returns t i * w i := fun t => by
    rw [← sum_listed f c hc h.times fun i => m.returns t i * w i]
    exact Finset.sum_congr rfl fun j _ => by rw [h.returns]; ring
  have e2 : ∀ (u : Fin n → ℝ) (t : Fin T), ∑ j, u (f j) / c * (1 + m'.returns t j) * 1 = ∑ i, u i * (1 + m.returns t i) * 1 := fun u t => by
    rw [← sum_listed f c hc h.times fun i => u i * (1 + m.returns t i) * 1]
    exact Finset.sum_congr rfl fun j _ => by rw [h.returns]; ring
  have nn : ∀ (u : Fin n → ℝ) (a : ℝ), ‖fun i => -u i - a * w i‖ * m.scale ≤ p.lb * m.scale → ‖fun j => -(u (f j) / c) - a * (w (f j) / c)‖ * m.scale ≤ p.lb / c * m.scale := fun u a hu => by
    have := norm_listed f c hc fun i => -u i - a * w i
    have e : (fun j => (-u (f j) - a * w (f j)) / (c : ℝ)) = fun j => -(u (f j) / c) - a * (w (f j) / c) := funext fun j => by ring
    rw [e] at this
    refine mul_le_mul_of_nonneg_right (this.trans (div_le_div_of_nonneg_right ?_ hc0.le)) hs.le
    exact le_of_mul_le_mul_right hu hs
  have hp : RobustFeasible m' (fun j => w (f j) / c) { u := fun t j => p.u t (f j) / c, v := fun t j => p.v t (f j) / c, lb := p.lb / c, tau := p.tau, s := p.s } := by
    refine ⟨fun t j => ?_, fun t j => ?_, fun t => ?_, fun t => ?_, fun t => ?_, fun t => ?_⟩
    · have := hw.u t (f j)
      rw [h.scale]
      have := div_nonneg this hc0.le
      rwa [← div_mul_eq_mul_div] at this
    · have := hw.v t (f j)
      rw [h.scale]
      have := div_nonneg this hc0.le
      rwa [← div_mul_eq_mul_div] at this
    · dsimp only
      rw [e1, e2, o1, s1, h.scale]
      exact hw.first t
    · dsimp only
      rw [e1, e2, o2, s2, h.scale]
      exact hw.second t
    · dsimp only
      rw [s1, h.scale]
      exact nn _ _ (hw.norm1 t)
    · dsimp only
      rw [s2, h.scale]
      exact nn _ _ (hw.norm2 t)
  refine (h'.2 _ _ hl hp).trans (le_of_eq ?_)
  unfold robustObjective
  rw [h.radius, h.scaleObjective]
  ring

/-! ### Concrete cases -/

/-- Two assets with return zero, of which the second may have a weight of at most `a`. -/
noncomputable def pair (a : ℝ) : Robust 2 1 where
  returns := fun _ _ => 0
  cvarBeta := 1 / 2
  riskAversion := 1
  radius := 1 / 10
  weights := { robustExample.weights with minWeights := some fun _ => 0, maxWeights := some ![1, a], groupCardinalities := none, thresholdLong := none, thresholdShort := none, eqRows := [], ineqRows := [], inequality := none }
  scale := 1
  scaleObjective := 1

def pairAux (a : ℝ) : RobustAux 2 1 where
  u := fun _ _ => 0
  v := fun _ _ => 0
  lb := 3 * (1 - a)
  tau := 0
  s := fun _ => 0

/-- The weights are as equal as the limit allows. -/
theorem pair_optimum (a : ℝ) (h0 : 0 ≤ a) (h1 : a ≤ 1 / 2) : ∃ cs, getWeightConstraints (pair a).weights false true (pair a).scale = .ok cs ∧ RobustOptimum (pair a) cs ![1 - a, a] (pairAux a) := by
  obtain ⟨cs, hcs⟩ : ∃ cs, getWeightConstraints (pair a).weights false true (pair a).scale = .ok cs := by
    unfold getWeightConstraints
    simp [pair, robustExample, isMip, simpleConstraints, minConstraint, longConstraint, shortConstraint, budgetConstraint, mipPart, bind, Except.bind, pure, Except.pure]
  have hlim := fun w' => C19_weight_limits (pair a).weights false true (pair a).scale 1 (by simp [pair]) one_pos w' cs hcs (by simp [isMip, pair, robustExample])
  refine ⟨cs, hcs, ⟨⟨?_, ?_⟩, ?_⟩⟩
  · refine (hlim _).2 ?_
    constructor <;> simp [pair, robustExample, Fin.forall_fin_two, Fin.sum_univ_two, h0] <;> linarith
  · constructor
    · simp [pairAux]
    · simp [pairAux]
    · simp [pair, pairAux]
    · simp [pair, pairAux]
    · intro i
      simp only [pair, pairAux, slope1, mul_one]
      rw [pi_norm_le_iff_of_nonneg (by linarith)]
      intro j
      fin_cases j <;> simp <;> rw [abs_of_nonneg (by linarith)] <;> linarith
    · intro i
      simp only [pair, pairAux, slope2, mul_one]
      rw [pi_norm_le_iff_of_nonneg (by linarith)]
      intro j
      fin_cases j
      · simp
        norm_num
        rw [abs_of_nonneg (by linarith)]
      · simp
        norm_num
        rw [abs_of_nonneg (by linarith)]
        linarith
  · intro w' p' hw' hp'
    have b := ((hlim w').1 hw').budget 1 rfl
    have x := ((hlim w').1 hw').atMost _ rfl 1
    have g := hp'.first 0
    have k := hp'.second 0
    have u0 := hp'.u 0 0
    have u1 := hp'.u 0 1
    have v0 := hp'.v 0 0
    have v1 := hp'.v 0 1
    have l := (norm_le_pi_norm _ (0 : Fin 2)).trans ((mul_one _).symm.le.trans ((hp'.norm2 0).trans (mul_one _).le))
    have l := (abs_le.1 l).2
    simp [Fin.sum_univ_two, pair, offset1, offset2, slope1, slope2] at b x g k u0 u1 v0 v1 l
    simp [robustObjective, pair, pairAux]
    norm_num at b x g k u0 u1 v0 v1 l ⊢
    linarith

/-- With the second asset limited to a quarter the weights are 3/4 and 1/4; listed in the other order, 1/4 and 3/4. -/
example : ∃ cs p, RobustOptimum (robustRelabel (Equiv.swap 0 1) (pair (1 / 4))) cs (relabelWeights (Equiv.swap 0 1) ![3 / 4, 1 / 4]) p ∧ relabelWeights (Equiv.swap 0 1) ![(3 : ℝ) / 4, 1 / 4] = ![1 / 4, 3 / 4] := by
  obtain ⟨cs, hcs, h⟩ := pair_optimum (1 / 4) (by norm_num) (by norm_num)
  have e : (![1 - 1 / 4, 1 / 4] : Fin 2 → ℝ) = ![3 / 4, 1 / 4] := by norm_num
  rw [e] at h
  have hsame := C108_weight_constraints (Equiv.swap 0 1) (pair (1 / 4)).weights false true (pair (1 / 4)).scale
  obtain ⟨cs', hcs'⟩ : ∃ cs', getWeightConstraints (robustRelabel (Equiv.swap 0 1) (pair (1 / 4))).weights false true (pair (1 / 4)).scale = .ok cs' := by
    rw [hcs] at hsame
    change SameOutcome _ (getWeightConstraints (robustRelabel (Equiv.swap 0 1) (pair (1 / 4))).weights false true (pair (1 / 4)).scale) _ at hsame
    cases hx : getWeightConstraints (robustRelabel (Equiv.swap 0 1) (pair (1 / 4))).weights false true (pair (1 / 4)).scale with
    | ok x => exact ⟨x, rfl⟩
    | error e =>
      rw [hx] at hsame
      exact hsame.elim
  obtain ⟨p, hp⟩ := ((C108_distributionally_robust (Equiv.swap 0 1) (pair (1 / 4))).2 cs cs' hcs hcs' _).2 ⟨_, h⟩
  refine ⟨cs', p, hp, ?_⟩
  funext i
  fin_cases i <;> simp [relabelWeights]

/-- One asset has a worst disutility of 30 %; listed twice, of 15 %. -/
example : ListedTimes (fun _ => 0) 2 robustExample (pair (1 / 2)) ∧ robustObjective robustExample robustExampleAux = 3 / 10 ∧ robustObjective (pair (1 / 2)) (pairAux (1 / 2)) = 3 / 20 ∧
    robustObjective (pair (1 / 2)) (pairAux (1 / 2)) ≤ robustObjective robustExample robustExampleAux - (1 - 1 / (2 : Nat)) * (robustExample.radius * robustExampleAux.lb * robustExample.scaleObjective) := by
  have hl : ListedTimes (fun _ => 0) 2 robustExample (pair (1 / 2)) := ⟨by decide, fun _ _ => rfl, rfl, rfl, rfl, rfl, rfl⟩
  obtain ⟨cs, -, -, h, -⟩ := robustExample_optimum
  obtain ⟨cs', -, h'⟩ := pair_optimum (1 / 2) (by norm_num) (by norm_num)
  refine ⟨hl, by norm_num [robustObjective, robustExample, robustExampleAux], by norm_num [robustObjective, pair, pairAux], ?_⟩
  refine C138_radius_favours_copies (fun _ => 0) 2 (by decide) robustExample (pair (1 / 2)) hl (by norm_num [robustExample]) cs' (fun _ => 1) robustExampleAux h.1.2 ?_ _ _ h'
  have e : (![1 - 1 / 2, 1 / 2] : Fin 2 → ℝ) = fun _ => 1 / ((2 : Nat) : ℝ) := by
    funext i
    fin_cases i <;> norm_num
  rw [← e]
  exact h'.1.1

end

end Skfolio.Convex
