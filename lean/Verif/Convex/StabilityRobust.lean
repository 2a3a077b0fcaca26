import Verif.Convex.RobustUnits

/-!
**C148.** The radius of the Wasserstein ball pays for errors of the sample: `DistributionallyRobustCVaR` on returns that are a little wrong.
-/
set_option autoImplicit false

namespace Skfolio.Convex

section
variable {n T : Nat}

/-! ### Specification -/

/-- The mean distance of two samples: the absolute differences of the returns, summed over the assets and averaged over the observations. -/
noncomputable def meanDistance (r r' : Fin T → Fin n → ℝ) : ℝ := 1 / (T : ℝ) * ∑ i, ∑ j, |r' i j - r i j|

/-- The same estimator on other returns. -/
def withReturns (m : Robust n T) (r : Fin T → Fin n → ℝ) : Robust n T := { m with returns := r }

/-! ### The program -/

theorem robust_returns (m : Robust n T) (hs : 0 < m.scale) (r : Fin T → Fin n → ℝ) (w : Fin n → ℝ) (p : RobustAux n T) (h : RobustFeasible m w p) :
    RobustFeasible (withReturns m r) w { p with s := fun i => p.s i + (∑ j, |r i j - m.returns i j|) * p.lb } := by
  have move : ∀ (x : Fin n → ℝ) (c : ℝ) (i : Fin T), ‖fun j => -x j - c * w j‖ * m.scale ≤ p.lb * m.scale →
      c * (∑ j, r i j * w j) + ∑ j, x j * (1 + r i j) * 1 ≤ c * (∑ j, m.returns i j * w j) + (∑ j, x j * (1 + m.returns i j) * 1) + (∑ j, |r i j - m.returns i j|) * p.lb := fun x c i hx => by
    have hx := le_of_mul_le_mul_right hx hs
    rw [Finset.mul_sum, Finset.mul_sum, Finset.sum_mul, ← Finset.sum_add_distrib, ← Finset.sum_add_distrib, ← Finset.sum_add_distrib]
    refine Finset.sum_le_sum fun j _ => ?_
    have h1 : |-x j - c * w j| ≤ p.lb := (norm_le_pi_norm (fun j => -x j - c * w j) j).trans hx
    have h2 : (r i j - m.returns i j) * -(-x j - c * w j) ≤ |r i j - m.returns i j| * p.lb := by
      refine (le_abs_self _).trans ?_
      rw [abs_mul, abs_neg]
      exact mul_le_mul_of_nonneg_left h1 (abs_nonneg _)
    linarith
  refine ⟨h.u, h.v, fun i => ?_, fun i => ?_, h.norm1, h.norm2⟩
  · have h1 := h.first i
    have h2 := move (p.u i) (slope1 m) i (h.norm1 i)
    rw [← add_mul, ← add_mul] at h1 ⊢
    refine mul_le_mul_of_nonneg_right ?_ hs.le
    have h1 := le_of_mul_le_mul_right h1 hs
    change offset1 m * p.tau + slope1 m * (∑ j, r i j * w j) + ∑ j, p.u i j * (1 + r i j) * 1 ≤ p.s i + _
    linarith
  · have h1 := h.second i
    have h2 := move (p.v i) (slope2 m) i (h.norm2 i)
    rw [← add_mul, ← add_mul] at h1 ⊢
    refine mul_le_mul_of_nonneg_right ?_ hs.le
    have h1 := le_of_mul_le_mul_right h1 hs
    change offset2 m * p.tau + slope2 m * (∑ j, r i j * w j) + ∑ j, p.v i j * (1 + r i j) * 1 ≤ p.s i + _
    linarith

theorem objective_returns (m : Robust n T) (hso : 0 < m.scaleObjective) (r : Fin T → Fin n → ℝ) (ε δ : ℝ) (hδ : meanDistance m.returns r ≤ δ) (p : RobustAux n T) (hlb : 0 ≤ p.lb) :
    robustObjective (withRadius (withReturns m r) ε) { p with s := fun i => p.s i + (∑ j, |r i j - m.returns i j|) * p.lb } / m.scaleObjective ≤ robustObjective (withRadius m (ε + δ)) p / m.scaleObjective := by
  have e1 := objective_value (withRadius (withReturns m r) ε) hso { p with s := fun i => p.s i + (∑ j, |r i j - m.returns i j|) * p.lb }
  have e2 := objective_value (withRadius m (ε + δ)) hso p
  change _ = ε * p.lb + 1 / (T : ℝ) * ∑ i, (p.s i + (∑ j, |r i j - m.returns i j|) * p.lb) at e1
  change _ = (ε + δ) * p.lb + 1 / (T : ℝ) * ∑ i, p.s i at e2
  refine e1.le.trans (le_trans ?_ e2.ge)
  rw [Finset.sum_add_distrib, ← Finset.sum_mul]
  have := mul_le_mul_of_nonneg_right hδ hlb
  unfold meanDistance at this
  linarith

/-! ### The claim -/

section
variable (m : Robust n T) (hs : 0 < m.scale) (hso : 0 < m.scaleObjective) (hT : 0 < T) (hb0 : 0 ≤ m.cvarBeta) (hb : m.cvarBeta < 1) (hr : 0 ≤ m.riskAversion) (hret : ∀ i j, -1 ≤ m.returns i j)
  (r : Fin T → Fin n → ℝ) (hret' : ∀ i j, -1 ≤ r i j) (ε δ : ℝ) (hδ : meanDistance m.returns r ≤ δ)
include hs hso hT hb0 hb hr hret hret' hδ

/-- **C148.** The worst disutility of a portfolio over the ball of radius `ε` around one sample is at most that over the ball of radius `ε + δ` around another sample at a mean distance of at most `δ`. -/
theorem C148_portfolio (w : Fin n → ℝ) (V V' : ℝ) (hV : IsWorst m (ε + δ) w V) (hV' : IsWorst (withReturns m r) ε w V') : V' ≤ V := by
  refine le_of_forall_pos_le_add fun η hη => ?_
  obtain ⟨p, f, g⟩ := robust_close (withRadius m (ε + δ)) hs hso hT hb0 hb hr hret w V hV η hη
  have f := robust_feasible_radius' m (ε + δ) w p f
  have hlb : 0 ≤ p.lb := (norm_nonneg _).trans (le_of_mul_le_mul_right (f.norm1 ⟨0, hT⟩) hs)
  refine le_trans (hV'.2 ?_) ((objective_returns m hso r ε δ hδ p hlb).trans g)
  rintro _ ⟨P, hP, rfl⟩
  exact C62_bound (withRadius (withReturns m r) ε) hs hso hT hb0 hb hr hret' w _ (robust_feasible_radius (withReturns m r) ε w _ (robust_returns m hs r w p f)) P hP

/-- **C148.** So the promise of a fit with radius `ε + δ` holds for every distribution within `ε` of the other sample; with `ε = 0`, for the other sample itself. -/
theorem C148_promise (cs : List (Constraint ℝ n)) (w : Fin n → ℝ) (p : RobustAux n T) (h : RobustOptimum (withRadius m (ε + δ)) cs w p) (P : MeasureTheory.Measure (Fin n → ℝ)) (hP : InBall r ε P) :
    disutility P m.cvarBeta m.riskAversion w ≤ robustObjective (withRadius m (ε + δ)) p / m.scaleObjective := by
  have f := robust_feasible_radius' m (ε + δ) w p h.1.2
  have hlb : 0 ≤ p.lb := (norm_nonneg _).trans (le_of_mul_le_mul_right (f.norm1 ⟨0, hT⟩) hs)
  exact (C62_bound (withRadius (withReturns m r) ε) hs hso hT hb0 hb hr hret' w _ (robust_feasible_radius (withReturns m r) ε w _ (robust_returns m hs r w p f)) P hP).trans (objective_returns m hso r ε δ hδ p hlb)

/-- **C148.** The fit with radius `ε` on the other sample promises at least as much as the fit with radius `ε + δ`. -/
theorem C148_fit (cs : List (Constraint ℝ n)) (hcs : getWeightConstraints m.weights false true m.scale = .ok cs) (hm : isMip m.weights = false) (w w' : Fin n → ℝ) (p p' : RobustAux n T) (h : RobustOptimum (withRadius m (ε + δ)) cs w p)
    (h' : RobustOptimum (withRadius (withReturns m r) ε) cs w' p') (V V' : ℝ) (hV : IsWorst m (ε + δ) w V) (hV' : IsWorst (withReturns m r) ε w' V') : V' ≤ V := by
  have f := robust_feasible_radius' m (ε + δ) w p h.1.2
  have hlb : 0 ≤ p.lb := (norm_nonneg _).trans (le_of_mul_le_mul_right (f.norm1 ⟨0, hT⟩) hs)
  have e := worst_value m hs hso hT hb0 hb hr hret cs hcs hm (ε + δ) w p h V hV
  have e' := worst_value (withReturns m r) hs hso hT hb0 hb hr hret' cs hcs hm ε w' p' h' V' hV'
  have best := h'.2 w _ h.1.1 (robust_feasible_radius (withReturns m r) ε w _ (robust_returns m hs r w p f))
  have best := (div_le_div_of_nonneg_right best hso.le).trans (objective_returns m hso r ε δ hδ p hlb)
  have v1 := objective_value (withRadius (withReturns m r) ε) hso p'
  have v2 := objective_value (withRadius m (ε + δ)) hso p
  rw [e, e']
  exact v1.ge.trans (best.trans v2.le)

end

/-! ### A concrete case -/

/-- One asset with return 0; the right return is -5 %. The fit with radius 10 % + 5 % on the wrong return promises a disutility of at most 45 %, which holds for every distribution within 10 % of the right one. -/
example (P : MeasureTheory.Measure (Fin 1 → ℝ)) (hP : InBall (fun _ : Fin 1 => fun _ => -1 / 20) (1 / 10) P) : disutility P (1 / 2) 1 (fun _ => 1) ≤ 9 / 20 := by
  obtain ⟨cs, -, h, -⟩ := robustExample_radius (1 / 10 + 1 / 20) (by norm_num) (by norm_num)
  have := C148_promise robustExample (by norm_num [robustExample]) (by norm_num [robustExample]) (by norm_num) (by norm_num [robustExample]) (by norm_num [robustExample]) (by norm_num [robustExample]) (by norm_num [robustExample])
    (fun _ => fun _ => -1 / 20) (by norm_num) (1 / 10) (1 / 20) (by norm_num [meanDistance, robustExample, abs_of_nonneg, abs_div]) cs _ _ h P hP
  refine this.trans (le_of_eq ?_)
  norm_num [robustObjective, withRadius, robustExample, robustExampleAux]

end

end Skfolio.Convex
