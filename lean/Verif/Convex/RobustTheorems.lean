import Verif.Convex.RobustModel
import Verif.Convex.RobustSpec
import Verif.Convex.Alternative
import Verif.Convex.WeightTheorems
import Mathlib.Tactic.Ring
import Mathlib.Tactic.FieldSimp
import Mathlib.Tactic.Positivity
import Mathlib.Tactic.Linarith

/-!
**C62**: `DistributionallyRobustCVaR` minimises the worst disutility over the Wasserstein ball.
-/
set_option autoImplicit false

namespace Skfolio.Convex

open MeasureTheory

section
variable {n T : Nat}

/-! ### Finitely many points -/

section
variable {α E F : Type} [Fintype α] [MeasurableSpace E] [MeasurableSpace F]

theorem atoms_integrable [MeasurableSingletonClass E] (q : α → ℝ) (x : α → E) (f : E → ℝ) : Integrable f (atoms q x) := by
  unfold atoms
  rw [integrable_finsetSum_measure]
  exact fun a _ => (integrable_dirac (by simp)).smul_measure (by simp)

theorem atoms_integral [MeasurableSingletonClass E] (q : α → ℝ) (hq : ∀ a, 0 ≤ q a) (x : α → E) (f : E → ℝ) : ∫ y, f y ∂(atoms q x) = ∑ a, q a * f (x a) := by
  unfold atoms
  rw [integral_finsetSum_measure fun a _ => (integrable_dirac (by simp)).smul_measure (by simp)]
  refine Finset.sum_congr rfl fun a _ => ?_
  rw [integral_smul_measure, integral_dirac, ENNReal.toReal_ofReal (hq a), smul_eq_mul]

theorem atoms_map (q : α → ℝ) (x : α → E) (f : E → F) (hf : Measurable f) : (atoms q x).map f = atoms q fun a => f (x a) := by
  unfold atoms
  rw [Measure.map_finset_sum' hf.aemeasurable]
  refine Finset.sum_congr rfl fun a _ => ?_
  rw [Measure.map_smul, Measure.map_dirac' hf]

theorem atoms_ae [MeasurableSingletonClass E] (q : α → ℝ) (x : α → E) (p : E → Prop) (h : ∀ a, p (x a)) : ∀ᵐ y ∂(atoms q x), p y := by
  unfold atoms
  rw [ae_finsetSum_measure_iff]
  exact fun a _ => Measure.ae_smul_measure (by rw [ae_dirac_eq]; exact h a) _

theorem atoms_probability (q : α → ℝ) (hq : ∀ a, 0 ≤ q a) (hs : ∑ a, q a = 1) (x : α → E) : IsProbabilityMeasure (atoms q x) := by
  constructor
  unfold atoms
  rw [Measure.finsetSum_apply]
  simp only [Measure.smul_apply, Measure.dirac_apply_of_mem (Set.mem_univ _), smul_eq_mul, mul_one]
  rw [← ENNReal.ofReal_sum_of_nonneg fun a _ => hq a, hs, ENNReal.ofReal_one]

end

/-! ### The loss function -/

/-- The two affine pieces; `true` is the tail. -/
noncomputable def pieceSlope (m : Robust n T) (k : Bool) : ℝ := if k then slope2 m else slope1 m
noncomputable def pieceOffset (m : Robust n T) (k : Bool) : ℝ := if k then offset2 m else offset1 m

/-- The integrand of the disutility for a given `tau`. -/
noncomputable def integrand (m : Robust n T) (w : Fin n → ℝ) (tau : ℝ) (ξ : Fin n → ℝ) : ℝ := lossOf w ξ + m.riskAversion * (tau + max 0 (lossOf w ξ - tau) / (1 - m.cvarBeta))

theorem piece_le (m : Robust n T) (hb : m.cvarBeta < 1) (hr : 0 ≤ m.riskAversion) (w : Fin n → ℝ) (tau : ℝ) (ξ : Fin n → ℝ) (k : Bool) : pieceSlope m k * (∑ j, ξ j * w j) + pieceOffset m k * tau ≤ integrand m w tau ξ := by
  have hb' : 0 < 1 - m.cvarBeta := by linarith
  unfold integrand lossOf pieceSlope pieceOffset
  obtain ⟨x, hx⟩ : ∃ x, x = ∑ j, ξ j * w j := ⟨_, rfl⟩
  rw [← hx]
  cases k
  · have h1 : 0 ≤ max 0 (-x - tau) / (1 - m.cvarBeta) := div_nonneg (le_max_left _ _) hb'.le
    have h2 := mul_nonneg hr h1
    simp only [Bool.false_eq_true, if_false, slope1, offset1]
    nlinarith
  · have h1 : (-x - tau) / (1 - m.cvarBeta) ≤ max 0 (-x - tau) / (1 - m.cvarBeta) := div_le_div_of_nonneg_right (le_max_right _ _) hb'.le
    have h2 := mul_le_mul_of_nonneg_left h1 hr
    simp only [if_true, slope2, offset2]
    have e : (-1 - m.riskAversion / (1 - m.cvarBeta)) * x + m.riskAversion * (1 - 1 / (1 - m.cvarBeta)) * tau = -x + m.riskAversion * tau + m.riskAversion * ((-x - tau) / (1 - m.cvarBeta)) := by
      field_simp
      ring
    rw [e]
    linarith

theorem integrand_le (m : Robust n T) (w : Fin n → ℝ) (tau : ℝ) (ξ : Fin n → ℝ) (y : ℝ) (hb : m.cvarBeta < 1) (h : ∀ k, pieceSlope m k * (∑ j, ξ j * w j) + pieceOffset m k * tau ≤ y) : integrand m w tau ξ ≤ y := by
  have hb' : 0 < 1 - m.cvarBeta := by linarith
  have h1 := h false
  have h2 := h true
  unfold integrand lossOf
  simp only [pieceSlope, pieceOffset, Bool.false_eq_true, if_false, slope1, offset1] at h1
  simp only [pieceSlope, pieceOffset, if_true, slope2, offset2] at h2
  obtain ⟨x, hx⟩ : ∃ x, x = ∑ j, ξ j * w j := ⟨_, rfl⟩
  rw [← hx] at h1 h2 ⊢
  rcases le_total (-x - tau) 0 with h0 | h0
  · rw [max_eq_left h0, zero_div, add_zero]
    linarith
  · rw [max_eq_right h0]
    refine le_trans (le_of_eq ?_) h2
    field_simp
    ring

/-! ### Integrals under a transport -/

theorem continuous_loss (w : Fin n → ℝ) : Continuous (lossOf w) := by
  unfold lossOf
  fun_prop

theorem empirical_probability (r : Fin T → Fin n → ℝ) (hT : 0 < T) : IsProbabilityMeasure (empirical r) := by
  refine atoms_probability _ (fun _ => by positivity) ?_ _
  rw [Finset.sum_const, Finset.card_univ, Fintype.card_fin, nsmul_eq_mul]
  have : (0 : ℝ) < T := by exact_mod_cast hT
  field_simp

theorem loss_diff (w : Fin n → ℝ) (x : (Fin n → ℝ) × (Fin n → ℝ)) : |lossOf w x.1 - lossOf w x.2| ≤ (∑ j, |w j|) * distance x := by
  have e : lossOf w x.1 - lossOf w x.2 = -∑ j, (x.1 j - x.2 j) * w j := by
    unfold lossOf
    simp only [sub_mul, Finset.sum_sub_distrib]
    ring
  rw [e, abs_neg]
  refine (Finset.abs_sum_le_sum_abs _ _).trans ?_
  unfold distance
  rw [Finset.mul_sum]
  refine Finset.sum_le_sum fun j _ => ?_
  rw [abs_mul, mul_comm]
  exact mul_le_mul_of_nonneg_right (Finset.single_le_sum (fun i _ => abs_nonneg (w i)) (Finset.mem_univ j)) (abs_nonneg _)

section
variable (r : Fin T → Fin n → ℝ) (hT : 0 < T) (π : Measure ((Fin n → ℝ) × (Fin n → ℝ))) (h2 : π.map Prod.snd = empirical r) (hd : Integrable distance π)

include h2 in
theorem integrable_snd (f : (Fin n → ℝ) → ℝ) (hf : Continuous f) : Integrable (fun x => f x.2) π := by
  have : Integrable f (π.map Prod.snd) := by
    rw [h2]
    exact atoms_integrable _ _ _
  exact (integrable_map_measure hf.aestronglyMeasurable measurable_snd.aemeasurable).1 this

include h2 in
theorem integral_snd (f : (Fin n → ℝ) → ℝ) (hf : Continuous f) : ∫ x, f x.2 ∂π = (∑ i, f (r i)) / (T : ℝ) := by
  rw [← integral_map (φ := Prod.snd) measurable_snd.aemeasurable hf.aestronglyMeasurable, h2, empirical, atoms_integral _ (fun _ => by positivity), Finset.sum_div]
  exact Finset.sum_congr rfl fun i _ => by ring

include h2 hT in
theorem probability_transport : IsProbabilityMeasure π := by
  have h := empirical_probability r hT
  rw [← h2] at h
  constructor
  have := h.measure_univ
  rw [Measure.map_apply measurable_snd MeasurableSet.univ, Set.preimage_univ] at this
  exact this

include h2 hd in
theorem integrable_loss (w : Fin n → ℝ) : Integrable (fun x : (Fin n → ℝ) × (Fin n → ℝ) => lossOf w x.1) π := by
  have h1 : Integrable (fun x : (Fin n → ℝ) × (Fin n → ℝ) => lossOf w x.1 - lossOf w x.2) π := by
    refine (hd.const_mul (∑ j, |w j|)).mono' ?_ (Filter.Eventually.of_forall fun x => ?_)
    · exact (((continuous_loss w).comp continuous_fst).sub ((continuous_loss w).comp continuous_snd)).aestronglyMeasurable
    · rw [Real.norm_eq_abs]
      exact loss_diff w x
  have h3 := h1.add (integrable_snd r π h2 (lossOf w) (continuous_loss w))
  refine h3.congr (Filter.Eventually.of_forall fun x => ?_)
  simp

end

/-- What the transport gives for `P`: a probability measure under which the loss is integrable. -/
theorem ball_facts (r : Fin T → Fin n → ℝ) (hT : 0 < T) (ε : ℝ) (P : Measure (Fin n → ℝ)) (h : InBall r ε P) (w : Fin n → ℝ) : IsProbabilityMeasure P ∧ Integrable (lossOf w) P := by
  obtain ⟨π, h1, h2, hd, -⟩ := h.transport
  have := probability_transport r hT π h2
  constructor
  · rw [← h1]
    exact Measure.isProbabilityMeasure_map measurable_fst.aemeasurable
  · rw [← h1]
    exact (integrable_map_measure (continuous_loss w).aestronglyMeasurable measurable_fst.aemeasurable).2 (integrable_loss r π h2 hd w)

theorem tail_integrable (P : Measure (Fin n → ℝ)) [IsProbabilityMeasure P] (w : Fin n → ℝ) (hi : Integrable (lossOf w) P) (tau : ℝ) : Integrable (fun ξ => max 0 (lossOf w ξ - tau)) P := by
  have h1 : Integrable (fun ξ => lossOf w ξ - tau) P := hi.sub (integrable_const tau)
  have := h1.pos_part
  refine this.congr (Filter.Eventually.of_forall fun x => ?_)
  exact max_comm _ _

theorem integral_integrand (m : Robust n T) (P : Measure (Fin n → ℝ)) [IsProbabilityMeasure P] (w : Fin n → ℝ) (hi : Integrable (lossOf w) P) (tau : ℝ) :
    Integrable (integrand m w tau) P ∧ ∫ ξ, integrand m w tau ξ ∂P = (∫ ξ, lossOf w ξ ∂P) + m.riskAversion * tailBound P m.cvarBeta w tau := by
  have ht := tail_integrable P w hi tau
  have h1 : Integrable (fun ξ => m.riskAversion * (tau + max 0 (lossOf w ξ - tau) / (1 - m.cvarBeta))) P := ((integrable_const tau).add (ht.div_const _)).const_mul _
  refine ⟨hi.add h1, ?_⟩
  unfold integrand tailBound
  rw [integral_add hi h1, integral_const_mul, integral_add (integrable_const tau) (ht.div_const _), integral_div]
  simp

/-- The function of Rockafellar and Uryasev is bounded below by the mean loss. -/
theorem tail_bounded (P : Measure (Fin n → ℝ)) [IsProbabilityMeasure P] (beta : ℝ) (hb0 : 0 ≤ beta) (hb : beta < 1) (w : Fin n → ℝ) (hi : Integrable (lossOf w) P) (tau : ℝ) : ∫ ξ, lossOf w ξ ∂P ≤ tailBound P beta w tau := by
  have hb' : 0 < 1 - beta := by linarith
  have ht := tail_integrable P w hi tau
  unfold tailBound
  have h1 : ∫ ξ, lossOf w ξ - tau ∂P ≤ ∫ ξ, max 0 (lossOf w ξ - tau) ∂P := integral_mono (hi.sub (integrable_const tau)) ht fun ξ => le_max_right _ _
  rw [integral_sub hi (integrable_const tau)] at h1
  have h2 : ∫ _ : Fin n → ℝ, tau ∂P = tau := by simp
  rw [h2] at h1
  have h0 : 0 ≤ ∫ ξ, max 0 (lossOf w ξ - tau) ∂P := integral_nonneg fun ξ => le_max_left _ _
  have h3 : ∫ ξ, max 0 (lossOf w ξ - tau) ∂P ≤ (∫ ξ, max 0 (lossOf w ξ - tau) ∂P) / (1 - beta) := by
    rw [le_div_iff₀ hb']
    nlinarith
  linarith

/-! ### C62, soundness -/

theorem objective_value (m : Robust n T) (hso : 0 < m.scaleObjective) (p : RobustAux n T) : robustObjective m p / m.scaleObjective = m.radius * p.lb + 1 / (T : ℝ) * ∑ i, p.s i := by
  unfold robustObjective
  rw [← add_mul]
  exact mul_div_cancel_right₀ _ hso.ne'

/-- The constraint for one piece, as a bound on the piece at any point. -/
theorem piece_bound (a w lb x y : ℝ) (h0 : a * w ≤ lb) (hx : -1 ≤ x) (hy : -1 ≤ y) : a * w * (x - y) ≤ max 0 (-(a * w) - lb) * (1 + y) + lb * |x - y| := by
  rcases le_total y x with h | h
  · rw [abs_of_nonneg (by linarith)]
    have h1 : 0 ≤ max 0 (-(a * w) - lb) * (1 + y) := mul_nonneg (le_max_left _ _) (by linarith)
    nlinarith [mul_le_mul_of_nonneg_right h0 (show 0 ≤ x - y by linarith)]
  · rw [abs_of_nonpos (by linarith)]
    have h1 : max 0 (-(a * w) - lb) * (y - x) ≤ max 0 (-(a * w) - lb) * (1 + y) := mul_le_mul_of_nonneg_left (by linarith) (le_max_left _ _)
    have h2 : (-(a * w) - lb) * (y - x) ≤ max 0 (-(a * w) - lb) * (y - x) := mul_le_mul_of_nonneg_right (le_max_right _ _) (by linarith)
    nlinarith

/-- The dual variables of a piece. -/
def pieceDual (p : RobustAux n T) (k : Bool) : Fin T → Fin n → ℝ := if k then p.v else p.u

theorem feasible_piece (m : Robust n T) (hs : 0 < m.scale) (w : Fin n → ℝ) (p : RobustAux n T) (h : RobustFeasible m w p) (k : Bool) (i : Fin T) :
    (∀ j, 0 ≤ pieceDual p k i j) ∧ pieceOffset m k * p.tau + pieceSlope m k * (∑ j, m.returns i j * w j) + ∑ j, pieceDual p k i j * (1 + m.returns i j) ≤ p.s i ∧ ∀ j, |-pieceDual p k i j - pieceSlope m k * w j| ≤ p.lb := by
  cases k
  · refine ⟨fun j => nonneg_of_mul_nonneg_left (h.u i j) hs, ?_, fun j => ?_⟩
    · have := h.first i
      rw [← add_mul, ← add_mul, mul_le_mul_iff_left₀ hs] at this
      simpa [pieceOffset, pieceSlope, pieceDual] using this
    · have := le_of_mul_le_mul_right (h.norm1 i) hs
      exact (norm_le_pi_norm (fun j => -p.u i j - slope1 m * w j) j).trans this
  · refine ⟨fun j => nonneg_of_mul_nonneg_left (h.v i j) hs, ?_, fun j => ?_⟩
    · have := h.second i
      rw [← add_mul, ← add_mul, mul_le_mul_iff_left₀ hs] at this
      simpa [pieceOffset, pieceSlope, pieceDual] using this
    · have := le_of_mul_le_mul_right (h.norm2 i) hs
      exact (norm_le_pi_norm (fun j => -p.v i j - slope2 m * w j) j).trans this

/-- The bound of the integrand at points that come from `y`. -/
noncomputable def transportBound (m : Robust n T) (w : Fin n → ℝ) (lb tau : ℝ) (k : Bool) (y : Fin n → ℝ) : ℝ :=
  pieceOffset m k * tau + pieceSlope m k * (∑ j, y j * w j) + ∑ j, max 0 (-(pieceSlope m k * w j) - lb) * (1 + y j)

/-- **C62.** Soundness: at every feasible point, the objective is at least the disutility of the weights under every distribution in the Wasserstein ball. -/
theorem C62_bound (m : Robust n T) (hs : 0 < m.scale) (hso : 0 < m.scaleObjective) (hT : 0 < T) (hb0 : 0 ≤ m.cvarBeta) (hb : m.cvarBeta < 1) (hr : 0 ≤ m.riskAversion) (hret : ∀ i j, -1 ≤ m.returns i j) (w : Fin n → ℝ)
    (p : RobustAux n T) (h : RobustFeasible m w p) (P : Measure (Fin n → ℝ)) (hP : InBall m.returns m.radius P) : disutility P m.cvarBeta m.riskAversion w ≤ robustObjective m p / m.scaleObjective := by
  obtain ⟨hprob, hint⟩ := ball_facts m.returns hT m.radius P hP w
  obtain ⟨π, h1, h2, hd, hle⟩ := hP.transport
  have hprobπ := probability_transport m.returns hT π h2
  have hpiece := feasible_piece m hs w p h
  have hlb0 : 0 ≤ p.lb := (norm_nonneg _).trans (le_of_mul_le_mul_right (h.norm1 ⟨0, hT⟩) hs)
  have hawlb : ∀ k j, pieceSlope m k * w j ≤ p.lb := by
    intro k j
    obtain ⟨g1, -, g3⟩ := hpiece k ⟨0, hT⟩
    have := (abs_le.1 (g3 j)).1
    have := g1 j
    linarith
  obtain ⟨hi, hI⟩ := integral_integrand m P w hint p.tau
  -- the integral is at most the objective
  have key : ∫ ξ, integrand m w p.tau ξ ∂P ≤ robustObjective m p / m.scaleObjective := by
    have hc : Continuous fun y => max (transportBound m w p.lb p.tau false y) (transportBound m w p.lb p.tau true y) := by
      unfold transportBound
      fun_prop
    have hfst : AEStronglyMeasurable (integrand m w p.tau) (π.map Prod.fst) := by
      rw [h1]
      exact hi.1
    have hi' : Integrable (fun x : (Fin n → ℝ) × (Fin n → ℝ) => integrand m w p.tau x.1) π := by
      have := hi
      rw [← h1] at this
      exact (integrable_map_measure hfst measurable_fst.aemeasurable).1 this
    have e : ∫ ξ, integrand m w p.tau ξ ∂P = ∫ x, integrand m w p.tau x.1 ∂π := by
      rw [← h1, integral_map measurable_fst.aemeasurable hfst]
    have hsup1 : ∀ᵐ x ∂π, ∀ j, -1 ≤ x.1 j := by
      have := hP.support
      rw [← h1] at this
      exact ae_of_ae_map measurable_fst.aemeasurable this
    have hsup2 : ∀ᵐ x ∂π, ∀ j, -1 ≤ x.2 j := by
      have : ∀ᵐ y ∂(π.map Prod.snd), ∀ j, -1 ≤ y j := by
        rw [h2]
        exact atoms_ae _ _ _ hret
      exact ae_of_ae_map measurable_snd.aemeasurable this
    have hle1 : ∀ᵐ x ∂π, integrand m w p.tau x.1 ≤ max (transportBound m w p.lb p.tau false x.2) (transportBound m w p.lb p.tau true x.2) + p.lb * distance x := by
      filter_upwards [hsup1, hsup2] with x hx1 hx2
      refine integrand_le m w p.tau x.1 _ hb fun k => ?_
      have hk : transportBound m w p.lb p.tau k x.2 ≤ max (transportBound m w p.lb p.tau false x.2) (transportBound m w p.lb p.tau true x.2) := by
        cases k
        · exact le_max_left _ _
        · exact le_max_right _ _
      refine le_trans ?_ (add_le_add_left hk _)
      unfold transportBound distance
      have hsum : ∑ j, pieceSlope m k * w j * (x.1 j - x.2 j) ≤ ∑ j, (max 0 (-(pieceSlope m k * w j) - p.lb) * (1 + x.2 j) + p.lb * |x.1 j - x.2 j|) :=
        Finset.sum_le_sum fun j _ => piece_bound _ _ _ _ _ (hawlb k j) (hx1 j) (hx2 j)
      rw [Finset.sum_add_distrib, ← Finset.mul_sum] at hsum
      have e2 : ∑ j, pieceSlope m k * w j * (x.1 j - x.2 j) = pieceSlope m k * (∑ j, x.1 j * w j) - pieceSlope m k * ∑ j, x.2 j * w j := by
        rw [Finset.mul_sum, Finset.mul_sum, ← Finset.sum_sub_distrib]
        exact Finset.sum_congr rfl fun j _ => by ring
      rw [e2] at hsum
      linarith
    have hic := integrable_snd m.returns π h2 _ hc
    have hle2 := integral_mono_ae hi' (hic.add (hd.const_mul p.lb)) hle1
    rw [e]
    refine hle2.trans ?_
    simp only [Pi.add_apply]
    rw [integral_add hic (hd.const_mul p.lb), integral_const_mul, integral_snd m.returns π h2 _ hc]
    have hs1 : ∑ i, max (transportBound m w p.lb p.tau false (m.returns i)) (transportBound m w p.lb p.tau true (m.returns i)) ≤ ∑ i, p.s i := by
      refine Finset.sum_le_sum fun i _ => ?_
      have hk : ∀ k, transportBound m w p.lb p.tau k (m.returns i) ≤ p.s i := by
        intro k
        obtain ⟨g1, g2, g3⟩ := hpiece k i
        refine le_trans ?_ g2
        unfold transportBound
        refine add_le_add_right (Finset.sum_le_sum fun j _ => mul_le_mul_of_nonneg_right (max_le (g1 j) ?_) (by have := hret i j; linarith)) _
        have := (abs_le.1 (g3 j)).2
        linarith
      exact max_le (hk false) (hk true)
    rw [objective_value m hso]
    have hT' : (0 : ℝ) < T := by exact_mod_cast hT
    have h3 : (∑ i, max (transportBound m w p.lb p.tau false (m.returns i)) (transportBound m w p.lb p.tau true (m.returns i))) / (T : ℝ) ≤ 1 / (T : ℝ) * ∑ i, p.s i := by
      rw [one_div, inv_mul_eq_div]
      exact div_le_div_of_nonneg_right hs1 hT'.le
    have h4 := mul_le_mul_of_nonneg_left hle hlb0
    linarith
  rw [hI] at key
  refine le_trans ?_ key
  unfold disutility cvarUnder
  refine add_le_add_right (mul_le_mul_of_nonneg_left (ciInf_le ⟨∫ ξ, lossOf w ξ ∂P, ?_⟩ p.tau) hr) _
  rintro _ ⟨tau, rfl⟩
  exact tail_bounded P m.cvarBeta hb0 hb w hint tau

/-! ### C62, exactness -/

/-- A distribution with finitely many points, each of which comes from an observation, is in the ball when the mean distance is at most the radius. -/
theorem atoms_inBall {α : Type} [Fintype α] (r : Fin T → Fin n → ℝ) (ε : ℝ) (q : α → ℝ) (hq : ∀ a, 0 ≤ q a) (x : α → Fin n → ℝ) (o : α → Fin T) (ho : ∀ i, ∑ a, (if o a = i then q a else 0) = 1 / (T : ℝ))
    (hx : ∀ a j, -1 ≤ x a j) (hc : ∑ a, q a * distance (x a, r (o a)) ≤ ε) : InBall r ε (atoms q x) := by
  refine ⟨⟨atoms q fun a => (x a, r (o a)), ?_, ?_, atoms_integrable _ _ _, ?_⟩, atoms_ae _ _ _ hx⟩
  · rw [atoms_map _ _ _ measurable_fst]
  · rw [atoms_map _ _ _ measurable_snd]
    unfold empirical atoms
    dsimp only
    rw [← Finset.sum_fiberwise (s := Finset.univ) (g := o)]
    refine Finset.sum_congr rfl fun i _ => ?_
    rw [← ho i, ENNReal.ofReal_sum_of_nonneg (fun a _ => by split_ifs <;> simp [hq]), Finset.sum_smul, Finset.sum_filter]
    refine Finset.sum_congr rfl fun a _ => ?_
    by_cases h : o a = i
    · simp [h]
    · simp [h]
  · rw [atoms_integral _ hq]
    exact hc

/-- A lower bound of the integrals for every `tau` is a lower bound of the disutility. -/
theorem le_disutility {α : Type} [Fintype α] (m : Robust n T) (hr : 0 ≤ m.riskAversion) (w : Fin n → ℝ) (q : α → ℝ) (hq : ∀ a, 0 ≤ q a) (hq1 : ∑ a, q a = 1) (x : α → Fin n → ℝ) (V : ℝ) (h : ∀ tau, V ≤ ∑ a, q a * integrand m w tau (x a)) :
    V ≤ disutility (atoms q x) m.cvarBeta m.riskAversion w := by
  have := atoms_probability q hq hq1 x
  have h1 : ∀ tau, V ≤ (∫ ξ, lossOf w ξ ∂(atoms q x)) + m.riskAversion * tailBound (atoms q x) m.cvarBeta w tau := by
    intro tau
    rw [← (integral_integrand m (atoms q x) w (atoms_integrable _ _ _) tau).2, atoms_integral _ hq]
    exact h tau
  unfold disutility cvarUnder
  rcases hr.eq_or_lt with h0 | h0
  · have := h1 0
    rw [← h0, zero_mul] at this ⊢
    exact this
  · have : (V - ∫ ξ, lossOf w ξ ∂(atoms q x)) / m.riskAversion ≤ ⨅ tau, tailBound (atoms q x) m.cvarBeta w tau := by
      refine le_ciInf fun tau => ?_
      rw [div_le_iff₀ h0]
      have := h1 tau
      linarith
    rw [div_le_iff₀ h0] at this
    linarith

/-- For every observation: the piece, and the assets that lose everything. -/
abbrev Move (n T : Nat) := Fin T → Bool × (Fin n → Bool)

/-- The point to which the observation `i` is moved. -/
def moved (m : Robust n T) (σ : Move n T) (i : Fin T) : Fin n → ℝ := fun j => if (σ i).2 j then -1 else m.returns i j

/-- The value of a move for given multipliers. -/
noncomputable def moveValue (m : Robust n T) (w : Fin n → ℝ) (σ : Move n T) (x : ℝ × ℝ) : ℝ :=
  x.1 * m.radius + 1 / (T : ℝ) * ∑ i, (pieceOffset m (σ i).1 * x.2 + pieceSlope m (σ i).1 * (∑ j, moved m σ i j * w j) - x.1 * distance (moved m σ i, m.returns i))

/-- The multipliers for which no unbounded move is profitable. -/
def multipliers (m : Robust n T) (w : Fin n → ℝ) : Set (ℝ × ℝ) := {x | 0 ≤ x.1 ∧ ∀ k j, pieceSlope m k * w j ≤ x.1}

/-- The best auxiliary variables for given multipliers. -/
noncomputable def bestAux (m : Robust n T) (w : Fin n → ℝ) (x : ℝ × ℝ) : RobustAux n T where
  u := fun _ j => max 0 (-(slope1 m * w j) - x.1)
  v := fun _ j => max 0 (-(slope2 m * w j) - x.1)
  lb := x.1
  tau := x.2
  s := fun i => max (transportBound m w x.1 x.2 false (m.returns i)) (transportBound m w x.1 x.2 true (m.returns i))

theorem bestAux_feasible (m : Robust n T) (hs : 0 < m.scale) (w : Fin n → ℝ) (x : ℝ × ℝ) (hx : x ∈ multipliers m w) : RobustFeasible m w (bestAux m w x) := by
  obtain ⟨h0, h1⟩ := hx
  have hn : ∀ k j, |-(max 0 (-(pieceSlope m k * w j) - x.1)) - pieceSlope m k * w j| ≤ x.1 := by
    intro k j
    have := h1 k j
    rcases le_total 0 (-(pieceSlope m k * w j) - x.1) with h | h
    · rw [max_eq_right h, abs_le]
      constructor <;> linarith
    · rw [max_eq_left h, abs_le]
      constructor <;> linarith
  refine ⟨fun i j => mul_nonneg (le_max_left _ _) hs.le, fun i j => mul_nonneg (le_max_left _ _) hs.le, fun i => ?_, fun i => ?_, fun i => ?_, fun i => ?_⟩
  · rw [← add_mul, ← add_mul, mul_le_mul_iff_left₀ hs]
    refine le_trans (le_of_eq ?_) (le_max_left _ _)
    simp [transportBound, bestAux, pieceOffset, pieceSlope]
  · rw [← add_mul, ← add_mul, mul_le_mul_iff_left₀ hs]
    refine le_trans (le_of_eq ?_) (le_max_right _ _)
    simp [transportBound, bestAux, pieceOffset, pieceSlope]
  · refine mul_le_mul_of_nonneg_right ((pi_norm_le_iff_of_nonneg h0).2 fun j => ?_) hs.le
    exact hn false j
  · refine mul_le_mul_of_nonneg_right ((pi_norm_le_iff_of_nonneg h0).2 fun j => ?_) hs.le
    exact hn true j

theorem bestAux_value (m : Robust n T) (hso : 0 < m.scaleObjective) (hret : ∀ i j, -1 ≤ m.returns i j) (w : Fin n → ℝ) (x : ℝ × ℝ) : ∃ σ, robustObjective m (bestAux m w x) / m.scaleObjective = moveValue m w σ x := by
  have hk : ∀ i, ∃ k, (bestAux m w x).s i = transportBound m w x.1 x.2 k (m.returns i) := by
    intro i
    rcases max_choice (transportBound m w x.1 x.2 false (m.returns i)) (transportBound m w x.1 x.2 true (m.returns i)) with h | h
    · exact ⟨false, h⟩
    · exact ⟨true, h⟩
  choose k hk using hk
  refine ⟨fun i => (k i, fun j => decide (0 < -(pieceSlope m (k i) * w j) - x.1)), ?_⟩
  rw [objective_value m hso, moveValue]
  congr 1
  · exact mul_comm _ _
  · congr 1
    refine Finset.sum_congr rfl fun i _ => ?_
    rw [hk i]
    unfold transportBound distance
    dsimp only
    rw [add_sub_assoc, add_assoc]
    congr 1
    rw [Finset.mul_sum, Finset.mul_sum, Finset.mul_sum, ← Finset.sum_add_distrib, ← Finset.sum_sub_distrib]
    refine Finset.sum_congr rfl fun j _ => ?_
    unfold moved
    dsimp only
    by_cases h : 0 < -(pieceSlope m (k i) * w j) - x.1
    · rw [max_eq_right h.le, if_pos (decide_eq_true h), abs_of_nonpos (by have := hret i j; linarith)]
      ring
    · rw [max_eq_left (not_lt.1 h), if_neg (by simpa using h)]
      simp

/-- A distribution of moves that is optimal for all multipliers at once. -/
theorem exists_moves (m : Robust n T) (hs : 0 < m.scale) (hso : 0 < m.scaleObjective) (hret : ∀ i j, -1 ≤ m.returns i j) (w : Fin n → ℝ) (V : ℝ)
    (hV : ∀ p, RobustFeasible m w p → V ≤ robustObjective m p / m.scaleObjective) :
    ∃ p : Move n T → ℝ, (∀ σ, 0 ≤ p σ) ∧ ∑ σ, p σ = 1 ∧ ∀ x ∈ multipliers m w, V ≤ ∑ σ, p σ * moveValue m w σ x := by
  classical
  refine convex_alternative (multipliers m w) ?_ ?_ (moveValue m w) ?_ V fun x hx => ?_
  · intro x hx y hy a b ha hb hab
    refine ⟨?_, fun k j => ?_⟩
    · have := mul_nonneg ha hx.1
      have := mul_nonneg hb hy.1
      change 0 ≤ a * x.1 + b * y.1
      linarith
    · have h1 := mul_le_mul_of_nonneg_left (hx.2 k j) ha
      have h2 := mul_le_mul_of_nonneg_left (hy.2 k j) hb
      change _ ≤ a * x.1 + b * y.1
      have : pieceSlope m k * w j = a * (pieceSlope m k * w j) + b * (pieceSlope m k * w j) := by rw [← add_mul, hab, one_mul]
      linarith
  · refine ⟨(∑ k, ∑ j, |pieceSlope m k * w j|, 0), ?_, fun k j => ?_⟩
    · change (0 : ℝ) ≤ ∑ k, ∑ j, |pieceSlope m k * w j|
      exact Finset.sum_nonneg fun _ _ => Finset.sum_nonneg fun _ _ => abs_nonneg _
    · refine (le_abs_self _).trans ?_
      refine (Finset.single_le_sum (f := fun j => |pieceSlope m k * w j|) (fun _ _ => abs_nonneg _) (Finset.mem_univ j)).trans ?_
      exact Finset.single_le_sum (f := fun k => ∑ j, |pieceSlope m k * w j|) (fun _ _ => Finset.sum_nonneg fun _ _ => abs_nonneg _) (Finset.mem_univ k)
  · intro σ
    refine ⟨?_, ?_⟩
    · intro x hx y hy a b ha hb hab
      refine ⟨?_, fun k j => ?_⟩
      · have := mul_nonneg ha hx.1
        have := mul_nonneg hb hy.1
        change 0 ≤ a * x.1 + b * y.1
        linarith
      · have h1 := mul_le_mul_of_nonneg_left (hx.2 k j) ha
        have h2 := mul_le_mul_of_nonneg_left (hy.2 k j) hb
        change _ ≤ a * x.1 + b * y.1
        have : pieceSlope m k * w j = a * (pieceSlope m k * w j) + b * (pieceSlope m k * w j) := by rw [← add_mul, hab, one_mul]
        linarith
    · intro x _ y _ a b _ _ hab
      apply le_of_eq
      have e : ∀ z : ℝ × ℝ, moveValue m w σ z = z.1 * (m.radius - 1 / (T : ℝ) * ∑ i, distance (moved m σ i, m.returns i)) + z.2 * (1 / (T : ℝ) * ∑ i, pieceOffset m (σ i).1) + 1 / (T : ℝ) * ∑ i, pieceSlope m (σ i).1 * (∑ j, moved m σ i j * w j) := by
        intro z
        unfold moveValue
        rw [Finset.sum_sub_distrib, Finset.sum_add_distrib, ← Finset.sum_mul, ← Finset.mul_sum]
        ring
      rw [e, e, e]
      simp only [Prod.fst_add, Prod.snd_add, Prod.smul_fst, Prod.smul_snd, smul_eq_mul]
      obtain ⟨A, hA⟩ : ∃ A, A = m.radius - 1 / (T : ℝ) * ∑ i, distance (moved m σ i, m.returns i) := ⟨_, rfl⟩
      obtain ⟨B, hB⟩ : ∃ B, B = 1 / (T : ℝ) * ∑ i, pieceOffset m (σ i).1 := ⟨_, rfl⟩
      obtain ⟨C, hC⟩ : ∃ C, C = 1 / (T : ℝ) * ∑ i, pieceSlope m (σ i).1 * (∑ j, moved m σ i j * w j) := ⟨_, rfl⟩
      rw [← hA, ← hB, ← hC]
      have : b = 1 - a := by linarith
      rw [this]
      ring
  · obtain ⟨σ, hσ⟩ := bestAux_value m hso hret w x
    exact ⟨σ, hσ ▸ hV _ (bestAux_feasible m hs w x hx)⟩

/-- The pointwise estimate for the mass that is moved far away. -/
theorem far_move (m : Robust n T) (hb : m.cvarBeta < 1) (hr : 0 ≤ m.riskAversion) (w : Fin n → ℝ) (tau M δ : ℝ) (h0 : 0 ≤ δ) (h1 : δ ≤ 1 - m.cvarBeta) (ξ : Fin n → ℝ) (hM : lossOf w ξ ≤ M) :
    integrand m w (min tau M) ξ - δ * (m.riskAversion / (1 - m.cvarBeta) * (M - lossOf w ξ)) ≤ (1 - δ) * integrand m w tau ξ + δ * (slope2 m * (∑ j, ξ j * w j) + offset2 m * tau) := by
  have hb' : 0 < 1 - m.cvarBeta := by linarith
  obtain ⟨E, hE⟩ : ∃ E, E = m.riskAversion / (1 - m.cvarBeta) := ⟨_, rfl⟩
  have hE0 : 0 ≤ E := hE ▸ div_nonneg hr hb'.le
  have hδE : δ * E ≤ m.riskAversion := by
    have := mul_le_mul_of_nonneg_right h1 hE0
    refine this.trans (le_of_eq ?_)
    rw [hE]
    field_simp
  have hl : ∑ j, ξ j * w j = -lossOf w ξ := by
    unfold lossOf
    ring
  have hp : slope2 m * (∑ j, ξ j * w j) + offset2 m * tau = lossOf w ξ + m.riskAversion * tau + E * (lossOf w ξ - tau) := by
    rw [hl, hE]
    unfold slope2 offset2
    field_simp
    ring
  have hi : ∀ t, integrand m w t ξ = lossOf w ξ + m.riskAversion * t + E * max 0 (lossOf w ξ - t) := by
    intro t
    unfold integrand
    rw [hE]
    field_simp
    ring
  rw [← hE, hp, hi, hi]
  obtain ⟨l, hl'⟩ : ∃ l, l = lossOf w ξ := ⟨_, rfl⟩
  rw [← hl'] at hM ⊢
  rcases le_total tau M with h | h
  · rw [min_eq_left h]
    have h2 : max 0 (l - tau) - (l - tau) ≤ M - l := by
      rcases le_total (l - tau) 0 with g | g
      · rw [max_eq_left g]
        linarith
      · rw [max_eq_right g]
        linarith
    have h3 := mul_le_mul_of_nonneg_left h2 (mul_nonneg h0 hE0)
    nlinarith
  · rw [min_eq_right h, max_eq_left (by linarith), max_eq_left (by linarith)]
    have h3 := mul_le_mul_of_nonneg_right hδE (show 0 ≤ tau - M by linarith)
    nlinarith

/-- The distribution that the moves give, and what is left of the radius. -/
theorem moves_distribution (m : Robust n T) (hs : 0 < m.scale) (hso : 0 < m.scaleObjective) (hT : 0 < T) (hb : m.cvarBeta < 1) (hr : 0 ≤ m.riskAversion) (hret : ∀ i j, -1 ≤ m.returns i j) (w : Fin n → ℝ) (V : ℝ)
    (hV : ∀ p, RobustFeasible m w p → V ≤ robustObjective m p / m.scaleObjective) :
    ∃ q : Move n T × Fin T → ℝ, (∀ a, 0 ≤ q a) ∧ (∑ a, q a = 1) ∧ (∀ i, ∑ a, (if a.2 = i then q a else 0) = 1 / (T : ℝ)) ∧
      ∑ a, q a * distance (moved m a.1 a.2, m.returns a.2) ≤ m.radius ∧
      ∀ lam, 0 ≤ lam → (∀ k j, pieceSlope m k * w j ≤ lam) → ∀ tau, V ≤ lam * (m.radius - ∑ a, q a * distance (moved m a.1 a.2, m.returns a.2)) + ∑ a, q a * integrand m w tau (moved m a.1 a.2) := by
  obtain ⟨p, hp0, hp1, hp⟩ := exists_moves m hs hso hret w V hV
  have hT' : (0 : ℝ) < T := by exact_mod_cast hT
  have key : ∀ lam, 0 ≤ lam → (∀ k j, pieceSlope m k * w j ≤ lam) → ∀ tau, V ≤ lam * (m.radius - ∑ a : Move n T × Fin T, p a.1 * (1 / (T : ℝ)) * distance (moved m a.1 a.2, m.returns a.2)) + ∑ a : Move n T × Fin T, p a.1 * (1 / (T : ℝ)) * integrand m w tau (moved m a.1 a.2) := by
    intro lam h0 h1 tau
    refine (hp (lam, tau) ⟨h0, h1⟩).trans ?_
    rw [Fintype.sum_prod_type, Fintype.sum_prod_type, mul_sub, Finset.mul_sum]
    have e : lam * m.radius = ∑ σ, p σ * (lam * m.radius) := by rw [← Finset.sum_mul, hp1, one_mul]
    rw [e, ← Finset.sum_sub_distrib, ← Finset.sum_add_distrib]
    refine Finset.sum_le_sum fun σ _ => ?_
    unfold moveValue
    dsimp only
    rw [Finset.mul_sum, Finset.mul_sum, mul_add, Finset.mul_sum, add_comm_sub, ← Finset.sum_sub_distrib]
    refine add_le_add_right (Finset.sum_le_sum fun i _ => ?_) _
    have h2 := piece_le m hb hr w tau (moved m σ i) (σ i).1
    have h3 := mul_le_mul_of_nonneg_left h2 (mul_nonneg (hp0 σ) (one_div_nonneg.2 hT'.le))
    nlinarith
  refine ⟨fun a => p a.1 * (1 / (T : ℝ)), fun a => mul_nonneg (hp0 _) (one_div_nonneg.2 hT'.le), ?_, fun i => ?_, ?_, key⟩
  · rw [Fintype.sum_prod_type]
    simp only [Finset.sum_const, Finset.card_univ, Fintype.card_fin, nsmul_eq_mul]
    refine (Finset.sum_congr rfl fun σ _ => ?_).trans hp1
    field_simp
  · rw [Fintype.sum_prod_type]
    simp only [Finset.sum_ite_eq', Finset.mem_univ, if_true]
    rw [← Finset.sum_mul, hp1, one_mul]
  · by_contra hc
    push Not at hc
    obtain ⟨c, hc'⟩ : ∃ c, c = ∑ a : Move n T × Fin T, p a.1 * (1 / (T : ℝ)) * distance (moved m a.1 a.2, m.returns a.2) := ⟨_, rfl⟩
    obtain ⟨D, hD⟩ : ∃ D, D = ∑ a : Move n T × Fin T, p a.1 * (1 / (T : ℝ)) * integrand m w 0 (moved m a.1 a.2) := ⟨_, rfl⟩
    rw [← hc'] at hc
    obtain ⟨S, hS⟩ : ∃ S, S = ∑ k, ∑ j, |pieceSlope m k * w j| := ⟨_, rfl⟩
    have hS0 : 0 ≤ S := hS ▸ Finset.sum_nonneg fun _ _ => Finset.sum_nonneg fun _ _ => abs_nonneg _
    have hSk : ∀ k j, pieceSlope m k * w j ≤ S := by
      intro k j
      rw [hS]
      refine (le_abs_self _).trans ?_
      refine (Finset.single_le_sum (f := fun j => |pieceSlope m k * w j|) (fun _ _ => abs_nonneg _) (Finset.mem_univ j)).trans ?_
      exact Finset.single_le_sum (f := fun k => ∑ j, |pieceSlope m k * w j|) (fun _ _ => Finset.sum_nonneg fun _ _ => abs_nonneg _) (Finset.mem_univ k)
    have hpos : 0 ≤ |V - D| / (c - m.radius) := div_nonneg (abs_nonneg _) (by linarith)
    have h1 := key (S + |V - D| / (c - m.radius) + 1) (by linarith) (fun k j => by have := hSk k j; linarith) 0
    rw [← hc', ← hD] at h1
    have h2 : |V - D| / (c - m.radius) * (c - m.radius) = |V - D| := div_mul_cancel₀ _ (by linarith)
    have h3 := neg_abs_le (V - D)
    nlinarith [mul_nonneg hS0 (show 0 ≤ c - m.radius by linarith)]

/-- **C62.** The bound is attained when there are no short positions: a value that is below the objective at every feasible point is reached by a distribution in the ball. -/
theorem C62_attained (m : Robust n T) (hs : 0 < m.scale) (hso : 0 < m.scaleObjective) (hT : 0 < T) (hb : m.cvarBeta < 1) (hr : 0 ≤ m.riskAversion) (hret : ∀ i j, -1 ≤ m.returns i j) (w : Fin n → ℝ) (hw : ∀ j, 0 ≤ w j) (V : ℝ)
    (hV : ∀ p, RobustFeasible m w p → V ≤ robustObjective m p / m.scaleObjective) : ∃ P, InBall m.returns m.radius P ∧ V ≤ disutility P m.cvarBeta m.riskAversion w := by
  obtain ⟨q, h0, h1, h2, h3, h4⟩ := moves_distribution m hs hso hT hb hr hret w V hV
  refine ⟨atoms q fun a => moved m a.1 a.2, atoms_inBall m.returns m.radius q h0 _ (fun a => a.2) h2 (fun a j => ?_) h3, le_disutility m hr w q h0 h1 _ V fun tau => ?_⟩
  · unfold moved
    split_ifs
    · exact le_rfl
    · exact hret _ _
  · have := h4 0 le_rfl (fun k j => mul_nonpos_of_nonpos_of_nonneg ?_ (hw j)) tau
    · simpa using this
    · have : 0 ≤ m.riskAversion / (1 - m.cvarBeta) := div_nonneg hr (by linarith)
      cases k
      · simp [pieceSlope, slope1]
      · simp only [pieceSlope, if_true, slope2]
        linarith

/-- **C62.** The bound is the best one for every portfolio, long or short: no smaller number bounds the disutility over the ball. -/
theorem C62_approached (m : Robust n T) (hs : 0 < m.scale) (hso : 0 < m.scaleObjective) (hT : 0 < T) (hb0 : 0 ≤ m.cvarBeta) (hb : m.cvarBeta < 1) (hr : 0 ≤ m.riskAversion) (hret : ∀ i j, -1 ≤ m.returns i j) (w : Fin n → ℝ) (V : ℝ)
    (hV : ∀ p, RobustFeasible m w p → V ≤ robustObjective m p / m.scaleObjective) (ε : ℝ) (hε : 0 < ε) : ∃ P, InBall m.returns m.radius P ∧ V - ε ≤ disutility P m.cvarBeta m.riskAversion w := by
  classical
  by_cases hw : ∀ j, 0 ≤ w j
  · obtain ⟨P, h1, h2⟩ := C62_attained m hs hso hT hb hr hret w hw V hV
    exact ⟨P, h1, by linarith⟩
  push Not at hw
  obtain ⟨j0, hj0⟩ := hw
  have hE0 : 0 ≤ m.riskAversion / (1 - m.cvarBeta) := div_nonneg hr (by linarith)
  -- the largest short position
  obtain ⟨j, -, hj⟩ := Finset.exists_min_image Finset.univ w ⟨j0, Finset.mem_univ _⟩
  have hjneg : w j < 0 := (hj j0 (Finset.mem_univ _)).trans_lt hj0
  obtain ⟨lam, hlam⟩ : ∃ lam, lam = slope2 m * w j := ⟨_, rfl⟩
  have hslope : slope2 m ≤ -1 := by unfold slope2; linarith
  have hlam0 : 0 ≤ lam := by
    rw [hlam]
    nlinarith
  have hlamk : ∀ k i, pieceSlope m k * w i ≤ lam := by
    intro k i
    have h1 := hj i (Finset.mem_univ _)
    rw [hlam]
    cases k
    · simp only [pieceSlope, Bool.false_eq_true, if_false, slope1]
      nlinarith
    · simp only [pieceSlope, if_true]
      nlinarith
  obtain ⟨q, h0, h1, h2, h3, h4⟩ := moves_distribution m hs hso hT hb hr hret w V hV
  have h5 := h4 lam hlam0 hlamk
  obtain ⟨c, hc⟩ : ∃ c, c = ∑ a, q a * distance (moved m a.1 a.2, m.returns a.2) := ⟨_, rfl⟩
  rw [← hc] at h3 h5
  obtain ⟨M, hM⟩ : ∃ M, M = ∑ a : Move n T × Fin T, |lossOf w (moved m a.1 a.2)| := ⟨_, rfl⟩
  have hMa : ∀ a : Move n T × Fin T, lossOf w (moved m a.1 a.2) ≤ M := by
    intro a
    rw [hM]
    exact (le_abs_self _).trans (Finset.single_le_sum (f := fun a : Move n T × Fin T => |lossOf w (moved m a.1 a.2)|) (fun _ _ => abs_nonneg _) (Finset.mem_univ a))
  obtain ⟨C, hC⟩ : ∃ C, C = ∑ a, q a * (m.riskAversion / (1 - m.cvarBeta) * (M - lossOf w (moved m a.1 a.2))) := ⟨_, rfl⟩
  have hC0 : 0 ≤ C := hC ▸ Finset.sum_nonneg fun a _ => mul_nonneg (h0 a) (mul_nonneg hE0 (sub_nonneg.2 (hMa a)))
  obtain ⟨δ, hδ⟩ : ∃ δ, δ = min (1 - m.cvarBeta) (ε / (C + 1)) := ⟨_, rfl⟩
  have hδ0 : 0 < δ := hδ ▸ lt_min (by linarith) (div_pos hε (by linarith))
  have hδ1 : δ ≤ 1 - m.cvarBeta := hδ ▸ min_le_left _ _
  have hδC : δ * C ≤ ε := by
    have : δ ≤ ε / (C + 1) := hδ ▸ min_le_right _ _
    rw [le_div_iff₀ (by linarith)] at this
    nlinarith
  obtain ⟨R, hR⟩ : ∃ R, R = (m.radius - c) / δ := ⟨_, rfl⟩
  have hR0 : 0 ≤ R := hR ▸ div_nonneg (by linarith) hδ0.le
  have hδR : δ * R = m.radius - c := by rw [hR]; field_simp
  -- a share `δ` of the mass is moved by `R` in the direction of the largest short position
  refine ⟨atoms (fun a : Bool × (Move n T × Fin T) => (if a.1 then δ else 1 - δ) * q a.2) (fun a => moved m a.2.1 a.2.2 + if a.1 then Pi.single j R else 0), atoms_inBall m.returns m.radius _ ?_ _ (fun a => a.2.2) ?_ ?_ ?_, le_disutility m hr w _ ?_ ?_ _ _ fun tau => ?_⟩
  · intro a
    refine mul_nonneg ?_ (h0 _)
    split_ifs <;> linarith
  · intro i
    rw [Fintype.sum_prod_type, Fintype.sum_bool, ← h2 i, ← Finset.sum_add_distrib]
    refine Finset.sum_congr rfl fun a _ => ?_
    by_cases h : a.2 = i
    · simp only [h, if_true, Bool.false_eq_true, if_false]
      ring
    · simp only [h, if_false, add_zero]
  · intro a i
    have : -1 ≤ moved m a.2.1 a.2.2 i := by
      unfold moved
      split_ifs
      · exact le_rfl
      · exact hret _ _
    have h6 : 0 ≤ (if a.1 then Pi.single j R else 0 : Fin n → ℝ) i := by
      split_ifs
      · by_cases hi : i = j
        · subst hi
          simpa using hR0
        · simp [hi]
      · simp
    rw [Pi.add_apply]
    linarith
  · rw [Fintype.sum_prod_type, Fintype.sum_bool, ← Finset.sum_add_distrib]
    have : ∀ a : Move n T × Fin T, (if true = true then δ else 1 - δ) * q a * distance (moved m a.1 a.2 + (if true = true then Pi.single j R else 0), m.returns a.2) + (if false = true then δ else 1 - δ) * q a * distance (moved m a.1 a.2 + (if false = true then Pi.single j R else 0), m.returns a.2) ≤ q a * distance (moved m a.1 a.2, m.returns a.2) + q a * (δ * R) := by
      intro a
      have hd : distance (moved m a.1 a.2 + Pi.single j R, m.returns a.2) ≤ distance (moved m a.1 a.2, m.returns a.2) + R := by
        have e : R = ∑ i, (Pi.single j R : Fin n → ℝ) i := by rw [Finset.sum_pi_single']; simp
        unfold distance
        conv_rhs => rw [e]
        rw [← Finset.sum_add_distrib]
        refine Finset.sum_le_sum fun i _ => ?_
        have h6 : 0 ≤ (Pi.single j R : Fin n → ℝ) i := by
          by_cases hi : i = j
          · subst hi
            simpa using hR0
          · simp [hi]
        simp only [Pi.add_apply]
        have e2 : moved m a.1 a.2 i + (Pi.single j R : Fin n → ℝ) i - m.returns a.2 i = (moved m a.1 a.2 i - m.returns a.2 i) + (Pi.single j R : Fin n → ℝ) i := by ring
        rw [e2]
        refine (abs_add_le _ _).trans (le_of_eq ?_)
        rw [abs_of_nonneg h6]
      simp only [if_true, Bool.false_eq_true, if_false, add_zero]
      have h7 := mul_le_mul_of_nonneg_left hd (mul_nonneg hδ0.le (h0 a))
      nlinarith
    refine (Finset.sum_le_sum fun a _ => this a).trans ?_
    rw [Finset.sum_add_distrib, ← Finset.sum_mul, h1, ← hc, hδR]
    linarith
  · intro a
    refine mul_nonneg ?_ (h0 _)
    split_ifs <;> linarith
  · rw [Fintype.sum_prod_type, Fintype.sum_bool]
    simp only [if_true, Bool.false_eq_true, if_false]
    rw [← Finset.mul_sum, ← Finset.mul_sum, h1]
    ring
  · rw [Fintype.sum_prod_type, Fintype.sum_bool, ← Finset.sum_add_distrib]
    simp only [if_true, Bool.false_eq_true, if_false, add_zero]
    have hpt : ∀ a : Move n T × Fin T, q a * integrand m w (min tau M) (moved m a.1 a.2) - δ * (q a * (m.riskAversion / (1 - m.cvarBeta) * (M - lossOf w (moved m a.1 a.2)))) + q a * (lam * (m.radius - c)) ≤
        δ * q a * integrand m w tau (moved m a.1 a.2 + Pi.single j R) + (1 - δ) * q a * integrand m w tau (moved m a.1 a.2) := by
      intro a
      have h6 := far_move m hb hr w tau M δ hδ0.le hδ1 (moved m a.1 a.2) (hMa a)
      have h7 := piece_le m hb hr w tau (moved m a.1 a.2 + Pi.single j R) true
      have e : ∑ i, (moved m a.1 a.2 + Pi.single j R : Fin n → ℝ) i * w i = (∑ i, moved m a.1 a.2 i * w i) + R * w j := by
        simp only [Pi.add_apply, add_mul, Finset.sum_add_distrib]
        congr 1
        rw [Finset.sum_eq_single j (fun i _ hi => by simp [hi]) (fun h => absurd (Finset.mem_univ j) h)]
        simp
      rw [e] at h7
      simp only [pieceSlope, pieceOffset, if_true] at h7
      have h8 := mul_le_mul_of_nonneg_left h7 hδ0.le
      have h9 : δ * (slope2 m * (R * w j)) = lam * (m.radius - c) := by rw [hlam, ← hδR]; ring
      have h10 : integrand m w (min tau M) (moved m a.1 a.2) - δ * (m.riskAversion / (1 - m.cvarBeta) * (M - lossOf w (moved m a.1 a.2))) + lam * (m.radius - c) ≤ δ * integrand m w tau (moved m a.1 a.2 + Pi.single j R) + (1 - δ) * integrand m w tau (moved m a.1 a.2) := by
        linarith
      have h11 := mul_le_mul_of_nonneg_left h10 (h0 a)
      linarith
    refine le_trans ?_ (Finset.sum_le_sum fun a _ => hpt a)
    rw [Finset.sum_add_distrib, Finset.sum_sub_distrib, ← Finset.mul_sum, ← hC, ← Finset.sum_mul, h1, one_mul]
    have := h5 (min tau M)
    linarith

/-! ### C62, the optimum -/

/-- **C62.** The weights that are returned minimise the worst disutility over the ball: the optimal value is the least upper bound of the disutility of the returned weights over the ball, and for every other portfolio within the limits there are distributions in the ball
under which its disutility comes as close to that value as wanted or exceeds it. -/
theorem C62_optimal (m : Robust n T) (hs : 0 < m.scale) (hso : 0 < m.scaleObjective) (hT : 0 < T) (hb0 : 0 ≤ m.cvarBeta) (hb : m.cvarBeta < 1) (hr : 0 ≤ m.riskAversion) (hret : ∀ i j, -1 ≤ m.returns i j) (cs : List (Constraint ℝ n))
    (hcs : getWeightConstraints m.weights false true m.scale = .ok cs) (hm : isMip m.weights = false) (w : Fin n → ℝ) (p : RobustAux n T) (h : RobustOptimum m cs w p) :
    RespectsLimits m.weights w ∧ IsLUB {y | ∃ P, InBall m.returns m.radius P ∧ y = disutility P m.cvarBeta m.riskAversion w} (robustObjective m p / m.scaleObjective) ∧
      ∀ w', RespectsLimits m.weights w' → ∀ ε, 0 < ε → ∃ P, InBall m.returns m.radius P ∧ robustObjective m p / m.scaleObjective - ε ≤ disutility P m.cvarBeta m.riskAversion w' := by
  obtain ⟨⟨hc, hf⟩, hopt⟩ := h
  have hlim : ∀ w', (∀ c ∈ cs, c w' 1) ↔ RespectsLimits m.weights w' := by
    intro w'
    have := C19_weight_limits m.weights false true m.scale 1 hs one_pos w' cs hcs hm
    simpa [Holds] using this
  have hother : ∀ w', RespectsLimits m.weights w' → ∀ ε, 0 < ε → ∃ P, InBall m.returns m.radius P ∧ robustObjective m p / m.scaleObjective - ε ≤ disutility P m.cvarBeta m.riskAversion w' := by
    intro w' hw' ε hε
    exact C62_approached m hs hso hT hb0 hb hr hret w' _ (fun p' hp' => div_le_div_of_nonneg_right (hopt w' p' ((hlim w').2 hw') hp') hso.le) ε hε
  refine ⟨(hlim w).1 hc, ⟨?_, ?_⟩, hother⟩
  · rintro _ ⟨P, hP, rfl⟩
    exact C62_bound m hs hso hT hb0 hb hr hret w p hf P hP
  · intro b hb'
    by_contra hlt
    push Not at hlt
    obtain ⟨P, hP, hle⟩ := hother w ((hlim w).1 hc) ((robustObjective m p / m.scaleObjective - b) / 2) (by linarith)
    have := hb' ⟨P, hP, rfl⟩
    linarith

/-- **C62.** With radius zero the ball is the sample alone: the worst case is then the mean loss plus risk aversion times CVaR of the sample. -/
theorem C62_radius_zero (r : Fin T → Fin n → ℝ) (hret : ∀ i j, -1 ≤ r i j) (P : Measure (Fin n → ℝ)) : InBall r 0 P ↔ P = empirical r := by
  constructor
  · intro h
    obtain ⟨π, h1, h2, hd, hle⟩ := h.transport
    have h0 : ∀ x : (Fin n → ℝ) × (Fin n → ℝ), 0 ≤ distance x := fun x => Finset.sum_nonneg fun _ _ => abs_nonneg _
    have h3 : ∫ x, distance x ∂π = 0 := le_antisymm hle (integral_nonneg h0)
    rw [integral_eq_zero_iff_of_nonneg h0 hd] at h3
    rw [← h1, ← h2]
    refine Measure.map_congr ?_
    filter_upwards [h3] with x hx
    funext j
    have h4 : |x.1 j - x.2 j| ≤ distance x := Finset.single_le_sum (f := fun j => |x.1 j - x.2 j|) (fun _ _ => abs_nonneg _) (Finset.mem_univ j)
    have h5 : distance x = 0 := hx
    rw [h5] at h4
    exact sub_eq_zero.1 (abs_nonpos_iff.1 h4)
  · rintro rfl
    refine atoms_inBall r 0 _ (fun _ => by positivity) r id (fun i => by simp) hret ?_
    simp [distance]

/-! ### A concrete case -/

noncomputable def robustExample : Robust 1 1 where
  returns := fun _ _ => 0
  cvarBeta := 1 / 2
  riskAversion := 1
  radius := 1 / 10
  weights := { minWeights := some fun _ => 0, maxWeights := some fun _ => 1, maxLong := none, maxShort := none, minBudget := none, maxBudget := none, budget := some 1, cardinality := none, groupCardinalities := none, thresholdLong := none, thresholdShort := none, eqRows := [], ineqRows := [], inequality := none, mixedIntegerSolver := false }
  scale := 1
  scaleObjective := 1

def robustExampleAux : RobustAux 1 1 where
  u := fun _ _ => 0
  v := fun _ _ => 0
  lb := 3
  tau := 0
  s := fun _ => 0

/-- One asset with return zero: the optimum is to hold it, and with CVaR at 50 % and a radius of 10 % the worst disutility is 30 %. -/
theorem robustExample_optimum : ∃ cs, getWeightConstraints robustExample.weights false true robustExample.scale = .ok cs ∧ isMip robustExample.weights = false ∧ RobustOptimum robustExample cs (fun _ => 1) robustExampleAux ∧ robustObjective robustExample robustExampleAux / robustExample.scaleObjective = 3 / 10 := by
  obtain ⟨cs, hcs⟩ : ∃ cs, getWeightConstraints robustExample.weights false true robustExample.scale = .ok cs := by
    unfold getWeightConstraints
    simp [robustExample, isMip, simpleConstraints, minConstraint, longConstraint, shortConstraint, budgetConstraint, mipPart, bind, Except.bind, pure, Except.pure]
  have hlim := fun w' => C19_weight_limits robustExample.weights false true robustExample.scale 1 (by simp [robustExample]) one_pos w' cs hcs (by simp [isMip, robustExample])
  refine ⟨cs, hcs, by simp [isMip, robustExample], ⟨⟨?_, ?_⟩, ?_⟩, ?_⟩
  · refine (hlim _).2 ?_
    constructor <;> simp [robustExample]
  · constructor
    · simp [robustExampleAux]
    · simp [robustExampleAux]
    · simp [robustExample, robustExampleAux]
    · simp [robustExample, robustExampleAux]
    · intro i
      simp [robustExample, robustExampleAux, slope1]
    · intro i
      simp only [robustExample, robustExampleAux, slope2, mul_one]
      rw [pi_norm_le_iff_of_nonneg (by norm_num)]
      intro j
      norm_num
  · intro w' p' hw' hp'
    have h1 := ((hlim w').1 hw').budget 1 rfl
    simp only [div_one, Finset.univ_unique, Finset.sum_singleton] at h1
    obtain ⟨g1, g2, -⟩ := feasible_piece robustExample (by simp [robustExample]) w' p' hp' false 0
    obtain ⟨k1, k2, k3⟩ := feasible_piece robustExample (by simp [robustExample]) w' p' hp' true 0
    have g1 := g1 0
    have k1 := k1 0
    have k3 := (abs_le.1 (k3 0)).2
    have h1 : w' 0 = 1 := h1
    simp [pieceOffset, pieceSlope, pieceDual, robustExample, offset1, offset2, slope2, h1] at g1 g2 k1 k2 k3
    simp [robustObjective, robustExample, robustExampleAux]
    norm_num at g1 g2 k1 k2 k3 ⊢
    linarith
  · norm_num [robustObjective, robustExample, robustExampleAux]

end

end Skfolio.Convex
