import Mathlib.MeasureTheory.Integral.IntervalIntegral.Periodic
import Mathlib.MeasureTheory.Measure.Lebesgue.Complex
import Mathlib.MeasureTheory.Measure.Prod
import Mathlib.Analysis.SpecialFunctions.Complex.Arg
import Mathlib.Analysis.SpecialFunctions.Trigonometric.Inverse

/-! Two independent points of the plane with the same distribution, which rotations do not change: the probability that their difference lies in a sector. -/
set_option autoImplicit false

namespace Skfolio.Copula

open MeasureTheory Set
open scoped Real ENNReal

/-- The sector `0 ≤ re z`, `0 ≤ sin φ re z + cos φ im z`. -/
def sector (φ : ℝ) : Set ℂ := {z | 0 ≤ z.re ∧ 0 ≤ Real.sin φ * z.re + Real.cos φ * z.im}

/-- The angles of the sector. -/
def sectorAngles (φ : ℝ) : Set ℝ := {θ | 0 ≤ Real.cos θ ∧ 0 ≤ Real.sin (φ + θ)}

theorem sector_closed (φ : ℝ) : IsClosed (sector φ) :=
  (isClosed_le continuous_const Complex.continuous_re).inter (isClosed_le continuous_const ((continuous_const.mul Complex.continuous_re).add (continuous_const.mul Complex.continuous_im)))

theorem sectorAngles_closed (φ : ℝ) : IsClosed (sectorAngles φ) :=
  (isClosed_le continuous_const Real.continuous_cos).inter (isClosed_le continuous_const (Real.continuous_sin.comp (continuous_const.add continuous_id)))

theorem mem_sectorAngles {φ θ : ℝ} (h1 : -(π / 2) < φ) (h2 : φ < π / 2) (hθ : θ ∈ Icc (-π) π) : θ ∈ sectorAngles φ ↔ θ ∈ Icc (-φ) (π / 2) := by
  have hp := Real.pi_pos
  constructor
  · rintro ⟨hc, hs⟩
    have a1 : θ ≤ π / 2 := by
      by_contra h
      push Not at h
      have := Real.cos_neg_of_pi_div_two_lt_of_lt h (by linarith [hθ.2])
      linarith
    have a2 : -(π / 2) ≤ θ := by
      by_contra h
      push Not at h
      have := Real.cos_neg_of_pi_div_two_lt_of_lt (x := -θ) (by linarith) (by linarith [hθ.1])
      rw [Real.cos_neg] at this
      linarith
    refine ⟨?_, a1⟩
    by_contra h
    push Not at h
    have := Real.sin_neg_of_neg_of_neg_pi_lt (x := φ + θ) (by linarith) (by linarith)
    linarith
  · rintro ⟨h3, h4⟩
    exact ⟨Real.cos_nonneg_of_neg_pi_div_two_le_of_le (by linarith) h4, Real.sin_nonneg_of_nonneg_of_le_pi (by linarith) (by linarith)⟩

theorem sector_integral {φ : ℝ} (h1 : -(π / 2) < φ) (h2 : φ < π / 2) (α : ℝ) : ∫ θ in (0 : ℝ)..2 * π, (sectorAngles φ).indicator (fun _ => (1 : ℝ)) (θ + α) = π / 2 + φ := by
  have hp := Real.pi_pos
  have hper : Function.Periodic ((sectorAngles φ).indicator fun _ => (1 : ℝ)) (2 * π) := by
    intro θ
    have : θ + 2 * π ∈ sectorAngles φ ↔ θ ∈ sectorAngles φ := by
      simp only [sectorAngles, mem_ofPred_eq, Real.cos_add_two_pi, ← add_assoc, Real.sin_add_two_pi]
    by_cases h : θ ∈ sectorAngles φ
    · rw [indicator_of_mem h, indicator_of_mem (this.2 h)]
    · rw [indicator_of_notMem h, indicator_of_notMem (fun h' => h (this.1 h'))]
  rw [intervalIntegral.integral_comp_add_right (fun θ => (sectorAngles φ).indicator (fun _ => (1 : ℝ)) θ), zero_add, add_comm (2 * π) α, hper.intervalIntegral_add_eq α (-π)]
  have e : -π + 2 * π = π := by ring
  rw [e]
  have hc : ∫ θ in (-π)..π, (sectorAngles φ).indicator (fun _ => (1 : ℝ)) θ = ∫ θ in (-π)..π, (Icc (-φ) (π / 2)).indicator (fun _ => (1 : ℝ)) θ := by
    refine intervalIntegral.integral_congr fun θ hθ => ?_
    rw [uIcc_of_le (by linarith)] at hθ
    have := mem_sectorAngles h1 h2 hθ
    by_cases h : θ ∈ sectorAngles φ
    · simp only [indicator_of_mem h, indicator_of_mem (this.1 h)]
    · simp only [indicator_of_notMem h, indicator_of_notMem (fun h' => h (this.2 h'))]
  rw [hc, intervalIntegral.integral_of_le (by linarith), integral_indicator measurableSet_Icc, Measure.restrict_restrict measurableSet_Icc]
  have hi : Icc (-φ) (π / 2) ∩ Ioc (-π) π = Icc (-φ) (π / 2) := inter_eq_left.2 fun x hx => ⟨by linarith [hx.1], by linarith [hx.2]⟩
  rw [hi]
  simp only [integral_const, MeasurableSet.univ, measureReal_restrict_apply, univ_inter, smul_eq_mul, mul_one]
  rw [Measure.real, Real.volume_Icc, ENNReal.toReal_ofReal (by linarith)]
  ring

/-- Rotating a point once around the origin, it spends a part of the way in the sector that does not depend on the point. -/
theorem sector_volume {φ : ℝ} (h1 : -(π / 2) < φ) (h2 : φ < π / 2) {w : ℂ} (hw : w ≠ 0) : ∫⁻ θ in Ioc (0 : ℝ) (2 * π), (sector φ).indicator (fun _ => (1 : ℝ≥0∞)) (Complex.exp (θ * Complex.I) * w) = ENNReal.ofReal (π / 2 + φ) := by
  have hp := Real.pi_pos
  have hiff : ∀ θ : ℝ, Complex.exp (θ * Complex.I) * w ∈ sector φ ↔ θ + w.arg ∈ sectorAngles φ := by
    intro θ
    have hr : 0 < ‖w‖ := norm_pos_iff.2 hw
    have e : Complex.exp (θ * Complex.I) * w = ‖w‖ * Complex.exp ((θ + w.arg : ℝ) * Complex.I) := by
      conv_lhs => rw [← Complex.norm_mul_exp_arg_mul_I w]
      push_cast
      rw [add_mul, Complex.exp_add]
      ring
    have hre : (Complex.exp (θ * Complex.I) * w).re = ‖w‖ * Real.cos (θ + w.arg) := by
      rw [e, Complex.re_ofReal_mul, Complex.exp_ofReal_mul_I_re]
    have him : (Complex.exp (θ * Complex.I) * w).im = ‖w‖ * Real.sin (θ + w.arg) := by
      rw [e, Complex.im_ofReal_mul, Complex.exp_ofReal_mul_I_im]
    simp only [sector, sectorAngles, mem_ofPred_eq, hre, him]
    have e2 : Real.sin φ * (‖w‖ * Real.cos (θ + w.arg)) + Real.cos φ * (‖w‖ * Real.sin (θ + w.arg)) = ‖w‖ * Real.sin (φ + (θ + w.arg)) := by
      rw [Real.sin_add φ]
      ring
    rw [e2, mul_nonneg_iff_of_pos_left hr, mul_nonneg_iff_of_pos_left hr]
  have hm : Measurable fun θ : ℝ => (sectorAngles φ).indicator (fun _ => (1 : ℝ)) (θ + w.arg) :=
    (measurable_const.indicator (sectorAngles_closed φ).measurableSet).comp (measurable_id.add_const _)
  rw [← sector_integral h1 h2 w.arg, intervalIntegral.integral_of_le (by linarith), ofReal_integral_eq_lintegral_ofReal]
  · refine lintegral_congr fun θ => ?_
    by_cases h : θ + w.arg ∈ sectorAngles φ
    · rw [indicator_of_mem h, indicator_of_mem ((hiff θ).2 h), ENNReal.ofReal_one]
    · rw [indicator_of_notMem h, indicator_of_notMem (fun h' => h ((hiff θ).1 h')), ENNReal.ofReal_zero]
  · refine Integrable.mono' (g := fun _ => (1 : ℝ)) (integrable_const _) hm.aestronglyMeasurable ?_
    refine Filter.Eventually.of_forall fun θ => ?_
    simp only [indicator]
    split_ifs <;> simp
  · refine Filter.Eventually.of_forall fun θ => ?_
    simp only [indicator]
    split_ifs <;> simp

/-- The probability that the difference of two independent points lies in the sector. -/
theorem sector_prob {φ : ℝ} (h1 : -(π / 2) < φ) (h2 : φ < π / 2) (μ : Measure ℂ) [IsProbabilityMeasure μ] [NullSingletonClass μ] (hrot : ∀ θ : ℝ, μ.map (fun z => Complex.exp (θ * Complex.I) * z) = μ) :
    (μ.prod μ) {p | p.1 - p.2 ∈ sector φ} = ENNReal.ofReal ((π / 2 + φ) / (2 * π)) := by
  have hp := Real.pi_pos
  have hS := (sector_closed φ).measurableSet
  set A : Set (ℂ × ℂ) := {p | p.1 - p.2 ∈ sector φ} with hA
  have mA : MeasurableSet A := (measurable_fst.sub measurable_snd) hS
  have step : ∀ θ : ℝ, ∫⁻ p, (sector φ).indicator (fun _ => (1 : ℝ≥0∞)) (Complex.exp (θ * Complex.I) * (p.1 - p.2)) ∂(μ.prod μ) = (μ.prod μ) A := by
    intro θ
    have hmeas : Measurable fun z : ℂ => Complex.exp (θ * Complex.I) * z := measurable_id.const_mul _
    have hmap : (μ.prod μ).map (Prod.map (fun z => Complex.exp (θ * Complex.I) * z) fun z => Complex.exp (θ * Complex.I) * z) = μ.prod μ := by
      rw [← Measure.map_prod_map μ μ hmeas hmeas, hrot]
    have hpre : Prod.map (fun z : ℂ => Complex.exp (θ * Complex.I) * z) (fun z => Complex.exp (θ * Complex.I) * z) ⁻¹' A = {p | Complex.exp (θ * Complex.I) * (p.1 - p.2) ∈ sector φ} := by
      ext p
      simp [hA, mul_sub]
    have e : (μ.prod μ) A = (μ.prod μ) {p | Complex.exp (θ * Complex.I) * (p.1 - p.2) ∈ sector φ} := by
      conv_lhs => rw [← hmap]
      rw [Measure.map_apply (hmeas.prodMap hmeas) mA, hpre]
    have m' : MeasurableSet {p : ℂ × ℂ | Complex.exp (θ * Complex.I) * (p.1 - p.2) ∈ sector φ} := ((measurable_fst.sub measurable_snd).const_mul (Complex.exp (θ * Complex.I))) hS
    rw [e, ← lintegral_indicator_one m']
    rfl
  have hdiag : ∀ᵐ p ∂(μ.prod μ), p.1 - p.2 ≠ 0 := by
    rw [Measure.ae_prod_iff_ae_ae]
    · refine Filter.Eventually.of_forall fun z => ?_
      have : ∀ᵐ w ∂μ, w ≠ z := by
        rw [ae_iff]
        simp
      filter_upwards [this] with w hw
      exact sub_ne_zero.2 (Ne.symm hw)
    · exact (measurable_fst.sub measurable_snd) (measurableSet_singleton (0 : ℂ)).compl
  have hF : Measurable fun q : ℝ × ℂ × ℂ => (sector φ).indicator (fun _ => (1 : ℝ≥0∞)) (Complex.exp (q.1 * Complex.I) * (q.2.1 - q.2.2)) := by
    refine (measurable_const.indicator hS).comp ?_
    exact (Continuous.mul (Complex.continuous_exp.comp ((Complex.continuous_ofReal.comp continuous_fst).mul continuous_const)) ((continuous_fst.comp continuous_snd).sub (continuous_snd.comp continuous_snd))).measurable
  have h3 : ∫⁻ θ in Ioc (0 : ℝ) (2 * π), ∫⁻ p, (sector φ).indicator (fun _ => (1 : ℝ≥0∞)) (Complex.exp (θ * Complex.I) * (p.1 - p.2)) ∂(μ.prod μ) =
      ∫⁻ p : ℂ × ℂ, (∫⁻ θ in Ioc (0 : ℝ) (2 * π), (sector φ).indicator (fun _ => (1 : ℝ≥0∞)) (Complex.exp (θ * Complex.I) * (p.1 - p.2))) ∂(μ.prod μ) :=
    lintegral_lintegral_swap hF.aemeasurable
  simp only [step] at h3
  have h4 : ∫⁻ p : ℂ × ℂ, (∫⁻ θ in Ioc (0 : ℝ) (2 * π), (sector φ).indicator (fun _ => (1 : ℝ≥0∞)) (Complex.exp (θ * Complex.I) * (p.1 - p.2))) ∂(μ.prod μ) = ENNReal.ofReal (π / 2 + φ) := by
    rw [lintegral_congr_ae (g := fun _ => ENNReal.ofReal (π / 2 + φ))]
    · simp
    · filter_upwards [hdiag] with p hne
      exact sector_volume h1 h2 hne
  rw [h4, setLIntegral_const, Real.volume_Ioc, sub_zero] at h3
  rw [ENNReal.ofReal_div_of_pos (by linarith), ← h3]
  exact (ENNReal.mul_div_cancel_right (ENNReal.ofReal_pos.2 (by linarith)).ne' ENNReal.ofReal_ne_top).symm

end Skfolio.Copula
