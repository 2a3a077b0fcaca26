import Verif.Copula.EllipticalTheorems
import Mathlib.Analysis.SpecialFunctions.Gaussian.GaussianIntegral
import Mathlib.MeasureTheory.Integral.IntervalIntegral.FundThmCalculus
import Mathlib.MeasureTheory.Integral.IntegralEqImproper
import Mathlib.Analysis.SpecialFunctions.Trigonometric.ArctanDeriv
import Mathlib.Analysis.SpecialFunctions.Sqrt
import Mathlib.Topology.Order.IntermediateValue

/-! The hypotheses of `C51_gaussian` and `C51_student` are met: there are a distribution function and a quantile function with the normal density, and, with closed forms, with the densities of the t distributions with one and two degrees of freedom. -/
set_option autoImplicit false

namespace Skfolio.Copula

open Set Real Filter

/-- A function with a positive derivative that goes from 0 to 1 is a distribution function with an inverse. -/
theorem exists_quantile {F f : ℝ → ℝ} (hd : ∀ x, HasDerivAt F (f x) x) (hf : ∀ x, 0 < f x) (h0 : Tendsto F atBot (nhds 0)) (h1 : Tendsto F atTop (nhds 1)) : ∃ Q, IsQuantile F Q f := by
  have mono : StrictMono F := by
    apply strictMono_of_deriv_pos
    intro x
    rw [(hd x).deriv]
    exact hf x
  have cont : Continuous F := continuous_iff_continuousAt.2 fun x => (hd x).continuousAt
  have inside : ∀ x, Inside (F x) := by
    intro x
    constructor
    · have : 0 ≤ F (x - 1) := le_of_tendsto h0 (by filter_upwards [eventually_le_atBot (x - 1)] with y hy using mono.monotone hy)
      exact lt_of_le_of_lt this (mono (by linarith))
    · have : F (x + 1) ≤ 1 := ge_of_tendsto h1 (by filter_upwards [eventually_ge_atTop (x + 1)] with y hy using mono.monotone hy)
      exact lt_of_lt_of_le (mono (by linarith)) this
  have surj : ∀ p, Inside p → ∃ x, F x = p := by
    intro p hp
    obtain ⟨a, ha⟩ := (h0.eventually (gt_mem_nhds hp.1)).exists
    obtain ⟨b, hb⟩ := (h1.eventually (lt_mem_nhds hp.2)).exists
    exact mem_range_of_exists_le_of_exists_ge cont ⟨a, ha.le⟩ ⟨b, hb.le⟩
  classical
  refine ⟨fun p => if h : Inside p then (surj p h).choose else 0, inside, hd, hf, fun p hp => ?_, fun x => ?_⟩
  · simp only [hp, dif_pos]
    exact (surj p hp).choose_spec
  · simp only [inside x, dif_pos]
    exact mono.injective (surj (F x) (inside x)).choose_spec

theorem normalPdf_eq : normalPdf = fun x => exp (-(1 / 2) * x ^ 2) / sqrt (2 * π) := by
  funext x
  unfold normalPdf
  congr 2
  ring

/-- The normal distribution function. -/
theorem exists_normal : ∃ ndtr ndtri, IsQuantile ndtr ndtri normalPdf := by
  have cont : Continuous normalPdf := by
    rw [normalPdf_eq]
    exact (Real.continuous_exp.comp (continuous_const.mul (continuous_pow 2))).div_const _
  have hint : MeasureTheory.Integrable normalPdf := by
    rw [normalPdf_eq]
    exact (integrable_exp_neg_mul_sq (by norm_num)).div_const _
  have hs : 0 < sqrt (2 * π) := sqrt_pos.2 (by positivity)
  have half : ∫ x in Ioi (0 : ℝ), normalPdf x = 1 / 2 := by
    rw [normalPdf_eq, MeasureTheory.integral_div, integral_gaussian_Ioi, show π / (1 / 2) = 2 * π by ring]
    field_simp
  have half' : ∫ x in Iic (0 : ℝ), normalPdf x = 1 / 2 := by
    have e := integral_comp_neg_Iic (0 : ℝ) normalPdf
    have even : (fun x => normalPdf (-x)) = normalPdf := by
      funext x
      simp [normalPdf]
    rw [even, neg_zero] at e
    rw [e, half]
  refine (exists_quantile (F := fun x => 1 / 2 + ∫ t in (0 : ℝ)..x, normalPdf t) (f := normalPdf) ?_ ?_ ?_ ?_).elim fun Q hQ => ⟨_, Q, hQ⟩
  · intro x
    exact (intervalIntegral.integral_hasDerivAt_right (cont.intervalIntegrable _ _) (cont.stronglyMeasurableAtFilter _ _) cont.continuousAt).const_add _
  · intro x
    exact div_pos (exp_pos _) hs
  · have := MeasureTheory.intervalIntegral_tendsto_integral_Iic (0 : ℝ) hint.integrableOn tendsto_id
    rw [half'] at this
    have h2 := (this.neg).const_add (1 / 2 : ℝ)
    rw [add_neg_cancel] at h2
    refine h2.congr fun x => ?_
    rw [intervalIntegral.integral_symm, neg_neg]
    rfl
  · have := MeasureTheory.intervalIntegral_tendsto_integral_Ioi (0 : ℝ) hint.integrableOn tendsto_id
    rw [half] at this
    have h2 := this.const_add (1 / 2 : ℝ)
    norm_num at h2
    refine h2.congr fun x => ?_
    norm_num

theorem studentPdf_one (x : ℝ) : studentPdf 1 x = 1 / (π * (1 + x ^ 2)) := by
  unfold studentPdf
  have h1 : (1 + 1 : ℝ) / 2 = 1 := by norm_num
  have hpi : sqrt π * sqrt π = π := mul_self_sqrt pi_pos.le
  rw [h1, Gamma_one, Gamma_one_half_eq, one_mul, hpi, rpow_neg (by positivity), rpow_one, div_one]
  field_simp

theorem exists_student_one : ∃ F Q, IsQuantile F Q (studentPdf 1) := by
  refine (exists_quantile (F := fun x => 1 / 2 + arctan x / π) (f := studentPdf 1) ?_ ?_ ?_ ?_).elim fun Q hQ => ⟨_, Q, hQ⟩
  · intro x
    refine (((hasDerivAt_arctan x).div_const π).const_add (1 / 2)).congr_deriv ?_
    rw [studentPdf_one]
    field_simp
  · intro x
    rw [studentPdf_one]
    positivity
  · have := ((tendsto_nhds_of_tendsto_nhdsWithin tendsto_arctan_atBot).div_const π).const_add (1 / 2)
    have e : 1 / 2 + -(π / 2) / π = 0 := by
      field_simp
      ring
    rwa [e] at this
  · have := ((tendsto_nhds_of_tendsto_nhdsWithin tendsto_arctan_atTop).div_const π).const_add (1 / 2)
    have e : 1 / 2 + π / 2 / π = 1 := by
      field_simp
      ring
    rwa [e] at this

theorem studentPdf_two (x : ℝ) : studentPdf 2 x = 1 / ((2 + x ^ 2) * sqrt (2 + x ^ 2)) := by
  unfold studentPdf
  have h1 : (2 + 1 : ℝ) / 2 = 1 / 2 + 1 := by norm_num
  have h2 : (2 : ℝ) / 2 = 1 := by norm_num
  have hy : 0 < 1 + x ^ 2 / 2 := by positivity
  rw [h1, h2, Gamma_one, Gamma_add_one (by norm_num), Gamma_one_half_eq, rpow_neg hy.le, rpow_add hy, rpow_one, ← sqrt_eq_rpow, sqrt_mul (by norm_num)]
  have e : sqrt (2 + x ^ 2) = sqrt 2 * sqrt (1 + x ^ 2 / 2) := by
    rw [← sqrt_mul (by norm_num)]
    congr 1
    ring
  have hp := sqrt_pos.2 pi_pos
  have h3 := sqrt_pos.2 hy
  have h4 : 0 < sqrt 2 := by positivity
  rw [e]
  field_simp

theorem exists_student_two : ∃ F Q, IsQuantile F Q (studentPdf 2) := by
  have pos : ∀ x : ℝ, 0 < 2 + x ^ 2 := fun x => by positivity
  have hlim : Tendsto (fun x : ℝ => x / (2 * sqrt (2 + x ^ 2))) atTop (nhds (1 / 2)) := by
    have h0 : Tendsto (fun x : ℝ => sqrt (2 * (x ^ 2)⁻¹ + 1)) atTop (nhds (sqrt (2 * 0 + 1))) := by
      refine (continuous_sqrt.tendsto _).comp ?_
      exact ((tendsto_inv_atTop_zero.comp (tendsto_pow_atTop (by norm_num : (2 : ℕ) ≠ 0))).const_mul 2).add_const 1
    have h1 := (h0.inv₀ (by norm_num)).const_mul (1 / 2 : ℝ)
    have e : (1 / 2 : ℝ) * (sqrt (2 * 0 + 1))⁻¹ = 1 / 2 := by norm_num
    rw [e] at h1
    refine h1.congr' ?_
    filter_upwards [eventually_gt_atTop 0] with x hx
    have e2 : sqrt (2 + x ^ 2) = x * sqrt (2 * (x ^ 2)⁻¹ + 1) := by
      have : 2 + x ^ 2 = x ^ 2 * (2 * (x ^ 2)⁻¹ + 1) := by field_simp
      rw [this, sqrt_mul (by positivity), sqrt_sq hx.le]
    rw [e2]
    have : 0 < sqrt (2 * (x ^ 2)⁻¹ + 1) := sqrt_pos.2 (by positivity)
    field_simp
  refine (exists_quantile (F := fun x => 1 / 2 + x / (2 * sqrt (2 + x ^ 2))) (f := studentPdf 2) ?_ ?_ ?_ ?_).elim fun Q hQ => ⟨_, Q, hQ⟩
  · intro x
    have hs := sqrt_pos.2 (pos x)
    have d0 : HasDerivAt (fun x : ℝ => 2 + x ^ 2) (2 * x) x := by
      have := (hasDerivAt_pow 2 x).const_add 2
      exact this.congr_deriv (by simp)
    have d1 := (d0.sqrt (pos x).ne').const_mul 2
    have d2 := ((hasDerivAt_id x).div d1 (mul_pos two_pos hs).ne').const_add (1 / 2)
    refine d2.congr_deriv ?_
    rw [studentPdf_two]
    have sq := sq_sqrt (pos x).le
    obtain ⟨s, hsdef⟩ : ∃ s, s = sqrt (2 + x ^ 2) := ⟨_, rfl⟩
    rw [← hsdef] at hs sq ⊢
    simp only [id_eq]
    rw [← sq]
    field_simp
    linear_combination sq
  · intro x
    rw [studentPdf_two]
    have := pos x
    positivity
  · have := (hlim.comp tendsto_neg_atBot_atTop).neg.const_add (1 / 2 : ℝ)
    norm_num at this
    refine this.congr fun x => ?_
    simp [neg_div]
  · have := hlim.const_add (1 / 2 : ℝ)
    norm_num at this
    refine this.congr fun x => ?_
    simp

/-- The Gaussian theorem applies to the true normal law, with correlation -1/2. -/
example : ∃ ndtr ndtri, IsQuantile ndtr ndtri normalPdf ∧ IsInverse (gaussianPartial ndtr ndtri (-1 / 2)) (gaussianInverse ndtr ndtri (-1 / 2)) := by
  obtain ⟨F, Q, h⟩ := exists_normal
  exact ⟨F, Q, h, (C51_gaussian F Q h (-1 / 2) (by norm_num)).1⟩

/-- The t theorem applies to the true t laws with one and two degrees of freedom. -/
example : ∃ stdtr stdtrit, IsQuantile (stdtr 1) (stdtrit 1) (studentPdf 1) ∧ IsQuantile (stdtr (1 + 1)) (stdtrit (1 + 1)) (studentPdf (1 + 1)) ∧
    IsInverse (studentPartial stdtr stdtrit 1 (1 / 2)) (studentInverse stdtr stdtrit 1 (1 / 2)) := by
  obtain ⟨F1, Q1, h1⟩ := exists_student_one
  obtain ⟨F2, Q2, h2⟩ := exists_student_two
  have e : (1 + 1 : ℝ) = 2 := by norm_num
  have e2 : (2 : ℝ) ≠ 1 := by norm_num
  obtain ⟨F, hF⟩ : ∃ F : ℝ → ℝ → ℝ, F = fun ν => if ν = 1 then F1 else F2 := ⟨_, rfl⟩
  obtain ⟨Q, hQ⟩ : ∃ Q : ℝ → ℝ → ℝ, Q = fun ν => if ν = 1 then Q1 else Q2 := ⟨_, rfl⟩
  have a : IsQuantile (F 1) (Q 1) (studentPdf 1) := by
    rw [hF, hQ]
    simpa using h1
  have b : IsQuantile (F (1 + 1)) (Q (1 + 1)) (studentPdf (1 + 1)) := by
    rw [e, hF, hQ]
    simpa [e2] using h2
  exact ⟨F, Q, a, b, (C51_student F Q 1 one_pos a b (1 / 2) (by norm_num)).1⟩

end Skfolio.Copula
