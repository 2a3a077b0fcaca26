import Verif.Copula.EllipticalModel
import Verif.Copula.EllipticalSpec
import Mathlib.Analysis.Calculus.Deriv.MeanValue
import Mathlib.Analysis.Calculus.Deriv.Inverse
import Mathlib.Topology.Order.MonotoneContinuity
import Mathlib.Analysis.SpecialFunctions.ExpDeriv
import Mathlib.Tactic.FieldSimp
import Mathlib.Tactic.Positivity
import Mathlib.Tactic.LinearCombination

/-! C51, Gaussian and Student's t. -/
set_option autoImplicit false

namespace Skfolio.Copula

open Set Real

variable {F Q f : ℝ → ℝ}

theorem IsQuantile.strictMono (h : IsQuantile F Q f) : StrictMono F := by
  apply strictMono_of_deriv_pos
  intro x
  rw [(h.density x).deriv]
  exact h.positive x

theorem IsQuantile.injective (h : IsQuantile F Q f) {x y : ℝ} (e : F x = F y) : x = y := by
  rw [← h.left x, e, h.left y]

/-- The quantile function has the reciprocal of the density as derivative. -/
theorem IsQuantile.deriv_quantile (h : IsQuantile F Q f) {u : ℝ} (hu : Inside u) : HasDerivAt Q (f (Q u))⁻¹ u := by
  have hnhds : Ioo (0 : ℝ) 1 ∈ nhds u := Ioo_mem_nhds hu.1 hu.2
  have mono : StrictMonoOn Q (Ioo 0 1) := by
    intro a ha b hb hab
    apply h.strictMono.lt_iff_lt.1
    rwa [h.right a ⟨ha.1, ha.2⟩, h.right b ⟨hb.1, hb.2⟩]
  have img : Q '' Ioo 0 1 = univ := by
    apply eq_univ_of_forall
    intro x
    exact ⟨F x, ⟨(h.inside x).1, (h.inside x).2⟩, h.left x⟩
  have cont : ContinuousAt Q u := mono.continuousAt_of_image_mem_nhds hnhds (by rw [img]; exact Filter.univ_mem)
  refine HasDerivAt.of_local_left_inverse cont (h.density (Q u)) (h.positive _).ne' ?_
  filter_upwards [hnhds] with t ht using h.right t ⟨ht.1, ht.2⟩

/-! ### Gaussian -/

theorem gaussian_inverse {ρ : ℝ} (h : IsQuantile F Q f) (hρ : ρ ^ 2 < 1) : IsInverse (gaussianPartial F Q ρ) (gaussianInverse F Q ρ) := by
  have hs : 0 < sqrt (1 - ρ ^ 2) := sqrt_pos.2 (by linarith)
  have one : ∀ p v, Inside p → Inside v → Inside (gaussianInverse F Q ρ false (p, v)) ∧ gaussianPartial F Q ρ false (gaussianInverse F Q ρ false (p, v), v) = p := by
    intro p v hp hv
    refine ⟨h.inside _, ?_⟩
    simp only [gaussianPartial, gaussianInverse, marginSwap, Bool.false_eq_true, if_false, h.left]
    rw [add_sub_cancel_right, mul_div_cancel_right₀ _ hs.ne', h.right p hp]
  have two : ∀ u v, Inside u → Inside v → Inside (gaussianPartial F Q ρ false (u, v)) ∧ gaussianInverse F Q ρ false (gaussianPartial F Q ρ false (u, v), v) = u := by
    intro u v hu hv
    refine ⟨h.inside _, ?_⟩
    simp only [gaussianPartial, gaussianInverse, marginSwap, Bool.false_eq_true, if_false, h.left]
    rw [div_mul_cancel₀ _ hs.ne', sub_add_cancel, h.right u hu]
  exact ⟨one, fun u p hu hp => one p u hp hu, two, fun u v hu hv => two v u hv hu⟩

theorem gaussian_density_false {ρ u v : ℝ} (h : IsQuantile F Q normalPdf) (hρ : ρ ^ 2 < 1) (hu : Inside u) :
    HasDerivAt (fun t => gaussianPartial F Q ρ false (t, v)) (exp (gaussianScore Q ρ (u, v))) u := by
  have ha : 0 < 1 - ρ ^ 2 := by linarith
  have hs : 0 < sqrt (1 - ρ ^ 2) := sqrt_pos.2 ha
  have d1 := ((h.deriv_quantile hu).sub_const (ρ * Q v)).div_const (sqrt (1 - ρ ^ 2))
  have d2 := HasDerivAt.comp (h := fun t => (Q t - ρ * Q v) / sqrt (1 - ρ ^ 2)) u (h.density _) d1
  refine (d2.congr_deriv ?_).congr_of_eventuallyEq (Filter.Eventually.of_forall fun t => rfl)
  simp only [gaussianScore, normalPdf]
  obtain ⟨x, hx⟩ : ∃ x, x = Q u := ⟨_, rfl⟩
  obtain ⟨y, hy⟩ : ∃ y, y = Q v := ⟨_, rfl⟩
  rw [← hx, ← hy]
  have e1 : (-1 / 2) * log (1 + -ρ ^ 2) = -log (sqrt (1 - ρ ^ 2)) := by
    rw [log_sqrt ha.le, ← sub_eq_add_neg]
    ring
  have e2 : exp (-log (sqrt (1 - ρ ^ 2))) = (sqrt (1 - ρ ^ 2))⁻¹ := by rw [exp_neg, exp_log hs]
  rw [e1, sub_eq_add_neg (-log (sqrt (1 - ρ ^ 2))), exp_add, e2]
  have e3 : exp (-(ρ * (1 / 2 * ρ * (x ^ 2 + y ^ 2) - x * y) / (1 - ρ ^ 2))) = exp (-((x - ρ * y) / sqrt (1 - ρ ^ 2)) ^ 2 / 2) * (exp (-x ^ 2 / 2))⁻¹ := by
    rw [← exp_neg, ← exp_add, div_pow, sq_sqrt ha.le]
    congr 1
    field_simp
    ring
  rw [e3]
  have hpi : sqrt (2 * π) ≠ 0 := (sqrt_pos.2 (by positivity)).ne'
  have hex := (exp_pos (-x ^ 2 / 2)).ne'
  field_simp

theorem gaussianScore_symm (Q : ℝ → ℝ) (ρ u v : ℝ) : gaussianScore Q ρ (v, u) = gaussianScore Q ρ (u, v) := by
  simp only [gaussianScore]
  rw [add_comm (Q v ^ 2), mul_comm (Q v)]

/-- **C51, Gaussian.** If `ndtr` is the distribution function of the standard normal law and `ndtri` its inverse, then `inverse_partial_derivative` inverts `partial_derivative` in both margins,
and the exponential of the score is the derivative of both conditional distribution functions. -/
theorem C51_gaussian (ndtr ndtri : ℝ → ℝ) (h : IsQuantile ndtr ndtri normalPdf) (ρ : ℝ) (hρ : ρ ^ 2 < 1) :
    IsInverse (gaussianPartial ndtr ndtri ρ) (gaussianInverse ndtr ndtri ρ) ∧ IsDensity (gaussianPartial ndtr ndtri ρ) (fun x => exp (gaussianScore ndtri ρ x)) := by
  refine ⟨gaussian_inverse h hρ, fun u v hu hv => ⟨gaussian_density_false h hρ hu, ?_⟩⟩
  have := gaussian_density_false (v := u) h hρ hv
  rw [gaussianScore_symm] at this
  exact this

/-! ### Student's t -/

variable {F' Q' : ℝ → ℝ → ℝ}

theorem student_scale {ν ρ y : ℝ} (hν : 0 < ν) (hρ : ρ ^ 2 < 1) : 0 < (1 - ρ ^ 2) * (ν + y ^ 2) / (ν + 1) := by
  have : 0 < 1 - ρ ^ 2 := by linarith
  positivity

theorem student_inverse {ν ρ : ℝ} {f g : ℝ → ℝ} (hν : 0 < ν) (h : IsQuantile (F' ν) (Q' ν) f) (h1 : IsQuantile (F' (ν + 1)) (Q' (ν + 1)) g) (hρ : ρ ^ 2 < 1) :
    IsInverse (studentPartial F' Q' ν ρ) (studentInverse F' Q' ν ρ) := by
  have comm : ∀ y : ℝ, (ν + y ^ 2) / (ν + 1) * (1 - ρ ^ 2) = (1 - ρ ^ 2) * (ν + y ^ 2) / (ν + 1) := fun y => by ring
  have one : ∀ p v, Inside p → Inside v → Inside (studentInverse F' Q' ν ρ false (p, v)) ∧ studentPartial F' Q' ν ρ false (studentInverse F' Q' ν ρ false (p, v), v) = p := by
    intro p v hp hv
    refine ⟨h.inside _, ?_⟩
    simp only [studentPartial, studentInverse, marginSwap, Bool.false_eq_true, if_false, h.left, comm]
    rw [add_sub_cancel_right, mul_div_cancel_right₀ _ (sqrt_pos.2 (student_scale hν hρ)).ne', h1.right p hp]
  have two : ∀ u v, Inside u → Inside v → Inside (studentPartial F' Q' ν ρ false (u, v)) ∧ studentInverse F' Q' ν ρ false (studentPartial F' Q' ν ρ false (u, v), v) = u := by
    intro u v hu hv
    refine ⟨h1.inside _, ?_⟩
    simp only [studentPartial, studentInverse, marginSwap, Bool.false_eq_true, if_false, h1.left, comm]
    rw [div_mul_cancel₀ _ (sqrt_pos.2 (student_scale hν hρ)).ne', sub_add_cancel, h.right u hu]
  exact ⟨one, fun u p hu hp => one p u hp hu, two, fun u v hu hv => two v u hv hu⟩

theorem student_density_false {ν ρ u v : ℝ} (hν : 0 < ν) (h : IsQuantile (F' ν) (Q' ν) (studentPdf ν)) (h1 : IsQuantile (F' (ν + 1)) (Q' (ν + 1)) (studentPdf (ν + 1))) (hρ : ρ ^ 2 < 1) (hu : Inside u) :
    HasDerivAt (fun t => studentPartial F' Q' ν ρ false (t, v)) (exp (studentScore Q' ν ρ (u, v))) u := by
  have ha : 0 < 1 - ρ ^ 2 := by linarith
  have d1 := ((h.deriv_quantile hu).sub_const (ρ * Q' ν v)).div_const (sqrt ((1 - ρ ^ 2) * (ν + Q' ν v ^ 2) / (ν + 1)))
  have d2 := HasDerivAt.comp (h := fun t => (Q' ν t - ρ * Q' ν v) / sqrt ((1 - ρ ^ 2) * (ν + Q' ν v ^ 2) / (ν + 1))) u (h1.density _) d1
  refine (d2.congr_deriv ?_).congr_of_eventuallyEq (Filter.Eventually.of_forall fun t => rfl)
  simp only [studentScore, studentPdf]
  obtain ⟨x, hx⟩ : ∃ x, x = Q' ν u := ⟨_, rfl⟩
  obtain ⟨y, hy⟩ : ∃ y, y = Q' ν v := ⟨_, rfl⟩
  rw [← hx, ← hy]
  obtain ⟨a, hadef⟩ : ∃ a, a = 1 - ρ ^ 2 := ⟨_, rfl⟩
  rw [← hadef] at ha ⊢
  have hg1 : 0 < Gamma ((ν + 1) / 2) := Gamma_pos_of_pos (by positivity)
  have hg0 : 0 < Gamma (ν / 2) := Gamma_pos_of_pos (by positivity)
  have hg2 : 0 < Gamma ((ν + 2) / 2) := Gamma_pos_of_pos (by positivity)
  have hX : 0 < 1 + x ^ 2 / ν := by positivity
  have hY : 0 < 1 + y ^ 2 / ν := by positivity
  have hquad : x ^ 2 - 2 * ρ * x * y + y ^ 2 = (x - ρ * y) ^ 2 + a * y ^ 2 := by
    rw [hadef]
    ring
  have hq0 : 0 ≤ x ^ 2 - 2 * ρ * x * y + y ^ 2 := by
    rw [hquad]
    positivity
  have hq1 : 0 ≤ (x ^ 2 - 2 * ρ * x * y + y ^ 2) / a / ν := by positivity
  have hZ : 0 < 1 + (x ^ 2 - 2 * ρ * x * y + y ^ 2) / a / ν := by linarith
  have hsc : 0 < a * (ν + y ^ 2) / (ν + 1) := by positivity
  have harg : 1 + ((x - ρ * y) / sqrt (a * (ν + y ^ 2) / (ν + 1))) ^ 2 / (ν + 1) = (1 + (x ^ 2 - 2 * ρ * x * y + y ^ 2) / a / ν) / (1 + y ^ 2 / ν) := by
    rw [div_pow, sq_sqrt hsc.le, hquad]
    field_simp
    ring
  have hroot : sqrt (a * (ν + y ^ 2) / (ν + 1)) * sqrt ((ν + 1) * π) = sqrt a * sqrt (1 + y ^ 2 / ν) * sqrt (ν * π) := by
    rw [← sqrt_mul hsc.le, ← sqrt_mul ha.le, ← sqrt_mul (by positivity)]
    congr 1
    field_simp
  rw [harg, show ν + 1 + 1 = ν + 2 by ring]
  -- the right-hand side without logarithms
  have hR : exp (log (Gamma ((ν + 2) / 2)) + log (Gamma (ν / 2)) - 2 * log (Gamma ((ν + 1) / 2)) - log a / 2 + (ν + 1) / 2 * (log (1 + x ^ 2 / ν) + log (1 + y ^ 2 / ν))
        - (ν + 2) / 2 * log (1 + (x ^ 2 - 2 * ρ * x * y + y ^ 2) / a / ν)) =
      Gamma ((ν + 2) / 2) * Gamma (ν / 2) / Gamma ((ν + 1) / 2) ^ 2 / sqrt a * ((1 + x ^ 2 / ν) ^ ((ν + 1) / 2) * (1 + y ^ 2 / ν) ^ ((ν + 1) / 2))
        / (1 + (x ^ 2 - 2 * ρ * x * y + y ^ 2) / a / ν) ^ ((ν + 2) / 2) := by
    have t1 : exp (2 * log (Gamma ((ν + 1) / 2))) = Gamma ((ν + 1) / 2) ^ 2 := by
      rw [mul_comm, ← rpow_def_of_pos hg1, rpow_ofNat]
    have t2 : exp (log a / 2) = sqrt a := by
      rw [← log_sqrt ha.le, exp_log (sqrt_pos.2 ha)]
    have t3 : exp ((ν + 1) / 2 * (log (1 + x ^ 2 / ν) + log (1 + y ^ 2 / ν))) = (1 + x ^ 2 / ν) ^ ((ν + 1) / 2) * (1 + y ^ 2 / ν) ^ ((ν + 1) / 2) := by
      rw [rpow_def_of_pos hX, rpow_def_of_pos hY, ← exp_add]
      congr 1
      ring
    have t4 : exp ((ν + 2) / 2 * log (1 + (x ^ 2 - 2 * ρ * x * y + y ^ 2) / a / ν)) = (1 + (x ^ 2 - 2 * ρ * x * y + y ^ 2) / a / ν) ^ ((ν + 2) / 2) := by
      rw [rpow_def_of_pos hZ, mul_comm]
    rw [exp_sub, exp_add, exp_sub, exp_sub, exp_add, exp_log hg2, exp_log hg0, t1, t2, t3, t4]
  rw [hR, div_rpow hZ.le hY.le]
  have p1 : (1 + y ^ 2 / ν) ^ ((ν + 1) / 2) * sqrt (1 + y ^ 2 / ν) = (1 + y ^ 2 / ν) ^ ((ν + 2) / 2) := by
    rw [sqrt_eq_rpow, ← rpow_add hY]
    congr 1
    ring
  obtain ⟨Z, hZdef⟩ : ∃ Z, Z = 1 + (x ^ 2 - 2 * ρ * x * y + y ^ 2) / a / ν := ⟨_, rfl⟩
  rw [← hZdef] at hZ ⊢
  rw [rpow_neg hZ.le, rpow_neg hX.le, rpow_neg hY.le]
  have P1 := rpow_pos_of_pos hZ ((ν + 2) / 2)
  have P2 := rpow_pos_of_pos hX ((ν + 1) / 2)
  have P3 := rpow_pos_of_pos hY ((ν + 1) / 2)
  have S1 : 0 < sqrt (a * (ν + y ^ 2) / (ν + 1)) := sqrt_pos.2 hsc
  have S2 : 0 < sqrt ((ν + 1) * π) := sqrt_pos.2 (by positivity)
  have S3 : 0 < sqrt a := sqrt_pos.2 ha
  have S4 : 0 < sqrt (1 + y ^ 2 / ν) := sqrt_pos.2 hY
  have S5 : 0 < sqrt (ν * π) := sqrt_pos.2 (by positivity)
  rw [← p1]
  generalize (Z ^ ((ν + 2) / 2)) = z at *
  generalize ((1 + x ^ 2 / ν) ^ ((ν + 1) / 2)) = X at *
  generalize ((1 + y ^ 2 / ν) ^ ((ν + 1) / 2)) = Y at *
  generalize sqrt (a * (ν + y ^ 2) / (ν + 1)) = s1 at *
  generalize sqrt ((ν + 1) * π) = s2 at *
  generalize sqrt (1 + y ^ 2 / ν) = s4 at *
  generalize sqrt (ν * π) = s5 at *
  generalize sqrt a = s3 at *
  generalize Gamma ((ν + 2) / 2) = g2 at *
  generalize Gamma ((ν + 1) / 2) = g1 at *
  generalize Gamma (ν / 2) = g0 at *
  field_simp
  linear_combination (-1 : ℝ) * hroot

theorem studentScore_symm (Q' : ℝ → ℝ → ℝ) (ν ρ u v : ℝ) : studentScore Q' ν ρ (v, u) = studentScore Q' ν ρ (u, v) := by
  simp only [studentScore]
  have : (Q' ν v) ^ 2 - 2 * ρ * Q' ν v * Q' ν u + Q' ν u ^ 2 = (Q' ν u) ^ 2 - 2 * ρ * Q' ν u * Q' ν v + Q' ν v ^ 2 := by ring
  rw [this, add_comm (log (1 + Q' ν v ^ 2 / ν))]

/-- **C51, Student's t.** If `stdtr` and `stdtrit` are the distribution functions and the quantile functions of the t distributions with ν and ν + 1 degrees of freedom, then `inverse_partial_derivative` inverts
`partial_derivative` in both margins, and the exponential of the score is the derivative of both conditional distribution functions. -/
theorem C51_student (stdtr stdtrit : ℝ → ℝ → ℝ) (ν : ℝ) (hν : 0 < ν) (h : IsQuantile (stdtr ν) (stdtrit ν) (studentPdf ν))
    (h1 : IsQuantile (stdtr (ν + 1)) (stdtrit (ν + 1)) (studentPdf (ν + 1))) (ρ : ℝ) (hρ : ρ ^ 2 < 1) :
    IsInverse (studentPartial stdtr stdtrit ν ρ) (studentInverse stdtr stdtrit ν ρ) ∧ IsDensity (studentPartial stdtr stdtrit ν ρ) (fun x => exp (studentScore stdtrit ν ρ x)) := by
  refine ⟨student_inverse hν h h1 hρ, fun u v hu hv => ⟨student_density_false hν h h1 hρ hu, ?_⟩⟩
  have := student_density_false (v := u) hν h h1 hρ hv
  rw [studentScore_symm] at this
  exact this

end Skfolio.Copula
