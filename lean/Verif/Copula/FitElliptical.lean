import Verif.Copula.FitTheorems
import Verif.Copula.KendallElliptical

/-!
The Gaussian and the Student's t copula fitted by Kendall's tau have that tau.
-/
set_option autoImplicit false

namespace Skfolio.Copula

open Real Set
open Skfolio.ModelSelection (Flt)

/-- The greatest tau that the bounds of the correlation allow. -/
noncomputable def tauHi : ℝ := 2 / π * arcsin rhoHi

theorem arcsin_clip {τ : ℝ} (h : |τ| ≤ 1) : 2 / π * arcsin (clip (-rhoHi) rhoHi (sin (π * τ / 2))) = clip (-tauHi) tauHi τ := by
  have hπ := pi_pos
  have e := arcsin_rho h
  have hm : Monotone fun x => 2 / π * arcsin x := fun x y hxy => mul_le_mul_of_nonneg_left (monotone_arcsin hxy) (by positivity)
  unfold clip tauHi
  rw [hm.map_min (a := max (sin (π * τ / 2)) (-rhoHi)), hm.map_max (a := sin (π * τ / 2)), e, arcsin_neg, mul_neg]

theorem rhoOfTau_ok {t : Flt ℝ} {ρ : ℝ} (h : rhoOfTau t = some ρ) : |ρ| ≤ rhoHi ∧ ρ ^ 2 < 1 ∧ ∃ τ, t = .fin τ ∧ (|τ| ≤ 1 → 2 / π * arcsin ρ = clip (-tauHi) tauHi τ) := by
  cases t with
  | fin τ =>
    simp only [rhoOfTau, Option.some.injEq] at h
    have hm := clip_mem (lo := -rhoHi) (hi := rhoHi) (x := sin (π * τ / 2)) (by norm_num [rhoHi])
    rw [h] at hm
    refine ⟨abs_le.2 hm, ?_, τ, rfl, fun hτ => ?_⟩
    · rw [sq_lt_one_iff_abs_lt_one]
      exact lt_of_le_of_lt (abs_le.2 hm) (by norm_num [rhoHi])
    · rw [← h]
      exact arcsin_clip hτ
  | _ => cases h

/-- **C90.** `GaussianCopula.fit`: there is one copula with the correlation fitted, and its Kendall's tau is that of the sample, or the one given, moved into the range that the bounds of the correlation allow. -/
theorem C90_gaussian (ndtr ndtri : ℝ → ℝ) (hq : IsQuantile ndtr ndtri normalPdf) (kt : Option (Flt ℝ)) (X : List (ℝ × ℝ)) (r : Option ℝ) (h : fitGaussian kt X = .ok r) :
    (∀ τ, chosenTau kt (clipped X) = .fin τ → |τ| ≤ 1 → ∃ ρ, r = some ρ ∧ |ρ| ≤ rhoHi ∧ (∃ C, IsCopula C ∧ IsPartial C (gaussianPartial ndtr ndtri ρ)) ∧
      ∀ C, IsCopula C → IsPartial C (gaussianPartial ndtr ndtri ρ) → IsKendall C (fun x => exp (gaussianScore ndtri ρ x)) (clip (-tauHi) tauHi τ)) ∧
    (kt = none → ∀ τ, IsSampleTau (clipped X) τ → chosenTau kt (clipped X) = .fin τ ∧ |τ| ≤ 1) ∧
    ((∀ τ, chosenTau kt (clipped X) ≠ .fin τ) → r = none) := by
  have e := (C90_elliptical_rho (fun _ _ => none) kt X).1 r h
  refine ⟨fun τ hτ h1 => ?_, ?_, fun hn => ?_⟩
  · rw [hτ] at e
    obtain ⟨a, b, τ', hτ', c⟩ := rhoOfTau_ok (t := .fin τ) rfl
    cases hτ'
    obtain ⟨C, hC, pC, -⟩ := C51_gaussian_copula ndtr ndtri hq _ b
    refine ⟨_, e, a, ⟨C, hC, pC⟩, fun C hC pC => ?_⟩
    rw [← c h1]
    exact C90_gaussian_tau ndtr ndtri hq _ b C hC pC
  · rintro rfl τ hτ
    exact ⟨((C90_sample_tau (clipped X)).2.1 τ).2 hτ, (C90_sample_tau (clipped X)).2.2.1 τ hτ⟩
  · rw [e]
    exact ((C90_elliptical_rho (fun _ _ => none) kt X).2.2.1 _).2 hn

/-- **C90.** `StudentTCopula.fit`: whatever positive number of degrees of freedom the minimisation finds, the copula with the correlation fitted has Kendall's tau of the sample, or the one given,
moved into the range that the bounds of the correlation allow. -/
theorem C90_student (stdtr stdtrit : ℝ → ℝ → ℝ) (minimize : Option ℝ → List (ℝ × ℝ) → Option ℝ) (kt : Option (Flt ℝ)) (X : List (ℝ × ℝ)) (ν : ℝ) (hν : 0 < ν)
    (hq : IsQuantile (stdtr ν) (stdtrit ν) (studentPdf ν)) (hq1 : IsQuantile (stdtr (ν + 1)) (stdtrit (ν + 1)) (studentPdf (ν + 1))) (r : Option ℝ) (h : fitStudent minimize kt X = .ok (ν, r)) :
    (∀ τ, chosenTau kt (clipped X) = .fin τ → |τ| ≤ 1 → ∃ ρ, r = some ρ ∧ |ρ| ≤ rhoHi ∧ (∃ C, IsCopula C ∧ IsPartial C (studentPartial stdtr stdtrit ν ρ)) ∧
      ∀ C, IsCopula C → IsPartial C (studentPartial stdtr stdtrit ν ρ) → IsKendall C (fun x => exp (studentScore stdtrit ν ρ x)) (clip (-tauHi) tauHi τ)) ∧
    (kt = none → ∀ τ, IsSampleTau (clipped X) τ → chosenTau kt (clipped X) = .fin τ ∧ |τ| ≤ 1) ∧
    ((∀ τ, chosenTau kt (clipped X) ≠ .fin τ) → r = none) := by
  have e := ((C90_elliptical_rho minimize kt X).2.1 ν r h).1
  refine ⟨fun τ hτ h1 => ?_, ?_, fun hn => ?_⟩
  · rw [hτ] at e
    obtain ⟨a, b, τ', hτ', c⟩ := rhoOfTau_ok (t := .fin τ) rfl
    cases hτ'
    obtain ⟨C, hC, pC, -⟩ := C51_student_copula stdtr stdtrit ν hν hq hq1 _ b
    refine ⟨_, e, a, ⟨C, hC, pC⟩, fun C hC pC => ?_⟩
    rw [← c h1]
    exact C90_student_tau stdtr stdtrit ν hν hq hq1 _ b C hC pC
  · rintro rfl τ hτ
    exact ⟨((C90_sample_tau (clipped X)).2.1 τ).2 hτ, (C90_sample_tau (clipped X)).2.2.1 τ hτ⟩
  · rw [e]
    exact ((C90_elliptical_rho minimize kt X).2.2.1 _).2 hn

/-! ### non-vacuity -/

theorem corner_validate : validateMargins cornerData = .ok (clipped cornerData) := by
  unfold validateMargins
  rw [if_neg (by simp [cornerData])]
  exact if_pos (by simp [cornerData]; norm_num)

/-- Data with the tau `-1/5` is fitted by a Gaussian copula of the same sign, unlike the Clayton copula. -/
example : ∃ ndtr ndtri ρ C, fitGaussian none cornerData = .ok (some ρ) ∧ IsCopula C ∧ IsPartial C (gaussianPartial ndtr ndtri ρ) ∧
    IsKendall C (fun x => exp (gaussianScore ndtri ρ x)) (-1 / 5) := by
  obtain ⟨F, Q, hq⟩ := exists_normal
  obtain ⟨r, hr⟩ : ∃ r, fitGaussian none cornerData = .ok r := ⟨_, by rw [fitGaussian, corner_validate]; rfl⟩
  obtain ⟨ρ, rfl, -, ⟨C, hC, pC⟩, hk⟩ := (C90_gaussian F Q hq none cornerData r hr).1 (-1 / 5) (by rw [corner_clipped]; exact corner_tau) (by norm_num [abs_le])
  have hT : (1 : ℝ) / 5 ≤ tauHi := by
    have hπ := pi_pos
    have h1 : π / 6 ≤ arcsin rhoHi := by
      rw [le_arcsin_iff_sin_le (by constructor <;> linarith) (by norm_num [rhoHi]), sin_pi_div_six]
      norm_num [rhoHi]
    have h2 : 2 / π * (π / 6) = 1 / 3 := by field_simp; norm_num
    have h3 := mul_le_mul_of_nonneg_left h1 (by positivity : 0 ≤ 2 / π)
    unfold tauHi
    linarith
  have := hk C hC pC
  rw [clip, max_eq_left (by linarith), min_eq_left (by linarith)] at this
  exact ⟨F, Q, ρ, C, hr, hC, pC, this⟩

/-- Student's t with one degree of freedom. -/
example : ∃ stdtr stdtrit ρ C, fitStudent (fun _ _ => some 1) none cornerData = .ok (1, some ρ) ∧ IsCopula C ∧ IsPartial C (studentPartial stdtr stdtrit 1 ρ) ∧
    IsKendall C (fun x => exp (studentScore stdtrit 1 ρ x)) (clip (-tauHi) tauHi (-1 / 5)) := by
  obtain ⟨F1, Q1, h1⟩ := exists_student_one
  obtain ⟨F2, Q2, h2⟩ := exists_student_two
  have e : (1 + 1 : ℝ) = 2 := by norm_num
  have e2 : (2 : ℝ) ≠ 1 := by norm_num
  obtain ⟨F, hF⟩ : ∃ F : ℝ → ℝ → ℝ, F = fun ν => if ν = 1 then F1 else F2 := ⟨_, rfl⟩
  obtain ⟨Q, hQ⟩ : ∃ Q : ℝ → ℝ → ℝ, Q = fun ν => if ν = 1 then Q1 else Q2 := ⟨_, rfl⟩
  have a : IsQuantile (F 1) (Q 1) (studentPdf 1) := by
    rw [hF, hQ]
    simpa using h1
  have b : IsQuantile (F (1 + 1)) (Q (1 + 1)) (studentPdf (1 + 1)) := by
    rw [e, hF, hQ]
    simpa [e2] using h2
  obtain ⟨r, hr⟩ : ∃ r, fitStudent (fun _ _ => some 1) none cornerData = .ok (1, r) := ⟨_, by rw [fitStudent, corner_validate]; rfl⟩
  obtain ⟨ρ, rfl, -, ⟨C, hC, pC⟩, hk⟩ := (C90_student F Q _ none cornerData 1 one_pos a b r hr).1 (-1 / 5) (by rw [corner_clipped]; exact corner_tau) (by norm_num [abs_le])
  exact ⟨F, Q, ρ, C, hr, hC, pC, hk C hC pC⟩

end Skfolio.Copula
