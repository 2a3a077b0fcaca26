import Verif.Copula.ArchimedeanModel
import Verif.Copula.CopulaLemmas
import Mathlib.Analysis.SpecialFunctions.Pow.Deriv
import Mathlib.Tactic.FieldSimp
import Mathlib.Tactic.Positivity

/-! C51, Clayton. -/
set_option autoImplicit false

namespace Skfolio.Copula

open Set Real

theorem clayton_symm (θ u v : ℝ) : claytonCdf θ (u, v) = claytonCdf θ (v, u) := by
  unfold claytonCdf
  simp only [or_comm (a := u = 0)]
  split_ifs
  · rfl
  · rw [add_comm (u ^ (-θ))]

theorem rpow_neg_ge_one {θ u : ℝ} (hθ : 0 < θ) (h0 : 0 < u) (h1 : u ≤ 1) : 1 ≤ u ^ (-θ) := one_le_rpow_of_pos_of_le_one_of_nonpos h0 h1 (by linarith)

/-- The sum under the power is `v^-θ` times the base of the conditional distribution function. -/
theorem clayton_sum {θ u v : ℝ} (hv : 0 < v) : u ^ (-θ) + v ^ (-θ) - 1 = v ^ (-θ) * (1 + v ^ θ * (u ^ (-θ) - 1)) := by
  have : v ^ (-θ) * v ^ θ = 1 := by rw [← rpow_add hv]; simp
  linear_combination (1 - u ^ (-θ)) * this

theorem clayton_base_pos {θ u v : ℝ} (hθ : 0 < θ) (h0 : 0 < u) (h1 : u ≤ 1) (hv : 0 < v) : 1 ≤ 1 + v ^ θ * (u ^ (-θ) - 1) := by
  have := rpow_neg_ge_one hθ h0 h1
  have hv' : 0 < v ^ θ := rpow_pos_of_pos hv θ
  nlinarith [mul_nonneg hv'.le (sub_nonneg.2 this)]

theorem clayton_deriv_false {θ u v : ℝ} (hθ : 0 < θ) (hu : Inside u) (hv : Inside v) : HasDerivAt (fun t => claytonCdf θ (u, t)) (claytonPartial θ false (u, v)) v := by
  have hS : 0 < u ^ (-θ) + v ^ (-θ) - 1 := by
    have := rpow_neg_ge_one hθ hu.1 hu.2.le
    have := rpow_pos_of_pos hv.1 (-θ)
    linarith
  have d : HasDerivAt (fun t => (u ^ (-θ) + t ^ (-θ) - 1) ^ (-1 / θ)) ((-θ * v ^ (-θ - 1)) * (-1 / θ) * (u ^ (-θ) + v ^ (-θ) - 1) ^ (-1 / θ - 1)) v := by
    have := ((((hasDerivAt_rpow_const (p := -θ) (Or.inl hv.1.ne')).const_add (u ^ (-θ))).sub_const 1).rpow_const (p := -1 / θ) (Or.inl hS.ne'))
    exact this
  have e : claytonPartial θ false (u, v) = (-θ * v ^ (-θ - 1)) * (-1 / θ) * (u ^ (-θ) + v ^ (-θ) - 1) ^ (-1 / θ - 1) := by
    simp only [claytonPartial, marginSwap, Bool.false_eq_true, if_false]
    have hB := clayton_base_pos hθ hu.1 hu.2.le hv.1
    rw [clayton_sum hv.1, mul_rpow (rpow_pos_of_pos hv.1 _).le (by linarith), ← rpow_mul hv.1.le]
    have e1 : -θ * v ^ (-θ - 1) * (-1 / θ) = v ^ (-θ - 1) := by
      field_simp
    rw [e1, ← mul_assoc, ← rpow_add hv.1]
    have e2 : -θ - 1 + -θ * (-1 / θ - 1) = 0 := by
      field_simp
      ring
    rw [e2, rpow_zero, one_mul]
    congr 1
    field_simp
    ring
  rw [e]
  refine d.congr_of_eventuallyEq ?_
  filter_upwards [Ioo_mem_nhds hv.1 hv.2] with s hs
  simp [claytonCdf, hu.1.ne', hs.1.ne']

theorem clayton_swap (θ : ℝ) (x : ℝ × ℝ) : claytonPartial θ true x = claytonPartial θ false (x.2, x.1) := rfl

theorem clayton_partial {θ : ℝ} (hθ : 0 < θ) : IsPartial (claytonCdf θ) (claytonPartial θ) := by
  intro u v hu hv
  refine ⟨?_, clayton_deriv_false hθ hu hv⟩
  have := clayton_deriv_false hθ hv hu
  rw [clayton_swap]
  simpa only [clayton_symm θ _ v] using this

theorem clayton_inside {θ u v : ℝ} (hθ : 0 < θ) (hu : Inside u) (hv : Inside v) : Inside (claytonPartial θ false (u, v)) := by
  simp only [claytonPartial, marginSwap, Bool.false_eq_true, if_false]
  have h1 : 1 < u ^ (-θ) := one_lt_rpow_of_pos_of_lt_one_of_neg hu.1 hu.2 (by linarith)
  have hv' : 0 < v ^ θ := rpow_pos_of_pos hv.1 θ
  have hB : 1 < 1 + v ^ θ * (u ^ (-θ) - 1) := by nlinarith [mul_pos hv' (sub_pos.2 h1)]
  have hpos : (0 : ℝ) < 1 + 1 / θ := by positivity
  exact ⟨rpow_pos_of_pos (by linarith) _, rpow_lt_one_of_one_lt_of_neg hB (by linarith)⟩

theorem clayton_inverse {θ : ℝ} (hθ : 0 < θ) : IsInverse (claytonPartial θ) (claytonInverse θ) := by
  have hθ1 : θ + 1 ≠ 0 := by positivity
  have A : ∀ p v, Inside p → Inside v → Inside (claytonInverse θ false (p, v)) ∧ claytonPartial θ false (claytonInverse θ false (p, v), v) = p := by
    intro p v hp hv
    have hp1 : 1 < p ^ (-θ / (θ + 1)) := one_lt_rpow_of_pos_of_lt_one_of_neg hp.1 hp.2 (div_neg_of_neg_of_pos (by linarith) (by linarith))
    have hv' : 0 < v ^ (-θ) := rpow_pos_of_pos hv.1 _
    have hB : 1 < 1 + v ^ (-θ) * (p ^ (-θ / (θ + 1)) - 1) := by nlinarith [mul_pos hv' (sub_pos.2 hp1)]
    refine ⟨?_, ?_⟩
    · simp only [claytonInverse, marginSwap, Bool.false_eq_true, if_false]
      exact ⟨rpow_pos_of_pos (by linarith) _, rpow_lt_one_of_one_lt_of_neg hB (div_neg_of_neg_of_pos (by norm_num) hθ)⟩
    · simp only [claytonInverse, claytonPartial, marginSwap, Bool.false_eq_true, if_false]
      rw [← rpow_mul (by linarith), show -1 / θ * -θ = 1 by field_simp, rpow_one, add_sub_cancel_left, ← mul_assoc, ← rpow_add hv.1, add_neg_cancel, rpow_zero, one_mul, add_sub_cancel, ← rpow_mul hp.1.le,
        show -θ / (θ + 1) * -(1 + 1 / θ) = 1 by field_simp, rpow_one]
  have B : ∀ u v, Inside u → Inside v → Inside (claytonPartial θ false (u, v)) ∧ claytonInverse θ false (claytonPartial θ false (u, v), v) = u := by
    intro u v hu hv
    refine ⟨clayton_inside hθ hu hv, ?_⟩
    have hB := clayton_base_pos hθ hu.1 hu.2.le hv.1
    simp only [claytonInverse, claytonPartial, marginSwap, Bool.false_eq_true, if_false]
    rw [← rpow_mul (by linarith), show -(1 + 1 / θ) * (-θ / (θ + 1)) = 1 by field_simp, rpow_one, add_sub_cancel_left, ← mul_assoc, ← rpow_add hv.1, neg_add_cancel, rpow_zero, one_mul, add_sub_cancel, ← rpow_mul hu.1.le,
      show -θ * (-1 / θ) = 1 by field_simp, rpow_one]
  exact ⟨A, fun u p hu hp => A p u hp hu, B, fun u v hu hv => B v u hv hu⟩

theorem clayton_mono {θ u u' v : ℝ} (hθ : 0 < θ) (hu : Inside u) (hu' : Inside u') (hv : Inside v) (h : u ≤ u') : claytonPartial θ false (u, v) ≤ claytonPartial θ false (u', v) := by
  simp only [claytonPartial, marginSwap, Bool.false_eq_true, if_false]
  have hB := clayton_base_pos hθ hu'.1 hu'.2.le hv.1
  have hv' : 0 < v ^ θ := rpow_pos_of_pos hv.1 θ
  have : u' ^ (-θ) ≤ u ^ (-θ) := rpow_le_rpow_of_nonpos hu.1 h (by linarith)
  refine rpow_le_rpow_of_nonpos (by linarith) ?_ ?_
  · nlinarith
  · have : (0 : ℝ) < 1 + 1 / θ := by positivity
    linarith

theorem clayton_bounds {θ u v : ℝ} (hθ : 0 < θ) (hu : 0 < u) (hu1 : u ≤ 1) (hv : 0 ≤ v) : 0 ≤ claytonCdf θ (u, v) ∧ claytonCdf θ (u, v) ≤ v := by
  unfold claytonCdf
  rcases eq_or_lt_of_le hv with h | h
  · simp [← h]
  · simp only [hu.ne', h.ne', or_self, if_false]
    have h1 := rpow_neg_ge_one hθ hu hu1
    have h2 := rpow_pos_of_pos h (-θ)
    refine ⟨rpow_nonneg (by linarith) _, ?_⟩
    calc (u ^ (-θ) + v ^ (-θ) - 1) ^ (-1 / θ) ≤ (v ^ (-θ)) ^ (-1 / θ) := rpow_le_rpow_of_nonpos h2 (by linarith) (div_nonpos_of_nonpos_of_nonneg (by norm_num) hθ.le)
      _ = v := by rw [← rpow_mul h.le, show -θ * (-1 / θ) = 1 by field_simp, rpow_one]

theorem clayton_cont {θ u : ℝ} (hθ : 0 < θ) (hu : Inside u) : ContinuousOn (fun t => claytonCdf θ (u, t)) (Icc 0 1) := by
  intro t ht
  rcases eq_or_lt_of_le ht.1 with h | h
  · subst h
    have hz : claytonCdf θ (u, 0) = 0 := by simp [claytonCdf]
    have hev : ∀ᶠ s in nhdsWithin (0 : ℝ) (Icc 0 1), 0 ≤ s := by
      filter_upwards [self_mem_nhdsWithin] with s hs using hs.1
    rw [ContinuousWithinAt, hz]
    refine tendsto_of_tendsto_of_tendsto_of_le_of_le' (g := fun _ => (0 : ℝ)) (h := fun s => s) tendsto_const_nhds (Filter.tendsto_id.mono_left nhdsWithin_le_nhds) ?_ ?_
    · filter_upwards [hev] with s hs using (clayton_bounds hθ hu.1 hu.2.le hs).1
    · filter_upwards [hev] with s hs using (clayton_bounds hθ hu.1 hu.2.le hs).2
  · apply ContinuousAt.continuousWithinAt
    have hS : u ^ (-θ) + t ^ (-θ) - 1 ≠ 0 := by
      have := rpow_neg_ge_one hθ hu.1 hu.2.le
      have := rpow_pos_of_pos h (-θ)
      intro hh
      linarith
    have : ContinuousAt (fun s => (u ^ (-θ) + s ^ (-θ) - 1) ^ (-1 / θ)) t :=
      ContinuousAt.rpow_const ((continuousAt_const.add (continuousAt_rpow_const _ _ (Or.inl h.ne'))).sub continuousAt_const) (Or.inl hS)
    refine this.congr ?_
    filter_upwards [Ioi_mem_nhds h] with s hs
    simp [claytonCdf, hu.1.ne', ne_of_gt (mem_Ioi.1 hs)]

theorem clayton_copula {θ : ℝ} (hθ : 0 < θ) : IsCopula (claytonCdf θ) := by
  refine copula_of_partial _ (claytonPartial θ) (fun t _ => by simp [claytonCdf]) ?_ (clayton_partial hθ) (fun u v hu hv => ⟨(clayton_inside hθ hu hv).1.le, (clayton_inside hθ hu hv).2.le⟩)
    (fun u u' v hu hu' hv h => clayton_mono hθ hu hu' hv h) (fun u hu => clayton_cont hθ hu)
  have : ∀ t, Unit t → claytonCdf θ (1, t) = t := by
    intro t ht
    unfold claytonCdf
    rcases eq_or_lt_of_le ht.1 with h | h
    · simp [← h]
    · simp only [one_ne_zero, h.ne', or_self, if_false, one_rpow]
      rw [add_sub_cancel_left, ← rpow_mul h.le, show -θ * (-1 / θ) = 1 by field_simp, rpow_one]
  exact fun t ht => ⟨this t ht, by rw [clayton_symm]; exact this t ht⟩

theorem clayton_density_false {θ u v : ℝ} (hθ : 0 < θ) (hu : Inside u) (hv : Inside v) : HasDerivAt (fun t => claytonPartial θ false (t, v)) (exp (claytonScore θ (u, v))) u := by
  have hB := clayton_base_pos hθ hu.1 hu.2.le hv.1
  have hv' : 0 < v ^ θ := rpow_pos_of_pos hv.1 θ
  have d : HasDerivAt (fun t => (1 + v ^ θ * (t ^ (-θ) - 1)) ^ (-(1 + 1 / θ))) ((v ^ θ * (-θ * u ^ (-θ - 1))) * (-(1 + 1 / θ)) * (1 + v ^ θ * (u ^ (-θ) - 1)) ^ (-(1 + 1 / θ) - 1)) u := by
    exact (((((hasDerivAt_rpow_const (p := -θ) (Or.inl hu.1.ne')).sub_const 1).const_mul (v ^ θ)).const_add 1).rpow_const (p := -(1 + 1 / θ)) (Or.inl (by linarith)))
  have e : exp (claytonScore θ (u, v)) = (v ^ θ * (-θ * u ^ (-θ - 1))) * (-(1 + 1 / θ)) * (1 + v ^ θ * (u ^ (-θ) - 1)) ^ (-(1 + 1 / θ) - 1) := by
    have pu : exp (-θ * log u) = u ^ (-θ) := by rw [rpow_def_of_pos hu.1, mul_comm]
    have pv : exp (-θ * log v) = v ^ (-θ) := by rw [rpow_def_of_pos hv.1, mul_comm]
    have hS : 1 + ((u ^ (-θ) - 1) + (v ^ (-θ) - 1)) = v ^ (-θ) * (1 + v ^ θ * (u ^ (-θ) - 1)) := by
      rw [← clayton_sum hv.1]
      ring
    have hpos : 0 < 1 + v ^ θ * (u ^ (-θ) - 1) := by linarith
    simp only [claytonScore]
    rw [pu, pv, hS, log_mul (rpow_pos_of_pos hv.1 _).ne' hpos.ne', log_rpow hv.1]
    obtain ⟨B, hBdef⟩ : ∃ B, B = 1 + v ^ θ * (u ^ (-θ) - 1) := ⟨_, rfl⟩
    rw [← hBdef] at hpos ⊢
    rw [rpow_def_of_pos hpos, rpow_def_of_pos hv.1 θ, rpow_def_of_pos hu.1]
    have r2 : exp (log v * θ) * (-θ * exp (log u * (-θ - 1))) * -(1 + 1 / θ) = (1 + θ) * (exp (log v * θ) * exp (log u * (-θ - 1))) := by
      field_simp
      ring
    have l1 : exp (log (1 + θ)) = 1 + θ := exp_log (by linarith)
    rw [r2]
    nth_rewrite 3 [← l1]
    rw [← exp_add, ← exp_add, ← exp_add]
    congr 1
    field_simp
    ring
  rw [e]
  exact d

theorem clayton_density {θ : ℝ} (hθ : 0 < θ) : IsDensity (claytonPartial θ) (fun x => exp (claytonScore θ x)) := by
  intro u v hu hv
  refine ⟨clayton_density_false hθ hu hv, ?_⟩
  have := clayton_density_false hθ hv hu
  have e : claytonScore θ (v, u) = claytonScore θ (u, v) := by
    simp only [claytonScore]
    rw [add_comm (log v), add_comm (exp (-θ * log v) - 1)]
  simp only at this ⊢
  rw [← e]
  exact this

/-- **C51**, Clayton: for every parameter the distribution function is a copula, the conditional distribution functions are its partial derivatives and take values strictly between 0 and 1, the inverse inverts them, and the
scores are the logarithms of the density. -/
theorem C51_clayton (θ : ℝ) (hθ : 0 < θ) :
    IsCopula (claytonCdf θ) ∧ IsPartial (claytonCdf θ) (claytonPartial θ) ∧ IsInverse (claytonPartial θ) (claytonInverse θ) ∧ IsDensity (claytonPartial θ) (fun x => exp (claytonScore θ x)) :=
  ⟨clayton_copula hθ, clayton_partial hθ, clayton_inverse hθ, clayton_density hθ⟩

end Skfolio.Copula
