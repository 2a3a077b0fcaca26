import Verif.Copula.KendallLemmas
import Verif.Copula.ClaytonTheorems
import Verif.Copula.GumbelTheorems
import Mathlib.Analysis.SpecialFunctions.Integrals.Basic
import Mathlib.Analysis.SpecialFunctions.Log.NegMulLog

/-!
Kendall's tau of the Clayton and of the Gumbel copula.
-/
set_option autoImplicit false

namespace Skfolio.Copula

open Filter Topology MeasureTheory Set Real

/-! ### Clayton -/

/-- `-1 / φ'` for the generator `φ w = w ^ (-θ) - 1`. -/
noncomputable def claytonG (θ w : ℝ) : ℝ := w ^ (θ + 1) / θ

theorem clayton_phi_g {θ u : ℝ} (hθ : 0 < θ) (hu : 0 ≤ u) : (u ^ (-θ) - 1) * claytonG θ u = (u - u ^ (θ + 1)) / θ := by
  unfold claytonG
  rcases eq_or_lt_of_le hu with h | h
  · rw [← h, zero_rpow (by linarith : θ + 1 ≠ 0)]
    simp
  · have : u ^ (-θ) * u ^ (θ + 1) = u := by
      rw [← rpow_add h]
      simp
    field_simp
    linear_combination this

theorem clayton_lim {θ : ℝ} (hθ : 0 < θ) {l : Filter ℝ} {a : ℝ} (hl : l ≤ 𝓝 a) (ha : a = 0 ∨ a = 1) (hin : ∀ᶠ u in l, Inside u) : Tendsto (fun u => u * (u ^ (-θ) - 1) * claytonG θ u) l (𝓝 0) := by
  have hc : Continuous fun u : ℝ => u * ((u - u ^ (θ + 1)) / θ) := by
    have : Continuous fun u : ℝ => u ^ (θ + 1) := continuous_rpow_const (by linarith)
    fun_prop
  have hz : a * ((a - a ^ (θ + 1)) / θ) = 0 := by
    rcases ha with h | h <;> simp [h]
  have := (hc.tendsto a).mono_left hl
  rw [hz] at this
  refine this.congr' ?_
  filter_upwards [hin] with u hu
  rw [mul_assoc, clayton_phi_g hθ hu.1.le]

theorem clayton_generated {θ : ℝ} (hθ : 0 < θ) : Generated (claytonCdf θ) (claytonPartial θ) (fun x => exp (claytonScore θ x)) (fun w => w ^ (-θ) - 1) (claytonG θ) where
  copula := clayton_copula hθ
  partials := clayton_partial hθ
  dens := clayton_density hθ
  nonneg := fun _ _ _ _ => (exp_pos _).le
  inside := by
    intro u v hu hv
    have h := clayton_bounds hθ hu.1 hu.2.le hv.1.le
    refine ⟨?_, lt_of_le_of_lt h.2 hv.2⟩
    simp only [claytonCdf, hu.1.ne', hv.1.ne', or_self, if_false]
    have h1 := rpow_neg_ge_one hθ hu.1 hu.2.le
    have h2 := rpow_pos_of_pos hv.1 (-θ)
    exact rpow_pos_of_pos (by linarith) _
  cond := by
    intro u v hu hv
    have hB := clayton_base_pos hθ hv.1 hv.2.le hu.1
    simp only [claytonCdf, claytonPartial, claytonG, marginSwap, hu.1.ne', hv.1.ne', or_self, if_false, if_true]
    rw [add_comm (u ^ (-θ)), clayton_sum (θ := θ) (u := v) hu.1]
    obtain ⟨B, hBd⟩ : ∃ B, B = 1 + u ^ θ * (v ^ (-θ) - 1) := ⟨_, rfl⟩
    rw [← hBd] at hB ⊢
    have hB0 : 0 < B := by linarith
    have e1 : (u ^ (-θ) * B) ^ (-1 / θ) = u * B ^ (-1 / θ) := by
      rw [mul_rpow (rpow_nonneg hu.1.le _) hB0.le, ← rpow_mul hu.1.le, show -θ * (-1 / θ) = 1 by field_simp, rpow_one]
    rw [e1, mul_rpow hu.1.le (rpow_nonneg hB0.le _), ← rpow_mul hB0.le]
    have e2 : -1 / θ * (θ + 1) = -(1 + 1 / θ) := by field_simp
    rw [e2]
    have := (rpow_pos_of_pos hu.1 (θ + 1)).ne'
    field_simp
  gcont := fun u hu => (continuousAt_rpow_const u (θ + 1) (Or.inl hu.1.ne')).div_const θ
  gpos := fun u hu => div_pos (rpow_pos_of_pos hu.1 _) hθ
  gmono := fun u v hu _ h => div_le_div_of_nonneg_right (rpow_le_rpow hu.1.le h (by linarith)) hθ.le
  gzero := by
    have : Continuous fun u : ℝ => claytonG θ u := (continuous_rpow_const (by linarith : 0 ≤ θ + 1)).div_const θ
    have h0 := (this.tendsto 0).mono_left (nhdsWithin_le_nhds (s := Ioi 0))
    have e : claytonG θ 0 = 0 := by simp [claytonG, zero_rpow (by linarith : θ + 1 ≠ 0)]
    rwa [e] at h0
  deriv := by
    intro u hu
    refine ((hasDerivAt_rpow_const (p := -θ) (Or.inl hu.1.ne')).sub_const 1).congr_deriv ?_
    have e : u ^ (-θ - 1) = (u ^ (θ + 1))⁻¹ := by
      rw [← rpow_neg hu.1.le]
      congr 1
      ring
    unfold claytonG
    rw [e]
    have := (rpow_pos_of_pos hu.1 (θ + 1)).ne'
    field_simp
  phi := by
    intro u hu
    have := rpow_neg_ge_one hθ hu.1 hu.2.le
    linarith
  left := clayton_lim hθ nhdsWithin_le_nhds (Or.inl rfl) eventually_inside
  right := clayton_lim hθ nhdsWithin_le_nhds (Or.inr rfl) eventually_inside_left
  int := by
    have hc : Continuous fun u : ℝ => (u - u ^ (θ + 1)) / θ := by
      have : Continuous fun u : ℝ => u ^ (θ + 1) := continuous_rpow_const (by linarith)
      fun_prop
    refine (hc.intervalIntegrable 0 1).congr ?_
    intro u hu
    rw [uIoc_of_le zero_le_one] at hu
    exact (clayton_phi_g hθ hu.1.le).symm

/-- Kendall's tau of the Clayton copula. -/
theorem clayton_kendall {θ : ℝ} (hθ : 0 < θ) : IsKendall (claytonCdf θ) (fun x => exp (claytonScore θ x)) (θ / (θ + 2)) := by
  have := (clayton_generated hθ).kendall
  have e : ∫ u in (0 : ℝ)..1, (u ^ (-θ) - 1) * claytonG θ u = 1 / (2 * (θ + 2)) := by
    have e1 : ∫ u in (0 : ℝ)..1, (u ^ (-θ) - 1) * claytonG θ u = ∫ u in (0 : ℝ)..1, (u - u ^ (θ + 1)) / θ := by
      refine intervalIntegral.integral_congr fun u hu => ?_
      rw [uIcc_of_le zero_le_one] at hu
      exact clayton_phi_g hθ hu.1
    have hc : Continuous fun u : ℝ => u ^ (θ + 1) := continuous_rpow_const (by linarith)
    rw [e1, intervalIntegral.integral_div, intervalIntegral.integral_sub (f := fun u : ℝ => u) (continuous_id.intervalIntegrable 0 1) (hc.intervalIntegrable 0 1), integral_id, integral_rpow (Or.inl (by linarith)),
      one_rpow, zero_rpow (by linarith)]
    have h1 : θ + 1 + 1 ≠ 0 := by linarith
    have h2 : θ + 2 ≠ 0 := by linarith
    field_simp
    ring
  rw [e] at this
  have e2 : 1 - 4 * (1 / (2 * (θ + 2))) = θ / (θ + 2) := by
    have h2 : θ + 2 ≠ 0 := by linarith
    field_simp
    ring
  rwa [e2] at this

/-! ### Gumbel -/

/-- `-1 / φ'` for the generator `φ w = (-log w) ^ θ`. -/
noncomputable def gumbelG (θ w : ℝ) : ℝ := w * (-log w) ^ (1 - θ) / θ

theorem gumbel_phi_g {θ u : ℝ} (hu : Inside u) : (-log u) ^ θ * gumbelG θ u = u * -log u / θ := by
  unfold gumbelG
  have : (-log u) ^ θ * (-log u) ^ (1 - θ) = -log u := by
    rw [← rpow_add (neglog_pos hu)]
    simp
  calc (-log u) ^ θ * (u * (-log u) ^ (1 - θ) / θ) = u * ((-log u) ^ θ * (-log u) ^ (1 - θ)) / θ := by ring
    _ = _ := by rw [this]

theorem gumbel_lim {θ : ℝ} {l : Filter ℝ} {a : ℝ} (hl : l ≤ 𝓝 a) (ha : a = 0 ∨ a = 1) (hin : ∀ᶠ u in l, Inside u) : Tendsto (fun u => u * (-log u) ^ θ * gumbelG θ u) l (𝓝 0) := by
  have hc : Continuous fun u : ℝ => u * -(u * log u) / θ := by
    have := continuous_mul_log
    fun_prop
  have hz : a * -(a * log a) / θ = 0 := by
    rcases ha with h | h <;> simp [h]
  have := (hc.tendsto a).mono_left hl
  rw [hz] at this
  refine this.congr' ?_
  filter_upwards [hin] with u hu
  rw [mul_assoc, gumbel_phi_g hu]
  ring

theorem gumbel_generated {θ : ℝ} (hθ : 1 < θ) : Generated (gumbelCdf θ) (gumbelPartial θ) (gumbelDensity θ) (fun w => (-log w) ^ θ) (gumbelG θ) where
  copula := gumbel_copula hθ.le
  partials := gumbel_partial hθ.le
  dens := gumbel_isDensity hθ
  nonneg := by
    intro u v hu hv
    have ha := neglog_pos hu
    have hb := neglog_pos hv
    simp only [gumbelDensity]
    have hs : 0 ≤ ((-log u) ^ θ + (-log v) ^ θ) ^ (1 / θ) := by positivity
    have h1 : 0 ≤ ((-log u) ^ θ + (-log v) ^ θ) ^ (1 / θ) + θ - 1 := by linarith
    have := hu.1
    have := hv.1
    positivity
  inside := by
    intro u v hu hv
    have h := gumbel_bounds hθ.le hu.1 hu.2.le hv.1.le hv.2.le
    refine ⟨?_, lt_of_le_of_lt h.2 hv.2⟩
    simp only [gumbelCdf, hu.1.ne', hv.1.ne', or_self, if_false]
    exact exp_pos _
  cond := by
    intro u v hu hv
    have ha := neglog_pos hv
    have hb := neglog_pos hu
    have hθ0 : 0 < θ := by linarith
    have hR : 0 < (-log v / -log u) ^ θ + 1 := by
      have := rpow_pos_of_pos (div_pos ha hb) θ
      linarith
    simp only [gumbelCdf, gumbelPartial, gumbelG, marginSwap, hu.1.ne', hv.1.ne', or_self, if_false, if_true, log_exp, neg_neg]
    rw [add_comm ((-log u) ^ θ)]
    have e : ((-log v) ^ θ + (-log u) ^ θ) ^ (1 / θ) = -log u * ((-log v / -log u) ^ θ + 1) ^ (1 / θ) := by
      rw [gumbel_sum ha.le hb, mul_rpow (rpow_nonneg hb.le _) hR.le, ← rpow_mul hb.le, mul_one_div_cancel hθ0.ne', rpow_one]
    obtain ⟨E, hE⟩ : ∃ E, E = exp (-((-log v) ^ θ + (-log u) ^ θ) ^ (1 / θ)) := ⟨_, rfl⟩
    rw [← hE, e, mul_rpow hb.le (rpow_nonneg hR.le _), ← rpow_mul hR.le]
    have e2 : 1 / θ * (1 - θ) = 1 / θ - 1 := by field_simp
    rw [e2]
    have h1 := (rpow_pos_of_pos hb (1 - θ)).ne'
    have h2 := hu.1.ne'
    field_simp
  gcont := by
    intro u hu
    exact ((continuousAt_id.mul ((continuousAt_log hu.1.ne').neg.rpow_const (Or.inl (neglog_pos hu).ne'))).div_const θ)
  gpos := fun u hu => div_pos (mul_pos hu.1 (rpow_pos_of_pos (neglog_pos hu) _)) (by linarith)
  gmono := by
    intro u v hu hv h
    refine div_le_div_of_nonneg_right ?_ (by linarith)
    refine mul_le_mul h ?_ (rpow_nonneg (neglog_pos hu).le _) hv.1.le
    exact rpow_le_rpow_of_nonpos (neglog_pos hv) (neg_le_neg (log_le_log hu.1 h)) (by linarith)
  gzero := by
    have h2 : Inside (1 / 2 : ℝ) := ⟨by norm_num, by norm_num⟩
    have ht : Tendsto (fun u : ℝ => u * (-log (1 / 2)) ^ (1 - θ) / θ) (𝓝[>] 0) (𝓝 0) := by
      have : Continuous fun u : ℝ => u * (-log (1 / 2)) ^ (1 - θ) / θ := by fun_prop
      have := this.tendsto 0
      rw [zero_mul, zero_div] at this
      exact this.mono_left nhdsWithin_le_nhds
    refine tendsto_of_tendsto_of_tendsto_of_le_of_le' tendsto_const_nhds ht ?_ ?_
    · filter_upwards [eventually_inside] with u hu
      exact div_nonneg (mul_nonneg hu.1.le (rpow_nonneg (neglog_pos hu).le _)) (by linarith)
    · filter_upwards [eventually_inside, Ioo_mem_nhdsGT (show (0 : ℝ) < 1 / 2 by norm_num)] with u hu hu2
      refine div_le_div_of_nonneg_right (mul_le_mul_of_nonneg_left ?_ hu.1.le) (by linarith)
      exact rpow_le_rpow_of_nonpos (neglog_pos h2) (neg_le_neg (log_le_log hu.1 hu2.2.le)) (by linarith)
  deriv := by
    intro u hu
    have hb := neglog_pos hu
    refine ((hasDerivAt_neglog hu.1).rpow_const (p := θ) (Or.inl hb.ne')).congr_deriv ?_
    unfold gumbelG
    have e : (-log u) ^ (θ - 1) = ((-log u) ^ (1 - θ))⁻¹ := by
      rw [← rpow_neg hb.le]
      congr 1
      ring
    rw [e]
    have h1 := (rpow_pos_of_pos hb (1 - θ)).ne'
    have h2 := hu.1.ne'
    have h3 : θ ≠ 0 := by linarith
    field_simp
  phi := fun u hu => rpow_nonneg (neglog_pos hu).le _
  left := gumbel_lim nhdsWithin_le_nhds (Or.inl rfl) eventually_inside
  right := gumbel_lim nhdsWithin_le_nhds (Or.inr rfl) eventually_inside_left
  int := by
    have hc : Continuous fun u : ℝ => -(u * log u) / θ := by
      have := continuous_mul_log
      fun_prop
    refine (hc.intervalIntegrable 0 1).congr_ae ?_
    rw [EventuallyEq, ae_restrict_iff' measurableSet_uIoc]
    have hne : ∀ᵐ t : ℝ, t ≠ 1 := by simp [ae_iff]
    filter_upwards [hne] with u h1 hu
    rw [uIoc_of_le zero_le_one] at hu
    rw [gumbel_phi_g ⟨hu.1, lt_of_le_of_ne hu.2 h1⟩]
    ring

theorem integral_gumbel {θ : ℝ} (hθ : 1 < θ) : ∫ u in (0 : ℝ)..1, (-log u) ^ θ * gumbelG θ u = 1 / (4 * θ) := by
  have key := ftc_nonneg (F := fun u => u ^ 2 / (4 * θ) - u * (u * log u) / (2 * θ)) (f := fun u => (-log u) ^ θ * gumbelG θ u) (a := 0) (b := 1 / (4 * θ)) ?_ ?_ ?_ ?_
  · rw [sub_zero] at key; exact key.2
  · intro u hu
    have d1 := (hasDerivAt_pow 2 u).div_const (4 * θ)
    have d2 := ((hasDerivAt_id u).mul ((hasDerivAt_id u).mul (hasDerivAt_log hu.1.ne'))).div_const (2 * θ)
    refine (d1.sub d2).congr_deriv ?_
    rw [gumbel_phi_g hu]
    have := hu.1.ne'
    have h3 : θ ≠ 0 := by linarith
    simp only [id, Pi.mul_apply]
    field_simp
    ring
  · intro u hu
    rw [gumbel_phi_g hu]
    exact div_nonneg (mul_nonneg hu.1.le (neglog_pos hu).le) (by linarith)
  all_goals
    have hc : Continuous fun u : ℝ => u ^ 2 / (4 * θ) - u * (u * log u) / (2 * θ) := by
      have := continuous_mul_log
      fun_prop
  · have := (hc.tendsto 0).mono_left (nhdsWithin_le_nhds (s := Ioi 0))
    simpa using this
  · have := (hc.tendsto 1).mono_left (nhdsWithin_le_nhds (s := Iio 1))
    simpa using this

/-- Kendall's tau of the Gumbel copula. -/
theorem gumbel_kendall {θ : ℝ} (hθ : 1 < θ) : IsKendall (gumbelCdf θ) (gumbelDensity θ) (1 - 1 / θ) := by
  have := (gumbel_generated hθ).kendall
  rw [integral_gumbel hθ] at this
  have e2 : 1 - 4 * (1 / (4 * θ)) = 1 - 1 / θ := by
    have h2 : θ ≠ 0 := by linarith
    field_simp
  rwa [e2] at this

end Skfolio.Copula
