import Verif.Copula.KendallLemmas
import Verif.Copula.JoeTheorems
import Verif.Copula.Digamma
import Mathlib.Analysis.SpecialFunctions.Integrals.Basic
import Mathlib.Analysis.SpecialFunctions.Log.NegMulLog
import Mathlib.Analysis.SpecialFunctions.Log.Deriv
import Mathlib.Analysis.PSeries
import Mathlib.NumberTheory.ZetaValues
import Mathlib.Analysis.Normed.Group.FunctionSeries

/-!
Kendall's tau of the Joe copula: a series, and the formula with the digamma function.
-/
set_option autoImplicit false

namespace Skfolio.Copula

open Filter Topology MeasureTheory Set Real

/-- The generator. -/
noncomputable def joePhi (θ w : ℝ) : ℝ := -log (1 - (1 - w) ^ θ)

/-- `-1 / φ'`. -/
noncomputable def joeG (θ w : ℝ) : ℝ := (1 - (1 - w) ^ θ) / (θ * (1 - w) ^ (θ - 1))

theorem joe_phi_nonneg {θ u : ℝ} (hθ : 1 < θ) (hu : Inside u) : 0 ≤ joePhi θ u := by
  have h := joe_pow hθ.le hu
  have := log_nonpos (by linarith [h.2] : 0 ≤ 1 - (1 - u) ^ θ) (by linarith [h.1])
  unfold joePhi
  linarith

theorem joe_g_pos {θ u : ℝ} (hθ : 1 < θ) (hu : Inside u) : 0 < joeG θ u := by
  have h := joe_pow hθ.le hu
  have h2 := rpow_pos_of_pos (by linarith [hu.2] : 0 < 1 - u) (θ - 1)
  exact div_pos (by linarith [h.2]) (mul_pos (by linarith) h2)

theorem joe_phi_g_le {θ u : ℝ} (hθ : 1 < θ) (hu : Inside u) : joePhi θ u * joeG θ u ≤ (1 - u) / θ := by
  have h := joe_pow hθ.le hu
  have hs : 0 < 1 - u := by linarith [hu.2]
  have h2 := rpow_pos_of_pos hs (θ - 1)
  have hp : 0 < 1 - (1 - u) ^ θ := by linarith [h.2]
  have hl : (1 - (1 - u) ^ θ) * joePhi θ u ≤ (1 - u) ^ θ := by
    have := log_le_sub_one_of_pos (inv_pos.2 hp)
    rw [log_inv] at this
    have h3 := mul_le_mul_of_nonneg_left this hp.le
    rw [mul_sub, mul_inv_cancel₀ hp.ne'] at h3
    unfold joePhi
    linarith
  have e : (1 - u) ^ θ = (1 - u) * (1 - u) ^ (θ - 1) := by
    nth_rewrite 2 [← rpow_one (1 - u)]
    rw [← rpow_add hs]
    congr 1
    ring
  unfold joeG
  rw [mul_div_assoc', div_le_div_iff₀ (mul_pos (by linarith) h2) (by linarith)]
  have h5 : (1 - u) * (θ * (1 - u) ^ (θ - 1)) = (1 - u) ^ θ * θ := by rw [e]; ring
  rw [h5]
  exact mul_le_mul_of_nonneg_right (by linarith) (by linarith)

theorem joe_g_cont {θ u : ℝ} (hθ : 1 < θ) (hu : Inside u) : ContinuousAt (joeG θ) u := by
  have hs : 0 < 1 - u := by linarith [hu.2]
  have c1 : ContinuousAt (fun w : ℝ => 1 - w) u := by fun_prop
  have h2 := rpow_pos_of_pos hs (θ - 1)
  refine ContinuousAt.div (continuousAt_const.sub (c1.rpow_const (Or.inl hs.ne'))) (continuousAt_const.mul (c1.rpow_const (Or.inl hs.ne'))) ?_
  exact (mul_pos (by linarith : 0 < θ) h2).ne'

theorem joe_phi_deriv {θ u : ℝ} (hθ : 1 < θ) (hu : Inside u) : HasDerivAt (joePhi θ) (-1 / joeG θ u) u := by
  have h := joe_pow hθ.le hu
  have hp : 0 < 1 - (1 - u) ^ θ := by linarith [h.2]
  have d := (((hasDerivAt_joe_pow (θ := θ) hu).const_sub 1).log hp.ne').neg
  refine d.congr_deriv ?_
  unfold joeG
  have hs : 0 < 1 - u := by linarith [hu.2]
  have h2 := (rpow_pos_of_pos hs (θ - 1)).ne'
  have h3 : θ ≠ 0 := by linarith
  field_simp

theorem joe_g_mono {θ u v : ℝ} (hθ : 1 < θ) (hu : Inside u) (hv : Inside v) (h : u ≤ v) : joeG θ u ≤ joeG θ v := by
  have hsu : 0 < 1 - u := by linarith [hu.2]
  have hsv : 0 < 1 - v := by linarith [hv.2]
  have p := joe_pow hθ.le hv
  refine div_le_div₀ (by linarith [p.2]) ?_ (mul_pos (by linarith) (rpow_pos_of_pos hsv _)) ?_
  · have := rpow_le_rpow hsv.le (by linarith : 1 - v ≤ 1 - u) (by linarith : 0 ≤ θ)
    linarith
  · exact mul_le_mul_of_nonneg_left (rpow_le_rpow hsv.le (by linarith) (by linarith)) (by linarith)

theorem joe_g_zero {θ : ℝ} (hθ : 1 < θ) : Tendsto (joeG θ) (𝓝[>] 0) (𝓝 0) := by
  have c1 : ContinuousAt (fun w : ℝ => 1 - w) 0 := by fun_prop
  have c : ContinuousAt (joeG θ) 0 := by
    refine ContinuousAt.div (continuousAt_const.sub (c1.rpow_const (Or.inl (by norm_num)))) (continuousAt_const.mul (c1.rpow_const (Or.inl (by norm_num)))) ?_
    simp only [sub_zero, one_rpow, mul_one]
    linarith
  have := c.tendsto
  simp only [joeG, sub_zero, one_rpow, sub_self, zero_div] at this
  exact this.mono_left nhdsWithin_le_nhds

theorem joe_phi_g_int {θ : ℝ} (hθ : 1 < θ) : IntervalIntegrable (fun u => joePhi θ u * joeG θ u) volume 0 1 := by
  have hc : ContinuousOn (fun u => joePhi θ u * joeG θ u) (Ioo 0 1) := fun u hu => ((joe_phi_deriv hθ hu).continuousAt.mul (joe_g_cont hθ hu)).continuousWithinAt
  rw [intervalIntegrable_iff_integrableOn_Ioo_of_le zero_le_one]
  refine Integrable.of_bound (hc.aestronglyMeasurable measurableSet_Ioo) 1 ?_
  filter_upwards [ae_restrict_mem measurableSet_Ioo] with u hu
  rw [Real.norm_eq_abs, abs_of_nonneg (mul_nonneg (joe_phi_nonneg hθ hu) (joe_g_pos hθ hu).le)]
  refine (joe_phi_g_le hθ hu).trans ?_
  rw [div_le_one (by linarith)]
  linarith [hu.1]

theorem joe_generated {θ : ℝ} (hθ : 1 < θ) : Generated (joeCdf θ) (joePartial θ) (fun x => exp (joeScore θ x)) (joePhi θ) (joeG θ) where
  copula := joe_copula hθ.le
  partials := joe_partial hθ.le
  dens := (C51_joe θ hθ).2.2.2
  nonneg := fun _ _ _ _ => (exp_pos _).le
  inside := by
    intro u v hu hv
    have a := joe_pow hθ.le hu
    have b := joe_pow hθ.le hv
    have hD := joe_D_pos a b
    have hD1 : (1 - u) ^ θ + (1 - v) ^ θ - (1 - u) ^ θ * (1 - v) ^ θ < 1 := by nlinarith [a.2, b.2]
    have h1 := rpow_pos_of_pos hD (1 / θ)
    have h2 := rpow_lt_one hD.le hD1 (by positivity : 0 < 1 / θ)
    simp only [joeCdf]
    exact ⟨by linarith, by linarith⟩
  cond := by
    intro u v hu hv
    have hθ0 : 0 < θ := by linarith
    have a := joe_pow hθ.le hv
    have b := joe_pow hθ.le hu
    have hsu : 0 < 1 - u := by linarith [hu.2]
    have hD := joe_D_pos a b
    simp only [joeCdf, joePartial, joeG, marginSwap, if_true, sub_sub_cancel]
    have eb : (1 - u) ^ (θ - 1) = ((1 - u) ^ θ) ^ (1 - 1 / θ) := by
      rw [← rpow_mul hsu.le]
      congr 1
      field_simp
    rw [eb, add_comm ((1 - u) ^ θ), mul_comm ((1 - u) ^ θ)]
    obtain ⟨A, hA⟩ : ∃ A, A = (1 - v) ^ θ := ⟨_, rfl⟩
    obtain ⟨B, hB⟩ : ∃ B, B = (1 - u) ^ θ := ⟨_, rfl⟩
    rw [← hA] at a ⊢ hD
    rw [← hB] at b ⊢ hD
    rw [← rpow_mul hD.le, ← rpow_mul hD.le, one_div_mul_cancel hθ0.ne', rpow_one, show 1 / θ * (θ - 1) = 1 - 1 / θ by field_simp]
    have hW : 0 < 1 + A / B - A := by linarith [joe_W_ge a.1.le b]
    have e3 : (1 + A / B - A) ^ (1 / θ - 1) = ((1 + A / B - A) ^ (1 - 1 / θ))⁻¹ := by
      rw [← rpow_neg hW.le]
      congr 1
      ring
    rw [e3, joe_D b.1, mul_rpow b.1.le hW.le]
    have h1 := (rpow_pos_of_pos hW (1 - 1 / θ)).ne'
    have h2 := (rpow_pos_of_pos b.1 (1 - 1 / θ)).ne'
    have h4 : (1 : ℝ) - B ≠ 0 := by linarith [b.2]
    have h6 : 1 - B * (1 + A / B - A) = (1 - A) * (1 - B) := by
      rw [← joe_D b.1]
      ring
    rw [h6]
    generalize B ^ (1 - 1 / θ) = P at h2 ⊢
    generalize (1 + A / B - A) ^ (1 - 1 / θ) = Q at h1 ⊢
    field_simp
  gcont := fun u hu => joe_g_cont hθ hu
  gpos := fun u hu => joe_g_pos hθ hu
  gmono := fun u v hu hv h => joe_g_mono hθ hu hv h
  gzero := joe_g_zero hθ
  deriv := fun u hu => joe_phi_deriv hθ hu
  phi := fun u hu => joe_phi_nonneg hθ hu
  left := by
    have ht : Tendsto (fun u : ℝ => u * ((1 - u) / θ)) (𝓝[>] 0) (𝓝 0) := by
      have : Continuous fun u : ℝ => u * ((1 - u) / θ) := by fun_prop
      have := this.tendsto 0
      rw [zero_mul] at this
      exact this.mono_left nhdsWithin_le_nhds
    refine tendsto_of_tendsto_of_tendsto_of_le_of_le' tendsto_const_nhds ht ?_ ?_ <;> filter_upwards [eventually_inside] with u hu <;> rw [mul_assoc]
    · exact mul_nonneg hu.1.le (mul_nonneg (joe_phi_nonneg hθ hu) (joe_g_pos hθ hu).le)
    · exact mul_le_mul_of_nonneg_left (joe_phi_g_le hθ hu) hu.1.le
  right := by
    have ht : Tendsto (fun u : ℝ => u * ((1 - u) / θ)) (𝓝[<] 1) (𝓝 0) := by
      have : Continuous fun u : ℝ => u * ((1 - u) / θ) := by fun_prop
      have := this.tendsto 1
      rw [sub_self, zero_div, mul_zero] at this
      exact this.mono_left nhdsWithin_le_nhds
    refine tendsto_of_tendsto_of_tendsto_of_le_of_le' tendsto_const_nhds ht ?_ ?_ <;> filter_upwards [eventually_inside_left] with u hu <;> rw [mul_assoc]
    · exact mul_nonneg hu.1.le (mul_nonneg (joe_phi_nonneg hθ hu) (joe_g_pos hθ hu).le)
    · exact mul_le_mul_of_nonneg_left (joe_phi_g_le hθ hu) hu.1.le
  int := joe_phi_g_int hθ

/-! ### the integral -/

/-- A term of the series of `φ / |φ'|`, at `s = 1 - w`. -/
noncomputable def joeTerm (θ : ℝ) (k : ℕ) (s : ℝ) : ℝ := (s ^ (θ * k + 1) - s ^ (θ * (k + 1) + 1)) / ((k + 1) * θ)

theorem integral_joeTerm {θ : ℝ} (hθ : 1 < θ) (k : ℕ) : ∫ s in (0 : ℝ)..1, joeTerm θ k s = 1 / ((k + 1) * (θ * k + 2) * (θ * (k + 1) + 2)) := by
  have hθ0 : 0 < θ := by linarith
  have hk : (0 : ℝ) ≤ k := Nat.cast_nonneg k
  have p1 : 0 ≤ θ * k + 1 := by positivity
  have p2 : 0 ≤ θ * (k + 1) + 1 := by positivity
  have c1 : Continuous fun s : ℝ => s ^ (θ * k + 1) := continuous_rpow_const p1
  have c2 : Continuous fun s : ℝ => s ^ (θ * (k + 1) + 1) := continuous_rpow_const p2
  unfold joeTerm
  rw [intervalIntegral.integral_div, intervalIntegral.integral_sub (c1.intervalIntegrable 0 1) (c2.intervalIntegrable 0 1), integral_rpow (Or.inl (by linarith)), integral_rpow (Or.inl (by linarith)),
    one_rpow, one_rpow, zero_rpow (by positivity), zero_rpow (by positivity)]
  have h1 : θ * k + 1 + 1 ≠ 0 := by positivity
  have h2 : θ * (k + 1) + 1 + 1 ≠ 0 := by positivity
  have h3 : θ * k + 2 ≠ 0 := by positivity
  have h4 : θ * (k + 1) + 2 ≠ 0 := by positivity
  have h5 : (k : ℝ) + 1 ≠ 0 := by positivity
  field_simp
  ring

theorem joeTerm_nonneg {θ : ℝ} (hθ : 1 < θ) (k : ℕ) {s : ℝ} (hs : 0 < s) (hs1 : s ≤ 1) : 0 ≤ joeTerm θ k s := by
  refine div_nonneg (sub_nonneg.2 (rpow_le_rpow_of_exponent_ge hs hs1 ?_)) (by positivity)
  nlinarith

theorem joe_series {θ w : ℝ} (hθ : 1 < θ) (hw : Inside w) : HasSum (fun k => joeTerm θ k (1 - w)) (joePhi θ w * joeG θ w) := by
  have hs : 0 < 1 - w := by linarith [hw.2]
  have hp := joe_pow hθ.le hw
  have h := (hasSum_pow_div_log_of_abs_lt_one (x := (1 - w) ^ θ) (by rw [abs_of_pos hp.1]; exact hp.2)).mul_right (joeG θ w)
  have e : (fun k : ℕ => ((1 - w) ^ θ) ^ (k + 1) / ((k : ℝ) + 1) * joeG θ w) = fun k => joeTerm θ k (1 - w) := by
    funext k
    have hP : (1 - w) ^ θ = (1 - w) ^ (θ - 1) * (1 - w) := by
      nth_rewrite 3 [← rpow_one (1 - w)]
      rw [← rpow_add hs]
      congr 1
      ring
    have e1 : (1 - w) ^ (θ * k + 1) = ((1 - w) ^ θ) ^ k * (1 - w) := by rw [rpow_add hs, rpow_one, rpow_mul hs.le, rpow_natCast]
    have e2 : (1 - w) ^ (θ * (k + 1) + 1) = ((1 - w) ^ θ) ^ k * (1 - w) ^ θ * (1 - w) := by
      rw [rpow_add hs, rpow_one, mul_add, mul_one, rpow_add hs, rpow_mul hs.le, rpow_natCast]
    unfold joeTerm joeG
    rw [e1, e2, pow_succ]
    have h1 := (rpow_pos_of_pos hs (θ - 1)).ne'
    have h2 : θ ≠ 0 := by linarith
    have h3 : (k : ℝ) + 1 ≠ 0 := by positivity
    generalize ((1 - w) ^ θ) ^ k = Z
    rw [hP]
    field_simp
  rw [e] at h
  exact h

/-- A term of the series of Kendall's tau. -/
noncomputable def joeCoef (θ : ℝ) (k : ℕ) : ℝ := 1 / (((k : ℝ) + 1) * (θ * k + 2) * (θ * (k + 1) + 2))

/-- The sum of the series. -/
noncomputable def joeSum (θ : ℝ) : ℝ := ∑' k : ℕ, joeCoef θ k

theorem joeCoef_pos {θ : ℝ} (hθ : 1 ≤ θ) (k : ℕ) : 0 < joeCoef θ k := by
  unfold joeCoef
  have hk : (0 : ℝ) ≤ k := Nat.cast_nonneg k
  positivity

theorem joeCoef_le {θ : ℝ} (hθ : 1 ≤ θ) (k : ℕ) : joeCoef θ k ≤ 1 / ((k : ℝ) + 1) ^ 2 := by
  unfold joeCoef
  have hk : (0 : ℝ) ≤ k := Nat.cast_nonneg k
  refine one_div_le_one_div_of_le (by positivity) ?_
  have h1 : (k : ℝ) + 1 ≤ θ * k + 2 := by nlinarith
  have h2 : (1 : ℝ) ≤ θ * (k + 1) + 2 := by nlinarith
  have h3 : (k : ℝ) + 1 ≤ (θ * k + 2) * (θ * (k + 1) + 2) := by nlinarith
  have := mul_le_mul_of_nonneg_left h3 (by positivity : (0 : ℝ) ≤ k + 1)
  nlinarith

theorem summable_squares : Summable fun k : ℕ => 1 / ((k : ℝ) + 1) ^ 2 := by
  have := (summable_nat_add_iff 1).2 (Real.summable_one_div_nat_pow.2 (by norm_num : 1 < 2))
  simpa using this

theorem summable_joeCoef {θ : ℝ} (hθ : 1 ≤ θ) : Summable (joeCoef θ) :=
  Summable.of_nonneg_of_le (fun k => (joeCoef_pos hθ k).le) (joeCoef_le hθ) summable_squares

theorem integral_joe {θ : ℝ} (hθ : 1 < θ) : ∫ u in (0 : ℝ)..1, joePhi θ u * joeG θ u = joeSum θ := by
  have hint : ∀ k, ∫ w in Ioo (0 : ℝ) 1, joeTerm θ k (1 - w) = joeCoef θ k := by
    intro k
    rw [← integral_Ioc_eq_integral_Ioo, ← intervalIntegral.integral_of_le zero_le_one, intervalIntegral.integral_comp_sub_left (joeTerm θ k) 1, sub_self, sub_zero]
    exact integral_joeTerm hθ k
  have hcont : ∀ k, Continuous fun w => joeTerm θ k (1 - w) := by
    intro k
    have hk : (0 : ℝ) ≤ k := Nat.cast_nonneg k
    have hθ0 : 0 < θ := by linarith
    have c1 : Continuous fun s : ℝ => s ^ (θ * k + 1) := continuous_rpow_const (by positivity)
    have c2 : Continuous fun s : ℝ => s ^ (θ * (k + 1) + 1) := continuous_rpow_const (by positivity)
    have c : Continuous (joeTerm θ k) := (c1.sub c2).div_const _
    exact c.comp (continuous_const.sub continuous_id)
  have hi : ∀ k, Integrable (fun w => joeTerm θ k (1 - w)) (volume.restrict (Ioo (0 : ℝ) 1)) := fun k => ((hcont k).continuousOn.integrableOn_compact isCompact_Icc).mono_set Ioo_subset_Icc_self
  have hn : ∀ k, ∫ w in Ioo (0 : ℝ) 1, ‖joeTerm θ k (1 - w)‖ = joeCoef θ k := by
    intro k
    rw [← hint k]
    refine setIntegral_congr_fun measurableSet_Ioo fun w hw => ?_
    exact Real.norm_of_nonneg (joeTerm_nonneg hθ k (by linarith [hw.2]) (by linarith [hw.1]))
  have hs := hasSum_integral_of_summable_integral_norm hi (by simp only [hn]; exact summable_joeCoef hθ.le)
  simp only [hint] at hs
  unfold joeSum
  rw [hs.tsum_eq, intervalIntegral.integral_of_le zero_le_one, integral_Ioc_eq_integral_Ioo]
  refine setIntegral_congr_fun measurableSet_Ioo fun w hw => ?_
  exact (joe_series hθ hw).tsum_eq.symm

/-- **Kendall's tau of the Joe copula** is one minus four times the sum of `1 / ((k + 1) (θ k + 2) (θ (k + 1) + 2))`. -/
theorem joe_kendall {θ : ℝ} (hθ : 1 < θ) : IsKendall (joeCdf θ) (fun x => exp (joeScore θ x)) (1 - 4 * joeSum θ) := by
  have := (joe_generated hθ).kendall
  rwa [integral_joe hθ] at this

theorem telescope {θ : ℝ} (hθ : 1 < θ) : HasSum (fun k : ℕ => 2 * θ / ((θ * k + 2) * (θ * (k + 1) + 2))) 1 := by
  have hθ0 : 0 < θ := by linarith
  have h : Summable (fun k : ℕ => 2 * θ / ((θ * k + 2) * (θ * (k + 1) + 2))) := by
    refine Summable.of_nonneg_of_le (fun k => by positivity) (fun k => ?_) (summable_squares.mul_left 2)
    have hk : (0 : ℝ) ≤ k := Nat.cast_nonneg k
    rw [mul_one_div, div_le_div_iff₀ (by positivity) (by positivity)]
    have h1 : (k : ℝ) + 1 ≤ θ * k + 2 := by nlinarith
    have h2 : θ * ((k : ℝ) + 1) ≤ θ * (k + 1) + 2 := by linarith
    have := mul_le_mul h1 h2 (by positivity) (by positivity)
    nlinarith
  refine (h.hasSum_iff_tendsto_nat).2 ?_
  have e : ∀ n : ℕ, ∑ k ∈ Finset.range n, 2 * θ / ((θ * k + 2) * (θ * (k + 1) + 2)) = 1 - 2 / (θ * n + 2) := by
    intro n
    induction n with
    | zero => simp
    | succ n ih =>
      rw [Finset.sum_range_succ, ih]
      have hk : (0 : ℝ) ≤ n := Nat.cast_nonneg n
      have h1 : θ * (n : ℝ) + 2 ≠ 0 := by positivity
      have h2 : θ * ((n : ℝ) + 1) + 2 ≠ 0 := by positivity
      push_cast
      field_simp
      ring
  simp only [e]
  have h1 : Tendsto (fun n : ℕ => θ * (n : ℝ) + 2) atTop atTop := tendsto_atTop_add_const_right _ _ (tendsto_natCast_atTop_atTop.const_mul_atTop hθ0)
  have := (h1.const_div_atTop 2).const_sub 1
  rwa [sub_zero] at this

/-- **The formula with the digamma function**, away from two. -/
theorem joe_tau {θ : ℝ} (hθ : 1 < θ) (h2 : θ ≠ 2) : 1 + 2 / (2 - θ) * (1 - eulerMascheroniConstant - digamma (2 / θ + 1)) = 1 - 4 * joeSum θ := by
  have hθ0 : 0 < θ := by linarith
  have a := hasSum_digamma (z := 2 / θ) (by positivity)
  have b := (telescope hθ).sub a
  have c : (fun k : ℕ => 2 * θ / ((θ * k + 2) * (θ * (k + 1) + 2)) - 2 / θ / (((k : ℝ) + 1) * (k + 1 + 2 / θ))) = fun k => (2 * θ - 4) * joeCoef θ k := by
    funext k
    unfold joeCoef
    have hk : (0 : ℝ) ≤ k := Nat.cast_nonneg k
    have h1 : θ * (k : ℝ) + 2 ≠ 0 := by positivity
    have h2 : θ * ((k : ℝ) + 1) + 2 ≠ 0 := by positivity
    have h3 : (k : ℝ) + 1 ≠ 0 := by positivity
    have h4 : (k : ℝ) + 1 + 2 / θ = (θ * ((k : ℝ) + 1) + 2) / θ := by field_simp
    rw [h4]
    field_simp
    ring
  rw [c] at b
  have d := b.unique ((summable_joeCoef hθ.le).hasSum.mul_left (2 * θ - 4))
  have h3 : 2 - θ ≠ 0 := sub_ne_zero.2 h2.symm
  have e : 1 - eulerMascheroniConstant - digamma (2 / θ + 1) = (2 * θ - 4) * joeSum θ := by
    unfold joeSum
    linarith
  rw [e]
  field_simp
  ring

/-- **At two** the tau is `2 - π² / 6`. -/
theorem joe_tau_two : 1 - 4 * joeSum 2 = 2 - π ^ 2 / 6 := by
  have a : HasSum (fun k : ℕ => 1 / ((k : ℝ) + 1) ^ 2) (π ^ 2 / 6) := by
    have := (hasSum_nat_add_iff' 1).2 hasSum_zeta_two
    simpa using this
  have b := telescope (θ := 2) (by norm_num)
  have c := a.sub b
  have e : (fun k : ℕ => 1 / ((k : ℝ) + 1) ^ 2 - 2 * 2 / ((2 * (k : ℝ) + 2) * (2 * (k + 1) + 2))) = fun k => 4 * joeCoef 2 k := by
    funext k
    unfold joeCoef
    have hk : (0 : ℝ) ≤ k := Nat.cast_nonneg k
    have h1 : 2 * (k : ℝ) + 2 ≠ 0 := by positivity
    have h2 : 2 * ((k : ℝ) + 1) + 2 ≠ 0 := by positivity
    have h3 : (k : ℝ) + 1 ≠ 0 := by positivity
    field_simp
    ring
  rw [e] at c
  have d := c.unique ((summable_joeCoef (by norm_num : (1 : ℝ) ≤ 2)).hasSum.mul_left 4)
  unfold joeSum
  linarith

theorem joeSum_anti {θ η : ℝ} (hθ : 1 ≤ θ) (h : θ < η) : joeSum η < joeSum θ := by
  have hη : 1 ≤ η := hθ.trans h.le
  have hk : ∀ k, joeCoef η k ≤ joeCoef θ k := by
    intro k
    have hk : (0 : ℝ) ≤ k := Nat.cast_nonneg k
    unfold joeCoef
    refine one_div_le_one_div_of_le (by positivity) ?_
    gcongr
  refine Summable.tsum_lt_tsum (i := 0) hk ?_ (summable_joeCoef hη) (summable_joeCoef hθ)
  unfold joeCoef
  refine one_div_lt_one_div_of_lt (by norm_num; linarith) ?_
  norm_num
  exact h

theorem joeSum_continuous : ContinuousOn joeSum (Ici 1) := by
  refine continuousOn_tsum (fun k => ?_) summable_squares (fun k θ hθ => ?_)
  · unfold joeCoef
    intro θ hθ
    have hθ : (1 : ℝ) ≤ θ := hθ
    have hk : (0 : ℝ) ≤ k := Nat.cast_nonneg k
    refine ContinuousAt.continuousWithinAt (ContinuousAt.div (by fun_prop) (by fun_prop) ?_)
    positivity
  · rw [Real.norm_of_nonneg (joeCoef_pos hθ k).le]
    exact joeCoef_le hθ k

end Skfolio.Copula
