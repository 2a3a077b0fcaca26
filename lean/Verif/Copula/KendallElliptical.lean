import Verif.Copula.ExistsCopula
import Verif.Copula.KendallSpec
import Verif.Copula.Sector
import Mathlib.MeasureTheory.Function.Jacobian
import Mathlib.MeasureTheory.Measure.WithDensity
import Mathlib.MeasureTheory.Measure.Haar.InnerProductSpace
import Mathlib.Analysis.Complex.Isometry

/-!
Kendall's tau of the Gaussian and of the Student's t copula is `(2 / π) arcsin ρ`.
-/
set_option autoImplicit false

namespace Skfolio.Copula

open Filter Topology MeasureTheory Set
open scoped Real ENNReal

variable {h : Bool → ℝ × ℝ → ℝ} {c : ℝ × ℝ → ℝ} {F Q f : ℝ → ℝ} {g : ℝ → ℝ} {ρ σ : ℝ}

/-! ### the density integrates to one -/

theorem Conditionals.total (H : Conditionals h c) {u : ℝ} (hu : Inside u) : IntegrableOn (fun t => c (u, t)) (Ioc 0 1) ∧ ∫ t in (0 : ℝ)..1, c (u, t) = 1 := by
  obtain ⟨G, hG⟩ : ∃ G : ℝ → ℝ, G = fun t => if t ≤ 0 then 0 else if 1 ≤ t then 1 else h true (u, t) := ⟨_, rfl⟩
  have hG0 : G 0 = 0 := by rw [hG]; simp
  have hG1 : G 1 = 1 := by rw [hG]; simp
  have hGp : ∀ t, Inside t → G t = h true (u, t) := by intro t ht; rw [hG]; simp [not_le.2 ht.1, not_le.2 ht.2]
  have hev : ∀ t, Inside t → G =ᶠ[𝓝 t] fun t => h true (u, t) := by
    intro t ht
    filter_upwards [isOpen_inside.mem_nhds ht] with x hx
    exact hGp x hx
  have hd : ∀ t ∈ Ioo (0 : ℝ) 1, HasDerivAt G (c (u, t)) t := fun t ht => ((H.dens u t hu ht).2).congr_of_eventuallyEq (hev t ht)
  have hcont : ContinuousOn G (Icc 0 1) := by
    intro t ht
    rcases eq_or_lt_of_le ht.1 with h0 | h0
    · subst h0
      have h1 : ContinuousWithinAt G (Ioi 0) 0 := by
        rw [ContinuousWithinAt, hG0]
        refine (H.zero_true u hu).congr' ?_
        filter_upwards [eventually_inside] with x hx
        exact (hGp x hx).symm
      have h2 : ContinuousWithinAt G (Ici 0) 0 := by
        rw [← continuousWithinAt_Ioi_iff_Ici]; exact h1
      exact h2.mono Icc_subset_Ici_self
    · rcases eq_or_lt_of_le ht.2 with h1 | h1
      · subst h1
        have h1 : ContinuousWithinAt G (Iio 1) 1 := by
          rw [ContinuousWithinAt, hG1]
          refine (H.one_true u hu).congr' ?_
          filter_upwards [eventually_inside_left] with x hx
          exact (hGp x hx).symm
        have h2 : ContinuousWithinAt G (Iic 1) 1 := by
          rw [← continuousWithinAt_Iio_iff_Iic]; exact h1
        exact h2.mono Icc_subset_Iic_self
      · exact (hd t ⟨h0, h1⟩).continuousAt.continuousWithinAt
  have hi : IntegrableOn (fun t => c (u, t)) (Ioc 0 1) := intervalIntegral.integrableOn_deriv_of_nonneg hcont hd fun t ht => H.nonneg u t hu ht
  refine ⟨hi, ?_⟩
  rw [intervalIntegral.integral_eq_sub_of_hasDerivAt_of_le zero_le_one hcont hd ((intervalIntegrable_iff_integrableOn_Ioc_of_le zero_le_one).2 hi), hG0, hG1, sub_zero]

theorem Conditionals.lintegral_total (H : Conditionals h c) {u : ℝ} (hu : Inside u) : ∫⁻ t in Ioo (0 : ℝ) 1, ENNReal.ofReal (c (u, t)) = 1 := by
  obtain ⟨hi, he⟩ := H.total hu
  rw [intervalIntegral.integral_of_le zero_le_one, integral_Ioc_eq_integral_Ioo] at he
  rw [← ofReal_integral_eq_lintegral_ofReal (hi.mono_set Ioo_subset_Ioc_self), he, ENNReal.ofReal_one]
  filter_upwards [ae_restrict_mem measurableSet_Ioo] with t ht
  exact H.nonneg u t hu ht

/-! ### substitution -/

theorem IsQuantile.mono (hq : IsQuantile F Q f) : StrictMono F := strictMono_of_hasDerivAt_pos hq.density hq.positive

theorem IsQuantile.lintegral_subst (hq : IsQuantile F Q f) (k : ℝ) {m : ℝ} (hm : 0 < m) (K : ℝ → ℝ≥0∞) :
    ∫⁻ v in Ioo (0 : ℝ) 1, K v = ∫⁻ b, ENNReal.ofReal (m * f (k + m * b)) * K (F (k + m * b)) := by
  have himg : (fun b => F (k + m * b)) '' univ = Ioo 0 1 := by
    ext v
    constructor
    · rintro ⟨b, -, rfl⟩
      exact hq.inside _
    · intro hv
      refine ⟨(Q v - k) / m, mem_univ _, ?_⟩
      have : k + m * ((Q v - k) / m) = Q v := by field_simp; ring
      simp only [this]
      exact hq.right v hv
  have hd : ∀ b ∈ univ, HasDerivWithinAt (fun b => F (k + m * b)) (m * f (k + m * b)) univ b := by
    intro b _
    have h1 : HasDerivAt (fun b : ℝ => k + m * b) m b := by simpa using ((hasDerivAt_id b).const_mul m).const_add k
    have := (hq.density (k + m * b)).comp b h1
    rw [mul_comm] at this
    exact this.hasDerivWithinAt
  have hinj : InjOn (fun b => F (k + m * b)) univ := by
    intro b _ b' _ e
    have := hq.mono.injective e
    have h2 : m * b = m * b' := by linarith
    exact mul_left_cancel₀ hm.ne' h2
  rw [← himg, lintegral_image_eq_lintegral_abs_deriv_mul MeasurableSet.univ hd hinj, setLIntegral_univ]
  refine lintegral_congr fun b => ?_
  rw [abs_of_pos (mul_pos hm (hq.positive _))]

theorem lintegral_square (hq : IsQuantile F Q f) (hσ : 0 < σ) (hid : ∀ a b, f a * (σ * f (ρ * a + σ * b)) * c (F a, F (ρ * a + σ * b)) = g (a ^ 2 + b ^ 2)) (G : ℝ × ℝ → ℝ≥0∞) :
    ∫⁻ u in Ioo (0 : ℝ) 1, ∫⁻ v in Ioo (0 : ℝ) 1, G (u, v) * ENNReal.ofReal (c (u, v)) = ∫⁻ a, ∫⁻ b, G (F a, F (ρ * a + σ * b)) * ENNReal.ofReal (g (a ^ 2 + b ^ 2)) := by
  rw [hq.lintegral_subst 0 one_pos]
  refine lintegral_congr fun a => ?_
  rw [zero_add, one_mul, one_mul, hq.lintegral_subst (ρ * a) hσ, ← lintegral_const_mul' _ _ ENNReal.ofReal_ne_top]
  refine lintegral_congr fun b => ?_
  rw [← hid a b, ENNReal.ofReal_mul (mul_nonneg (hq.positive _).le (mul_nonneg hσ.le (hq.positive _).le)), ENNReal.ofReal_mul (hq.positive _).le]
  ring

/-! ### the distribution on the plane -/

/-- The distribution with the density `g (‖z‖ ^ 2)`. -/
noncomputable def spherical (g : ℝ → ℝ) : Measure ℂ := volume.withDensity fun z => ENNReal.ofReal (g (z.re ^ 2 + z.im ^ 2))

theorem spherical_density (hg : Measurable g) : Measurable fun z : ℂ => ENNReal.ofReal (g (z.re ^ 2 + z.im ^ 2)) :=
  (hg.comp ((Complex.measurable_re.pow_const 2).add (Complex.measurable_im.pow_const 2))).ennreal_ofReal

theorem spherical_rotate (hg : Measurable g) (θ : ℝ) : (spherical g).map (fun z => Complex.exp (θ * Complex.I) * z) = spherical g := by
  have hmeas : Measurable fun z : ℂ => Complex.exp (θ * Complex.I) * z := measurable_id.const_mul _
  have hp : MeasurePreserving (fun z : ℂ => Complex.exp (θ * Complex.I) * z) volume volume := by
    have := (rotation (Circle.exp θ)).measurePreserving
    have e : (rotation (Circle.exp θ) : ℂ → ℂ) = fun z => Complex.exp (θ * Complex.I) * z := by
      funext z
      rw [rotation_apply, Circle.coe_exp]
    rwa [e] at this
  have hn : ∀ z : ℂ, (Complex.exp (θ * Complex.I) * z).re ^ 2 + (Complex.exp (θ * Complex.I) * z).im ^ 2 = z.re ^ 2 + z.im ^ 2 := by
    intro z
    have : ∀ w : ℂ, w.re ^ 2 + w.im ^ 2 = Complex.normSq w := fun w => by rw [Complex.normSq_apply]; ring
    rw [this, this, Complex.normSq_mul, Complex.normSq_eq_norm_sq (Complex.exp _), Complex.norm_exp_ofReal_mul_I]
    simp
  ext s hs
  rw [Measure.map_apply hmeas hs, spherical, withDensity_apply _ (hmeas hs), withDensity_apply _ hs, ← lintegral_indicator (hmeas hs), ← lintegral_indicator hs,
    ← hp.lintegral_comp ((spherical_density hg).indicator hs)]
  refine lintegral_congr fun z => ?_
  by_cases hz : Complex.exp (θ * Complex.I) * z ∈ s
  · rw [indicator_of_mem hz, indicator_of_mem (show z ∈ (fun z : ℂ => Complex.exp (θ * Complex.I) * z) ⁻¹' s from hz), hn]
  · rw [indicator_of_notMem hz, indicator_of_notMem (show z ∉ (fun z : ℂ => Complex.exp (θ * Complex.I) * z) ⁻¹' s from hz)]

theorem lintegral_plane (hq : IsQuantile F Q f) (hg : Measurable g) {G : ℝ × ℝ → ℝ≥0∞} (hG : Measurable G) :
    ∫⁻ a, ∫⁻ b, G (F a, F (ρ * a + σ * b)) * ENNReal.ofReal (g (a ^ 2 + b ^ 2)) = ∫⁻ z, G (F z.re, F (ρ * z.re + σ * z.im)) ∂(spherical g) := by
  have hF : Measurable F := (continuous_iff_continuousAt.2 fun x => (hq.density x).continuousAt).measurable
  have m1 : Measurable fun p : ℝ × ℝ => G (F p.1, F (ρ * p.1 + σ * p.2)) :=
    hG.comp ((hF.comp measurable_fst).prodMk (hF.comp ((measurable_fst.const_mul ρ).add (measurable_snd.const_mul σ))))
  have m2 : Measurable fun p : ℝ × ℝ => ENNReal.ofReal (g (p.1 ^ 2 + p.2 ^ 2)) := (hg.comp ((measurable_fst.pow_const 2).add (measurable_snd.pow_const 2))).ennreal_ofReal
  have m3 : Measurable fun z : ℂ => G (F z.re, F (ρ * z.re + σ * z.im)) :=
    hG.comp ((hF.comp Complex.measurable_re).prodMk (hF.comp ((Complex.measurable_re.const_mul ρ).add (Complex.measurable_im.const_mul σ))))
  rw [lintegral_lintegral (f := fun a b => G (F a, F (ρ * a + σ * b)) * ENNReal.ofReal (g (a ^ 2 + b ^ 2))) (m1.mul m2).aemeasurable]
  rw [spherical, lintegral_withDensity_eq_lintegral_mul _ (spherical_density hg) m3]
  have := Complex.volume_preserving_equiv_real_prod.lintegral_comp (m1.mul m2)
  rw [← Measure.volume_eq_prod]
  refine Eq.trans this.symm (lintegral_congr fun z => ?_)
  simp only [Pi.mul_apply, Complex.measurableEquivRealProd_apply]
  rw [mul_comm]

theorem spherical_prob (H : Conditionals h c) (hq : IsQuantile F Q f) (hσ : 0 < σ) (hg : Measurable g)
    (hid : ∀ a b, f a * (σ * f (ρ * a + σ * b)) * c (F a, F (ρ * a + σ * b)) = g (a ^ 2 + b ^ 2)) : IsProbabilityMeasure (spherical g) := by
  constructor
  have e := (lintegral_square hq hσ hid fun _ => 1).trans (lintegral_plane (ρ := ρ) (σ := σ) hq hg measurable_const)
  simp only [one_mul, lintegral_one] at e
  rw [← e, setLIntegral_congr_fun measurableSet_Ioo (g := fun _ => 1) fun u hu => H.lintegral_total hu]
  simp

/-- The distribution function on the square. -/
noncomputable def squareCdf (F : ℝ → ℝ) (g : ℝ → ℝ) (ρ σ : ℝ) (x : ℝ × ℝ) : ℝ≥0∞ := spherical g {z | F z.re ≤ x.1 ∧ F (ρ * z.re + σ * z.im) ≤ x.2}

theorem measurable_squareCdf [IsProbabilityMeasure (spherical g)] (hF : Measurable F) : Measurable (squareCdf F g ρ σ) := by
  have hs : MeasurableSet {p : (ℝ × ℝ) × ℂ | F p.2.re ≤ p.1.1 ∧ F (ρ * p.2.re + σ * p.2.im) ≤ p.1.2} := by
    have r : Measurable fun p : (ℝ × ℝ) × ℂ => p.2.re := Complex.measurable_re.comp measurable_snd
    have i : Measurable fun p : (ℝ × ℝ) × ℂ => p.2.im := Complex.measurable_im.comp measurable_snd
    exact (measurableSet_le (hF.comp r) (measurable_fst.comp measurable_fst)).inter
      (measurableSet_le (hF.comp ((r.const_mul ρ).add (i.const_mul σ))) (measurable_snd.comp measurable_fst))
  exact measurable_measure_prodMk_left hs

theorem Conditionals.lintegral_true (H : Conditionals h c) {u v : ℝ} (hu : Inside u) (hv : Inside v) :
    ∫⁻ t in Ioo (0 : ℝ) 1, (Iic v).indicator (fun _ => (1 : ℝ≥0∞)) t * ENNReal.ofReal (c (u, t)) = ENNReal.ofReal (h true (u, v)) := by
  have e : ∀ t, (Iic v).indicator (fun _ => (1 : ℝ≥0∞)) t * ENNReal.ofReal (c (u, t)) = (Iic v).indicator (fun t => ENNReal.ofReal (c (u, t))) t := by
    intro t
    by_cases ht : t ∈ Iic v
    · rw [indicator_of_mem ht, indicator_of_mem ht, one_mul]
    · rw [indicator_of_notMem ht, indicator_of_notMem ht, zero_mul]
  have hs : Iic v ∩ Ioo 0 1 = Ioc 0 v := by
    ext t
    exact ⟨fun ht => ⟨ht.2.1, ht.1⟩, fun ht => ⟨ht.2, ht.1, lt_of_le_of_lt ht.2 hv.2⟩⟩
  simp only [e]
  rw [lintegral_indicator measurableSet_Iic, Measure.restrict_restrict measurableSet_Iic, hs, H.true_eq_integral hu hv, intervalIntegral.integral_of_le hv.1.le,
    ofReal_integral_eq_lintegral_ofReal ((H.total hu).1.mono_set (Ioc_subset_Ioc_right hv.2.le))]
  filter_upwards [ae_restrict_mem measurableSet_Ioc] with t ht
  exact H.nonneg u t hu ⟨ht.1, lt_of_le_of_lt ht.2 hv.2⟩

theorem squareCdf_eq (H : Conditionals h c) (hq : IsQuantile F Q f) (hσ : 0 < σ) (hg : Measurable g)
    (hid : ∀ a b, f a * (σ * f (ρ * a + σ * b)) * c (F a, F (ρ * a + σ * b)) = g (a ^ 2 + b ^ 2)) {u v : ℝ} (hu : Inside u) (hv : Inside v) :
    squareCdf F g ρ σ (u, v) = ENNReal.ofReal (integralCopula h (u, v)) := by
  have hF : Measurable F := (continuous_iff_continuousAt.2 fun x => (hq.density x).continuousAt).measurable
  obtain ⟨G, hG⟩ : ∃ G : ℝ × ℝ → ℝ≥0∞, G = fun x => (Iic u).indicator (fun _ => 1) x.1 * (Iic v).indicator (fun _ => 1) x.2 := ⟨_, rfl⟩
  have mG : Measurable G := by
    rw [hG]
    exact ((measurable_const.indicator measurableSet_Iic).comp measurable_fst).mul ((measurable_const.indicator measurableSet_Iic).comp measurable_snd)
  have e := (lintegral_square hq hσ hid G).trans (lintegral_plane hq hg mG)
  have r : ∫⁻ z, G (F z.re, F (ρ * z.re + σ * z.im)) ∂(spherical g) = squareCdf F g ρ σ (u, v) := by
    have ms : MeasurableSet {z : ℂ | F z.re ≤ u ∧ F (ρ * z.re + σ * z.im) ≤ v} :=
      (measurableSet_le (hF.comp Complex.measurable_re) measurable_const).inter
        (measurableSet_le (hF.comp ((Complex.measurable_re.const_mul ρ).add (Complex.measurable_im.const_mul σ))) measurable_const)
    unfold squareCdf
    rw [← lintegral_indicator_one ms]
    refine lintegral_congr fun z => ?_
    rw [hG]
    by_cases h1 : F z.re ≤ u <;> by_cases h2 : F (ρ * z.re + σ * z.im) ≤ v <;> simp [indicator, h1, h2]
  have l : ∫⁻ s in Ioo (0 : ℝ) 1, ∫⁻ t in Ioo (0 : ℝ) 1, G (s, t) * ENNReal.ofReal (c (s, t)) = ENNReal.ofReal (integralCopula h (u, v)) := by
    have inner : ∀ s ∈ Ioo (0 : ℝ) 1, ∫⁻ t in Ioo (0 : ℝ) 1, G (s, t) * ENNReal.ofReal (c (s, t)) = (Iic u).indicator (fun s => ENNReal.ofReal (h true (s, v))) s := by
      intro s hs
      by_cases hsu : s ∈ Iic u
      · rw [indicator_of_mem hsu, ← H.lintegral_true hs hv]
        refine lintegral_congr fun t => ?_
        simp only [hG, indicator_of_mem hsu, one_mul]
      · rw [indicator_of_notMem hsu]
        have : ∀ t, G (s, t) * ENNReal.ofReal (c (s, t)) = 0 := by
          intro t
          simp only [hG, indicator_of_notMem hsu, zero_mul]
        simp only [this, lintegral_zero]
    have hs : Iic u ∩ Ioo 0 1 = Ioc 0 u := by
      ext t
      exact ⟨fun ht => ⟨ht.2.1, ht.1⟩, fun ht => ⟨ht.2, ht.1, lt_of_le_of_lt ht.2 hu.2⟩⟩
    have e0 : integralCopula h (u, v) = ∫ t in (0 : ℝ)..v, h false (u, t) := intervalIntegral.integral_congr fun s _ => extended_inside hu s
    rw [setLIntegral_congr_fun measurableSet_Ioo inner, lintegral_indicator measurableSet_Iic, Measure.restrict_restrict measurableSet_Iic, hs, e0, H.corner hu hv,
      intervalIntegral.integral_of_le hu.1.le, ofReal_integral_eq_lintegral_ofReal ((intervalIntegrable_iff_integrableOn_Ioc_of_le hu.1.le).1 (H.int_true hv (le_refl 0) hu.1.le hu.2.le))]
    filter_upwards [ae_restrict_mem measurableSet_Ioc] with t ht
    exact (H.inside true t v ⟨ht.1, lt_of_le_of_lt ht.2 hu.2⟩ hv).1.le
  rw [← r, ← e, l]

/-! ### Kendall's tau -/

theorem lintegral_copula (H : Conditionals h c) (hq : IsQuantile F Q f) {φ : ℝ} (h1 : -(π / 2) < φ) (h2 : φ < π / 2) (hg : Measurable g)
    (hid : ∀ a b, f a * (Real.cos φ * f (Real.sin φ * a + Real.cos φ * b)) * c (F a, F (Real.sin φ * a + Real.cos φ * b)) = g (a ^ 2 + b ^ 2)) :
    ∫⁻ u in Ioo (0 : ℝ) 1, ∫⁻ v in Ioo (0 : ℝ) 1, squareCdf F g (Real.sin φ) (Real.cos φ) (u, v) * ENNReal.ofReal (c (u, v)) = ENNReal.ofReal ((π / 2 + φ) / (2 * π)) := by
  have hσ : 0 < Real.cos φ := Real.cos_pos_of_mem_Ioo ⟨h1, h2⟩
  have hF : Measurable F := (continuous_iff_continuousAt.2 fun x => (hq.density x).continuousAt).measurable
  haveI := spherical_prob H hq hσ hg hid
  haveI : NullSingletonClass (spherical g) := by unfold spherical; infer_instance
  have ms : MeasurableSet {p : ℂ × ℂ | p.1 - p.2 ∈ sector φ} := (measurable_fst.sub measurable_snd) (sector_closed φ).measurableSet
  rw [lintegral_square hq hσ hid, lintegral_plane hq hg (measurable_squareCdf hF), ← sector_prob h1 h2 (spherical g) (spherical_rotate hg), Measure.prod_apply ms]
  refine lintegral_congr fun z => ?_
  unfold squareCdf
  congr 1
  ext w
  simp only [mem_ofPred_eq, mem_preimage, sector, hq.mono.le_iff_le, Complex.sub_re, Complex.sub_im]
  constructor
  · rintro ⟨a, b⟩
    exact ⟨by linarith, by linarith⟩
  · rintro ⟨a, b⟩
    exact ⟨by linarith, by linarith⟩

theorem IsCopula.bounds {C : ℝ × ℝ → ℝ} (hC : IsCopula C) {u v : ℝ} (hu : Inside u) (hv : Inside v) : 0 ≤ C (u, v) ∧ C (u, v) ≤ 1 := by
  have m1 := hC.mass_nonneg 0 u 0 v (le_refl _) hu.1.le hu.2.le (le_refl _) hv.1.le hv.2.le
  have m2 := hC.mass_nonneg 0 u v 1 (le_refl _) hu.1.le hu.2.le hv.1.le hv.2.le (le_refl _)
  simp only [mass, (hC.grounded v ⟨hv.1.le, hv.2.le⟩).1, (hC.grounded u ⟨hu.1.le, hu.2.le⟩).2, (hC.grounded 0 ⟨le_refl _, zero_le_one⟩).1,
    (hC.grounded 1 ⟨zero_le_one, le_refl _⟩).1, (hC.margins u ⟨hu.1.le, hu.2.le⟩).2] at m1 m2
  exact ⟨by linarith, by linarith [hu.2]⟩

/-- A copula of an elliptical distribution with correlation `sin φ` has Kendall's tau `2 φ / π`. -/
theorem elliptical_kendall (H : Conditionals h c) (hq : IsQuantile F Q f) {φ : ℝ} (h1 : -(π / 2) < φ) (h2 : φ < π / 2) (hg : Measurable g)
    (hid : ∀ a b, f a * (Real.cos φ * f (Real.sin φ * a + Real.cos φ * b)) * c (F a, F (Real.sin φ * a + Real.cos φ * b)) = g (a ^ 2 + b ^ 2))
    {C : ℝ × ℝ → ℝ} (hC : IsCopula C) (pC : IsPartial C h) : IsKendall C c (2 / π * φ) := by
  have hp := Real.pi_pos
  have hσ : 0 < Real.cos φ := Real.cos_pos_of_mem_Ioo ⟨h1, h2⟩
  have hF : Measurable F := (continuous_iff_continuousAt.2 fun x => (hq.density x).continuousAt).measurable
  haveI := spherical_prob H hq hσ hg hid
  have cin : ∀ u v, Inside u → Inside v → ContinuousAt (fun v => C (u, v) * c (u, v)) v := fun u v hu hv =>
    (pC u v hu hv).2.continuousAt.mul (ContinuousAt.comp (f := fun t => (u, t)) (H.cont u v hu hv) (by fun_prop))
  have nn : ∀ u v, Inside u → Inside v → 0 ≤ C (u, v) * c (u, v) := fun u v hu hv => mul_nonneg (hC.bounds hu hv).1 (H.nonneg u v hu hv)
  have meas : ∀ u, Inside u → AEStronglyMeasurable (fun v => C (u, v) * c (u, v)) (volume.restrict (Ioo 0 1)) := fun u hu =>
    ContinuousOn.aestronglyMeasurable (fun v hv => (cin u v hu hv).continuousWithinAt) measurableSet_Ioo
  have eJ : ∀ u, Inside u → ∫ v in (0 : ℝ)..1, C (u, v) * c (u, v) = (∫⁻ v in Ioo (0 : ℝ) 1, squareCdf F g (Real.sin φ) (Real.cos φ) (u, v) * ENNReal.ofReal (c (u, v))).toReal := by
    intro u hu
    rw [intervalIntegral.integral_of_le zero_le_one, integral_Ioc_eq_integral_Ioo, integral_eq_lintegral_of_nonneg_ae ?_ (meas u hu)]
    · congr 1
      refine setLIntegral_congr_fun measurableSet_Ioo fun v hv => ?_
      change ENNReal.ofReal (C (u, v) * c (u, v)) = _
      rw [squareCdf_eq H hq hσ hg hid hu hv, copula_unique hC H.copula pC H.isPartial hu hv, ENNReal.ofReal_mul (H.copula.bounds hu hv).1]
    · filter_upwards [ae_restrict_mem measurableSet_Ioo] with v hv
      exact nn u v hu hv
  have fin : ∫⁻ u in Ioo (0 : ℝ) 1, ∫⁻ v in Ioo (0 : ℝ) 1, squareCdf F g (Real.sin φ) (Real.cos φ) (u, v) * ENNReal.ofReal (c (u, v)) ≠ ∞ := by
    rw [lintegral_copula H hq h1 h2 hg hid]
    exact ENNReal.ofReal_ne_top
  have mJ : AEMeasurable (fun u => ∫⁻ v in Ioo (0 : ℝ) 1, squareCdf F g (Real.sin φ) (Real.cos φ) (u, v) * ENNReal.ofReal (c (u, v))) (volume.restrict (Ioo 0 1)) := by
    refine AEMeasurable.lintegral_prod_right' (f := fun x : ℝ × ℝ => squareCdf F g (Real.sin φ) (Real.cos φ) x * ENNReal.ofReal (c x)) ?_
    refine (measurable_squareCdf hF).aemeasurable.mul ?_
    rw [Measure.prod_restrict]
    have : ContinuousOn c (Ioo 0 1 ×ˢ Ioo 0 1) := fun x hx => (H.cont x.1 x.2 hx.1 hx.2).continuousWithinAt
    exact (this.aestronglyMeasurable (measurableSet_Ioo.prod measurableSet_Ioo)).aemeasurable.ennreal_ofReal
  refine ⟨fun u hu => ?_, ?_, ?_⟩
  · rw [intervalIntegrable_iff_integrableOn_Ioo_of_le zero_le_one]
    refine Integrable.mono' ((H.total hu).1.mono_set Ioo_subset_Ioc_self) (meas u hu) ?_
    filter_upwards [ae_restrict_mem measurableSet_Ioo] with v hv
    rw [Real.norm_eq_abs, abs_of_nonneg (nn u v hu hv)]
    exact mul_le_of_le_one_left (H.nonneg u v hu hv) (hC.bounds hu hv).2
  · rw [intervalIntegrable_iff_integrableOn_Ioo_of_le zero_le_one]
    refine IntegrableOn.congr_fun (integrable_toReal_of_lintegral_ne_top mJ fin) (fun u hu => (eJ u hu).symm) measurableSet_Ioo
  · have e : ∫ u in (0 : ℝ)..1, ∫ v in (0 : ℝ)..1, C (u, v) * c (u, v) = (π / 2 + φ) / (2 * π) := by
      rw [intervalIntegral.integral_of_le zero_le_one, integral_Ioc_eq_integral_Ioo, setIntegral_congr_fun measurableSet_Ioo fun u hu => eJ u hu,
        integral_toReal mJ (ae_lt_top' mJ fin), lintegral_copula H hq h1 h2 hg hid, ENNReal.toReal_ofReal (by apply div_nonneg <;> linarith)]
    rw [e]
    field_simp
    ring

/-! ### the copulas of the code -/

theorem arcsin_bounds {ρ : ℝ} (hρ : ρ ^ 2 < 1) : -(π / 2) < Real.arcsin ρ ∧ Real.arcsin ρ < π / 2 ∧ Real.sin (Real.arcsin ρ) = ρ ∧ Real.cos (Real.arcsin ρ) = Real.sqrt (1 - ρ ^ 2) := by
  have h1 := abs_lt.1 ((sq_lt_one_iff_abs_lt_one ρ).1 hρ)
  exact ⟨Real.neg_pi_div_two_lt_arcsin.2 h1.1, Real.arcsin_lt_pi_div_two.2 h1.2, Real.sin_arcsin h1.1.le h1.2.le, Real.cos_arcsin ρ⟩

/-- **C90.** Kendall's tau of the Gaussian copula with correlation `ρ` is `(2 / π) arcsin ρ`. -/
theorem C90_gaussian_tau (F Q : ℝ → ℝ) (hq : IsQuantile F Q normalPdf) (ρ : ℝ) (hρ : ρ ^ 2 < 1) (C : ℝ × ℝ → ℝ) (hC : IsCopula C) (pC : IsPartial C (gaussianPartial F Q ρ)) :
    IsKendall C (fun x => Real.exp (gaussianScore Q ρ x)) (2 / π * Real.arcsin ρ) := by
  obtain ⟨h1, h2, h3, h4⟩ := arcsin_bounds hρ
  refine elliptical_kendall (gaussian_conditionals hq hρ) hq h1 h2 (g := fun r => Real.exp (-r / 2) / (2 * π)) (by fun_prop) ?_ hC pC
  intro a b
  rw [h3, h4]
  have hs : 0 < 1 - ρ ^ 2 := by linarith
  set σ := Real.sqrt (1 - ρ ^ 2) with hσ
  have hσp : 0 < σ := Real.sqrt_pos.2 hs
  have hσ2 : σ ^ 2 = 1 - ρ ^ 2 := Real.sq_sqrt hs.le
  simp only [gaussianScore, hq.left, normalPdf]
  have l : Real.exp (-1 / 2 * Real.log (1 + -ρ ^ 2)) = σ⁻¹ := by
    rw [show 1 + -ρ ^ 2 = σ ^ 2 by rw [hσ2]; ring, Real.log_pow, show -1 / 2 * ((2 : ℕ) * Real.log σ) = -Real.log σ by push_cast; ring, Real.exp_neg, Real.exp_log hσp]
  have e : -(ρ * (1 / 2 * ρ * (a ^ 2 + (ρ * a + σ * b) ^ 2) - a * (ρ * a + σ * b)) / (1 - ρ ^ 2)) = -(a ^ 2 + b ^ 2) / 2 + a ^ 2 / 2 + (ρ * a + σ * b) ^ 2 / 2 := by
    rw [neg_eq_iff_eq_neg, div_eq_iff hs.ne']
    linear_combination (b ^ 2 / 2) * hσ2
  rw [sub_eq_add_neg, Real.exp_add, l, e, Real.exp_add, Real.exp_add]
  have q : Real.sqrt (2 * π) * Real.sqrt (2 * π) = 2 * π := Real.mul_self_sqrt (by positivity)
  have e1 : Real.exp (-a ^ 2 / 2) * Real.exp (a ^ 2 / 2) = 1 := by rw [← Real.exp_add]; simp [neg_div]
  have e2 : Real.exp (-(ρ * a + σ * b) ^ 2 / 2) * Real.exp ((ρ * a + σ * b) ^ 2 / 2) = 1 := by rw [← Real.exp_add]; simp [neg_div]
  have e3 : Real.exp (-a ^ 2 / 2) / Real.sqrt (2 * π) * (σ * (Real.exp (-(ρ * a + σ * b) ^ 2 / 2) / Real.sqrt (2 * π))) * (σ⁻¹ * (Real.exp (-(a ^ 2 + b ^ 2) / 2) * Real.exp (a ^ 2 / 2) * Real.exp ((ρ * a + σ * b) ^ 2 / 2)))
      = (Real.exp (-a ^ 2 / 2) * Real.exp (a ^ 2 / 2)) * (Real.exp (-(ρ * a + σ * b) ^ 2 / 2) * Real.exp ((ρ * a + σ * b) ^ 2 / 2)) * Real.exp (-(a ^ 2 + b ^ 2) / 2) * (σ * σ⁻¹) / (Real.sqrt (2 * π) * Real.sqrt (2 * π)) := by
    field_simp
  rw [e3, e1, e2, q, mul_inv_cancel₀ hσp.ne']
  ring

/-- **C90.** Kendall's tau of the Student's t copula with correlation `ρ` is `(2 / π) arcsin ρ`, whatever the degrees of freedom. -/
theorem C90_student_tau (stdtr stdtrit : ℝ → ℝ → ℝ) (ν : ℝ) (hν : 0 < ν) (hq : IsQuantile (stdtr ν) (stdtrit ν) (studentPdf ν))
    (hq1 : IsQuantile (stdtr (ν + 1)) (stdtrit (ν + 1)) (studentPdf (ν + 1))) (ρ : ℝ) (hρ : ρ ^ 2 < 1) (C : ℝ × ℝ → ℝ) (hC : IsCopula C) (pC : IsPartial C (studentPartial stdtr stdtrit ν ρ)) :
    IsKendall C (fun x => Real.exp (studentScore stdtrit ν ρ x)) (2 / π * Real.arcsin ρ) := by
  obtain ⟨h1, h2, h3, h4⟩ := arcsin_bounds hρ
  obtain ⟨A, hA⟩ : ∃ A, A = Real.log (Real.Gamma ((ν + 2) / 2)) + Real.log (Real.Gamma (ν / 2)) - 2 * Real.log (Real.Gamma ((ν + 1) / 2)) := ⟨_, rfl⟩
  obtain ⟨k, hk⟩ : ∃ k, k = Real.Gamma ((ν + 1) / 2) / (Real.sqrt (ν * π) * Real.Gamma (ν / 2)) := ⟨_, rfl⟩
  refine elliptical_kendall (student_conditionals hν hq hq1 hρ) hq h1 h2 (g := fun r => k * k * Real.exp A * (1 + r / ν) ^ (-((ν + 2) / 2))) ?_ ?_ hC pC
  · exact (((measurable_id.div_const ν).const_add 1).pow_const (-((ν + 2) / 2))).const_mul (k * k * Real.exp A)
  intro a b
  rw [h3, h4]
  have hs : 0 < 1 - ρ ^ 2 := by linarith
  set σ := Real.sqrt (1 - ρ ^ 2) with hσ
  have hσp : 0 < σ := Real.sqrt_pos.2 hs
  have hσ2 : σ ^ 2 = 1 - ρ ^ 2 := Real.sq_sqrt hs.le
  have pos : ∀ x : ℝ, 0 < 1 + x ^ 2 / ν := fun x => by positivity
  have pos2 : 0 < 1 + (a ^ 2 + b ^ 2) / ν := by positivity
  have e : (a ^ 2 - 2 * ρ * a * (ρ * a + σ * b) + (ρ * a + σ * b) ^ 2) / (1 - ρ ^ 2) = a ^ 2 + b ^ 2 := by
    rw [div_eq_iff hs.ne']
    linear_combination b ^ 2 * hσ2
  simp only [studentScore, hq.left, studentPdf, ← hk, ← hA, e]
  have l : Real.exp (-(Real.log (1 - ρ ^ 2) / 2)) = σ⁻¹ := by
    rw [← hσ2, Real.log_pow, show -(((2 : ℕ) * Real.log σ) / 2) = -Real.log σ by push_cast; ring, Real.exp_neg, Real.exp_log hσp]
  rw [show ∀ x y : ℝ, A - Real.log (1 - ρ ^ 2) / 2 + (ν + 1) / 2 * (x + y) - (ν + 2) / 2 * Real.log (1 + (a ^ 2 + b ^ 2) / ν) =
    A + -(Real.log (1 - ρ ^ 2) / 2) + x * ((ν + 1) / 2) + y * ((ν + 1) / 2) + Real.log (1 + (a ^ 2 + b ^ 2) / ν) * (-((ν + 2) / 2)) from fun x y => by ring]
  rw [Real.exp_add, Real.exp_add, Real.exp_add, Real.exp_add, l, ← Real.rpow_def_of_pos (pos _), ← Real.rpow_def_of_pos (pos _), ← Real.rpow_def_of_pos pos2, Real.rpow_neg (pos _).le,
    Real.rpow_neg (pos _).le]
  have n1 := (Real.rpow_pos_of_pos (pos a) ((ν + 1) / 2)).ne'
  have n2 := (Real.rpow_pos_of_pos (pos (ρ * a + σ * b)) ((ν + 1) / 2)).ne'
  generalize (1 + a ^ 2 / ν) ^ ((ν + 1) / 2) = p at n1 ⊢
  generalize (1 + (ρ * a + σ * b) ^ 2 / ν) ^ ((ν + 1) / 2) = q at n2 ⊢
  field_simp

/-- The hypotheses are met by every correlation. -/
example (ρ : ℝ) (hρ : ρ ^ 2 < 1) : ∃ ndtr ndtri C, IsQuantile ndtr ndtri normalPdf ∧ IsCopula C ∧ IsPartial C (gaussianPartial ndtr ndtri ρ) ∧ IsKendall C (fun x => Real.exp (gaussianScore ndtri ρ x)) (2 / π * Real.arcsin ρ) := by
  obtain ⟨F, Q, hq⟩ := exists_normal
  obtain ⟨C, hC, pC, _⟩ := C51_gaussian_copula F Q hq ρ hρ
  exact ⟨F, Q, C, hq, hC, pC, C90_gaussian_tau F Q hq ρ hρ C hC pC⟩

end Skfolio.Copula
