import Verif.Copula.KendallSpec
import Verif.Copula.ExistsCopula
import Mathlib.Topology.Order.ExtendFrom

/-!
Kendall's tau of a copula with a generator: `1 - 4 ∫ φ / |φ'|`.
-/
set_option autoImplicit false

namespace Skfolio.Copula

open Filter Topology MeasureTheory Set

/-- The fundamental theorem of calculus for a nonnegative derivative inside the unit interval. -/
theorem ftc_nonneg {F f : ℝ → ℝ} {a b : ℝ} (hd : ∀ t, Inside t → HasDerivAt F (f t) t) (h0 : ∀ t, Inside t → 0 ≤ f t) (ha : Tendsto F (𝓝[>] 0) (𝓝 a)) (hb : Tendsto F (𝓝[<] 1) (𝓝 b)) :
    IntervalIntegrable f volume 0 1 ∧ ∫ t in (0 : ℝ)..1, f t = b - a := by
  have hcF : ContinuousOn F (Ioo 0 1) := fun t ht => (hd t ht).continuousAt.continuousWithinAt
  have hc := continuousOn_Icc_extendFrom_Ioo hcF ha hb
  have hi : IntervalIntegrable f volume 0 1 := by
    rw [intervalIntegrable_iff_integrableOn_Ioc_of_le zero_le_one]
    refine intervalIntegral.integrableOn_deriv_of_nonneg hc (fun t ht => ?_) fun t ht => h0 t ht
    refine (hd t ht).congr_of_eventuallyEq ?_
    filter_upwards [isOpen_Ioo.mem_nhds ht] with x hx
    exact extendFrom_extends hcF x hx
  exact ⟨hi, intervalIntegral.integral_eq_sub_of_hasDerivAt_of_tendsto zero_lt_one (fun t ht => hd t ht) hi ha hb⟩

/-- A copula given by a generator `φ` with derivative `-1 / g`. -/
structure Generated (C : ℝ × ℝ → ℝ) (h : Bool → ℝ × ℝ → ℝ) (c : ℝ × ℝ → ℝ) (φ g : ℝ → ℝ) : Prop where
  copula : IsCopula C
  partials : IsPartial C h
  dens : IsDensity h c
  nonneg : ∀ u v, Inside u → Inside v → 0 ≤ c (u, v)
  inside : ∀ u v, Inside u → Inside v → Inside (C (u, v))
  cond : ∀ u v, Inside u → Inside v → h true (u, v) = g (C (u, v)) / g u
  gcont : ∀ u, Inside u → ContinuousAt g u
  gpos : ∀ u, Inside u → 0 < g u
  gmono : ∀ u v, Inside u → Inside v → u ≤ v → g u ≤ g v
  gzero : Tendsto g (𝓝[>] 0) (𝓝 0)
  deriv : ∀ u, Inside u → HasDerivAt φ (-1 / g u) u
  phi : ∀ u, Inside u → 0 ≤ φ u
  left : Tendsto (fun u => u * φ u * g u) (𝓝[>] 0) (𝓝 0)
  right : Tendsto (fun u => u * φ u * g u) (𝓝[<] 1) (𝓝 0)
  int : IntervalIntegrable (fun u => φ u * g u) volume 0 1

variable {C : ℝ × ℝ → ℝ} {h : Bool → ℝ × ℝ → ℝ} {c : ℝ × ℝ → ℝ} {φ g : ℝ → ℝ}

theorem Generated.g_int (H : Generated C h c φ g) {u : ℝ} (hu : Inside u) : IntervalIntegrable g volume 0 u := by
  have hc : ContinuousOn g (Ioc 0 u) := fun t ht => (H.gcont t ⟨ht.1, lt_of_le_of_lt ht.2 hu.2⟩).continuousWithinAt
  rw [intervalIntegrable_iff_integrableOn_Ioc_of_le hu.1.le]
  refine Integrable.of_bound (hc.aestronglyMeasurable measurableSet_Ioc) (g u) ?_
  filter_upwards [ae_restrict_mem measurableSet_Ioc] with t ht
  have it : Inside t := ⟨ht.1, lt_of_le_of_lt ht.2 hu.2⟩
  rw [Real.norm_eq_abs, abs_of_pos (H.gpos t it)]
  exact H.gmono t u it hu ht.2

/-- The primitive of `g`. -/
noncomputable def primitive (g : ℝ → ℝ) (u : ℝ) : ℝ := ∫ s in (0 : ℝ)..u, g s

theorem Generated.G_deriv (H : Generated C h c φ g) {u : ℝ} (hu : Inside u) : HasDerivAt (primitive g) (g u) u := by
  refine intervalIntegral.integral_hasDerivAt_right (H.g_int hu) ?_ (H.gcont u hu)
  exact ContinuousOn.stronglyMeasurableAtFilter isOpen_inside (fun s hs => (H.gcont s hs).continuousWithinAt) u hu

theorem Generated.G_bounds (H : Generated C h c φ g) {u : ℝ} (hu : Inside u) : 0 ≤ primitive g u ∧ primitive g u ≤ u * g u := by
  constructor
  · unfold primitive
    rw [intervalIntegral.integral_of_le hu.1.le]
    exact setIntegral_nonneg measurableSet_Ioc fun t ht => (H.gpos t ⟨ht.1, lt_of_le_of_lt ht.2 hu.2⟩).le
  · have := intervalIntegral.norm_integral_le_of_norm_le_const (f := g) (a := 0) (b := u) (C := g u) (by
      intro t ht
      rw [uIoc_of_le hu.1.le] at ht
      have it : Inside t := ⟨ht.1, lt_of_le_of_lt ht.2 hu.2⟩
      rw [Real.norm_eq_abs, abs_of_pos (H.gpos t it)]
      exact H.gmono t u it hu ht.2)
    rw [sub_zero, abs_of_pos hu.1, mul_comm, Real.norm_eq_abs] at this
    exact (le_abs_self _).trans this

theorem Generated.G_zero (H : Generated C h c φ g) : Tendsto (primitive g) (𝓝[>] 0) (𝓝 0) := by
  have h2 : Inside (1 / 2 : ℝ) := ⟨by norm_num, by norm_num⟩
  have ht : Tendsto (fun u : ℝ => u * g (1 / 2)) (𝓝[>] 0) (𝓝 0) := by
    have := (tendsto_id (x := 𝓝 (0 : ℝ))).mul_const (g (1 / 2))
    rw [zero_mul] at this
    exact this.mono_left nhdsWithin_le_nhds
  refine tendsto_of_tendsto_of_tendsto_of_le_of_le' tendsto_const_nhds ht ?_ ?_
  · filter_upwards [eventually_inside] with u hu
    exact (H.G_bounds hu).1
  · filter_upwards [eventually_inside, Ioo_mem_nhdsGT (show (0 : ℝ) < 1 / 2 by norm_num)] with u hu hu2
    exact (H.G_bounds hu).2.trans (mul_le_mul_of_nonneg_left (H.gmono u _ hu h2 hu2.2.le) hu.1.le)

/-- Continuity of a copula in its second argument, at the border. -/
theorem copula_right (hC : IsCopula C) {u v : ℝ} (hu : Inside u) (hv : Inside v) : u - (1 - v) ≤ C (u, v) ∧ C (u, v) ≤ u ∧ 0 ≤ C (u, v) ∧ C (u, v) ≤ v := by
  have U1 : Unit (1 : ℝ) := ⟨zero_le_one, le_refl _⟩
  have U0 : Unit (0 : ℝ) := ⟨le_refl _, zero_le_one⟩
  have Uu : Unit u := ⟨hu.1.le, hu.2.le⟩
  have Uv : Unit v := ⟨hv.1.le, hv.2.le⟩
  have m1 := hC.mass_nonneg 0 u v 1 (le_refl _) hu.1.le hu.2.le hv.1.le hv.2.le (le_refl _)
  have m2 := hC.mass_nonneg u 1 v 1 hu.1.le hu.2.le (le_refl _) hv.1.le hv.2.le (le_refl _)
  have m3 := hC.mass_nonneg 0 u 0 v (le_refl _) hu.1.le hu.2.le (le_refl _) hv.1.le hv.2.le
  have m4 := hC.mass_nonneg u 1 0 v hu.1.le hu.2.le (le_refl _) (le_refl _) hv.1.le hv.2.le
  simp only [mass, (hC.grounded v Uv).1, (hC.grounded u Uu).2, (hC.grounded 0 U0).1, (hC.grounded 1 U1).1, (hC.grounded 1 U1).2, (hC.margins u Uu).2, (hC.margins v Uv).1,
    (hC.margins 1 U1).1] at m1 m2 m3 m4
  refine ⟨?_, ?_, ?_, ?_⟩ <;> linarith

theorem Generated.C_one (H : Generated C h c φ g) {u : ℝ} (hu : Inside u) : Tendsto (fun v => C (u, v)) (𝓝[<] 1) (𝓝 u) := by
  have ht : Tendsto (fun v : ℝ => u - (1 - v)) (𝓝[<] 1) (𝓝 u) := by
    have := (tendsto_one_sub_left.mono_right nhdsWithin_le_nhds).const_sub u
    rwa [sub_zero] at this
  refine tendsto_of_tendsto_of_tendsto_of_le_of_le' ht tendsto_const_nhds ?_ ?_
  · filter_upwards [eventually_inside_left] with v hv
    exact (copula_right H.copula hu hv).1
  · filter_upwards [eventually_inside_left] with v hv
    exact (copula_right H.copula hu hv).2.1

theorem Generated.C_zero (H : Generated C h c φ g) {u : ℝ} (hu : Inside u) : Tendsto (fun v => C (u, v)) (𝓝[>] 0) (𝓝[>] 0) := by
  refine tendsto_nhdsWithin_iff.2 ⟨?_, ?_⟩
  · refine tendsto_of_tendsto_of_tendsto_of_le_of_le' tendsto_const_nhds (tendsto_id.mono_left nhdsWithin_le_nhds) ?_ ?_
    · filter_upwards [eventually_inside] with v hv
      exact (copula_right H.copula hu hv).2.2.1
    · filter_upwards [eventually_inside] with v hv
      exact (copula_right H.copula hu hv).2.2.2
  · filter_upwards [eventually_inside] with v hv
    exact (H.inside u v hu hv).1

theorem Generated.inner (H : Generated C h c φ g) {u : ℝ} (hu : Inside u) :
    IntervalIntegrable (fun v => C (u, v) * c (u, v)) volume 0 1 ∧ ∫ v in (0 : ℝ)..1, C (u, v) * c (u, v) = u - primitive g u / g u := by
  have gu := H.gpos u hu
  have key := ftc_nonneg (F := fun v => C (u, v) * h true (u, v) - primitive g (C (u, v)) / g u) (f := fun v => C (u, v) * c (u, v)) (a := 0) (b := u - primitive g u / g u) ?_ ?_ ?_ ?_
  · rw [sub_zero] at key; exact key
  · intro v hv
    have d1 := (H.partials u v hu hv).2
    have d2 := (H.dens u v hu hv).2
    have d3 : HasDerivAt (fun v => primitive g (C (u, v))) (g (C (u, v)) * h false (u, v)) v := HasDerivAt.comp (h₂ := primitive g) (h := fun t => C (u, t)) v (H.G_deriv (H.inside u v hu hv)) d1
    refine ((d1.mul d2).sub (d3.div_const (g u))).congr_deriv ?_
    rw [H.cond u v hu hv]
    field_simp
    ring
  · exact fun v hv => mul_nonneg (H.inside u v hu hv).1.le (H.nonneg u v hu hv)
  · have t1 : Tendsto (fun v => C (u, v) * h true (u, v)) (𝓝[>] 0) (𝓝 0) := by
      refine tendsto_of_tendsto_of_tendsto_of_le_of_le' tendsto_const_nhds ((H.C_zero hu).mono_right nhdsWithin_le_nhds) ?_ ?_
      · filter_upwards [eventually_inside] with v hv
        rw [H.cond u v hu hv]
        exact mul_nonneg (H.inside u v hu hv).1.le (div_nonneg (H.gpos _ (H.inside u v hu hv)).le gu.le)
      · filter_upwards [eventually_inside] with v hv
        rw [H.cond u v hu hv]
        refine mul_le_of_le_one_right (H.inside u v hu hv).1.le ?_
        rw [div_le_one gu]
        exact H.gmono _ _ (H.inside u v hu hv) hu (copula_right H.copula hu hv).2.1
    have t2 := (H.G_zero.comp (H.C_zero hu)).div_const (g u)
    have := t1.sub t2
    rwa [zero_div, sub_zero] at this
  · have t0 : Tendsto (fun v => h true (u, v)) (𝓝[<] 1) (𝓝 1) := by
      have := ((H.gcont u hu).tendsto.comp (H.C_one hu)).div_const (g u)
      rw [div_self gu.ne'] at this
      refine this.congr' ?_
      filter_upwards [eventually_inside_left] with v hv
      exact (H.cond u v hu hv).symm
    have t1 := (H.C_one hu).mul t0
    rw [mul_one] at t1
    exact t1.sub ((((H.G_deriv hu).continuousAt.tendsto.comp (H.C_one hu))).div_const (g u))

/-- Kendall's tau by the generator. -/
theorem Generated.kendall (H : Generated C h c φ g) : IsKendall C c (1 - 4 * ∫ u in (0 : ℝ)..1, φ u * g u) := by
  have hM : ContinuousOn (fun u => ∫ s in (0 : ℝ)..u, φ s * g s) (Icc 0 1) := by
    have := intervalIntegral.continuousOn_primitive_interval' H.int (left_mem_uIcc)
    rwa [uIcc_of_le zero_le_one] at this
  have hM0 : Tendsto (fun u => ∫ s in (0 : ℝ)..u, φ s * g s) (𝓝[>] 0) (𝓝 0) := by
    have := (hM 0 ⟨le_refl _, zero_le_one⟩).tendsto
    rw [intervalIntegral.integral_same] at this
    exact this.mono_left (nhdsWithin_le_of_mem (mem_of_superset (Ioo_mem_nhdsGT zero_lt_one) Ioo_subset_Icc_self))
  have hM1 : Tendsto (fun u => ∫ s in (0 : ℝ)..u, φ s * g s) (𝓝[<] 1) (𝓝 (∫ s in (0 : ℝ)..1, φ s * g s)) := by
    exact (hM 1 ⟨zero_le_one, le_refl _⟩).tendsto.mono_left (nhdsWithin_le_of_mem (mem_of_superset (Ioo_mem_nhdsLT zero_lt_one) Ioo_subset_Icc_self))
  have small : ∀ u, Inside u → 0 ≤ φ u * primitive g u ∧ φ u * primitive g u ≤ u * φ u * g u := by
    intro u hu
    refine ⟨mul_nonneg (H.phi u hu) (H.G_bounds hu).1, ?_⟩
    calc φ u * primitive g u ≤ φ u * (u * g u) := mul_le_mul_of_nonneg_left (H.G_bounds hu).2 (H.phi u hu)
      _ = u * φ u * g u := by ring
  have l0 : Tendsto (fun u => φ u * primitive g u) (𝓝[>] 0) (𝓝 0) := by
    refine tendsto_of_tendsto_of_tendsto_of_le_of_le' tendsto_const_nhds H.left ?_ ?_ <;> filter_upwards [eventually_inside] with u hu
    exacts [(small u hu).1, (small u hu).2]
  have l1 : Tendsto (fun u => φ u * primitive g u) (𝓝[<] 1) (𝓝 0) := by
    refine tendsto_of_tendsto_of_tendsto_of_le_of_le' tendsto_const_nhds H.right ?_ ?_ <;> filter_upwards [eventually_inside_left] with u hu
    exacts [(small u hu).1, (small u hu).2]
  have pcont : ∀ u, Inside u → ContinuousAt (fun s => φ s * g s) u := fun u hu => (H.deriv u hu).continuousAt.mul (H.gcont u hu)
  have key := ftc_nonneg (F := fun u => u ^ 2 / 2 + φ u * primitive g u - ∫ s in (0 : ℝ)..u, φ s * g s) (f := fun u => u - primitive g u / g u) (a := 0) (b := 1 / 2 - ∫ s in (0 : ℝ)..1, φ s * g s)
    ?_ ?_ ?_ ?_
  · obtain ⟨k1, k2⟩ := key
    have e : ∀ᵐ u : ℝ, u ∈ uIoc (0 : ℝ) 1 → ∫ v in (0 : ℝ)..1, C (u, v) * c (u, v) = u - primitive g u / g u := by
      have hne : ∀ᵐ t : ℝ, t ≠ 1 := by simp [ae_iff]
      filter_upwards [hne] with u h1 hu
      rw [uIoc_of_le zero_le_one] at hu
      exact (H.inner ⟨hu.1, lt_of_le_of_ne hu.2 h1⟩).2
    refine ⟨fun u hu => (H.inner hu).1, ?_, ?_⟩
    · refine k1.congr_ae ?_
      rw [EventuallyEq, ae_restrict_iff' measurableSet_uIoc]
      filter_upwards [e] with u hu h1
      exact (hu h1).symm
    · rw [intervalIntegral.integral_congr_ae e, k2]
      ring
  · intro u hu
    have d1 : HasDerivAt (fun u : ℝ => u ^ 2 / 2) u u := by
      refine ((hasDerivAt_pow 2 u).div_const 2).congr_deriv ?_
      norm_num
    have d2 := (H.deriv u hu).mul (H.G_deriv hu)
    have d3 : HasDerivAt (fun u => ∫ s in (0 : ℝ)..u, φ s * g s) (φ u * g u) u := by
      refine intervalIntegral.integral_hasDerivAt_right ?_ ?_ (pcont u hu)
      · exact H.int.mono_set (by rw [uIcc_of_le hu.1.le, uIcc_of_le zero_le_one]; exact Icc_subset_Icc_right hu.2.le)
      · exact ContinuousOn.stronglyMeasurableAtFilter isOpen_inside (fun s hs => (pcont s hs).continuousWithinAt) u hu
    refine ((d1.add d2).sub d3).congr_deriv ?_
    ring
  · intro u hu
    rw [sub_nonneg, div_le_iff₀ (H.gpos u hu)]
    exact (H.G_bounds hu).2
  · have t : Tendsto (fun u : ℝ => u ^ 2 / 2) (𝓝[>] 0) (𝓝 0) := by
      have : Tendsto (fun u : ℝ => u ^ 2 / 2) (𝓝 0) (𝓝 (0 ^ 2 / 2)) := (tendsto_id.pow 2).div_const 2
      norm_num at this
      exact this.mono_left nhdsWithin_le_nhds
    have := (t.add l0).sub hM0
    norm_num at this
    exact this
  · have t : Tendsto (fun u : ℝ => u ^ 2 / 2) (𝓝[<] 1) (𝓝 (1 / 2)) := by
      have : Tendsto (fun u : ℝ => u ^ 2 / 2) (𝓝 1) (𝓝 (1 ^ 2 / 2)) := (tendsto_id.pow 2).div_const 2
      norm_num at this ⊢
      exact this.mono_left nhdsWithin_le_nhds
    have := (t.add l1).sub hM1
    rwa [add_zero] at this

end Skfolio.Copula
