import Verif.Copula.KendallLemmas
import Verif.Copula.RotationTheorems
import Mathlib.Analysis.SpecialFunctions.Integrals.Basic
import Mathlib.MeasureTheory.Integral.Prod

/-!
Kendall's tau of a rotated copula.
-/
set_option autoImplicit false

namespace Skfolio.Copula

open Filter Topology MeasureTheory Set

variable {C : ℝ × ℝ → ℝ} {h : Bool → ℝ × ℝ → ℝ} {c : ℝ × ℝ → ℝ} {φ g : ℝ → ℝ}

theorem copula_lip (hC : IsCopula C) {a b w : ℝ} (ha : Inside a) (hb : Inside b) (hw : Inside w) :
    |C (b, w) - C (a, w)| ≤ |b - a| ∧ |C (w, b) - C (w, a)| ≤ |b - a| := by
  have U1 : Unit (1 : ℝ) := ⟨zero_le_one, le_refl _⟩
  have U0 : Unit (0 : ℝ) := ⟨le_refl _, zero_le_one⟩
  have key : ∀ a b : ℝ, Inside a → Inside b → a ≤ b → (0 ≤ C (b, w) - C (a, w) ∧ C (b, w) - C (a, w) ≤ b - a) ∧ 0 ≤ C (w, b) - C (w, a) ∧ C (w, b) - C (w, a) ≤ b - a := by
    intro a b ha hb hab
    have m1 := hC.mass_nonneg a b 0 w ha.1.le hab hb.2.le (le_refl _) hw.1.le hw.2.le
    have m2 := hC.mass_nonneg a b w 1 ha.1.le hab hb.2.le hw.1.le hw.2.le (le_refl _)
    have m3 := hC.mass_nonneg 0 w a b (le_refl _) hw.1.le hw.2.le ha.1.le hab hb.2.le
    have m4 := hC.mass_nonneg w 1 a b hw.1.le hw.2.le (le_refl _) ha.1.le hab hb.2.le
    have Ua : Unit a := ⟨ha.1.le, ha.2.le⟩
    have Ub : Unit b := ⟨hb.1.le, hb.2.le⟩
    simp only [mass, (hC.grounded a Ua).1, (hC.grounded a Ua).2, (hC.grounded b Ub).1, (hC.grounded b Ub).2, (hC.margins a Ua).1, (hC.margins a Ua).2, (hC.margins b Ub).1, (hC.margins b Ub).2] at m1 m2 m3 m4
    refine ⟨⟨?_, ?_⟩, ?_, ?_⟩ <;> linarith
  rcases le_total a b with hab | hab
  · obtain ⟨⟨k1, k2⟩, k3, k4⟩ := key a b ha hb hab
    rw [abs_of_nonneg k1, abs_of_nonneg k3]
    exact ⟨k2.trans (le_abs_self _), k4.trans (le_abs_self _)⟩
  · obtain ⟨⟨k1, k2⟩, k3, k4⟩ := key b a hb ha hab
    rw [abs_sub_comm (C (b, w)), abs_sub_comm (C (w, b)), abs_sub_comm b a, abs_of_nonneg k1, abs_of_nonneg k3]
    exact ⟨k2.trans (le_abs_self _), k4.trans (le_abs_self _)⟩

theorem copula_cont (hC : IsCopula C) {x : ℝ × ℝ} (h1 : Inside x.1) (h2 : Inside x.2) : ContinuousAt C x := by
  have hnear : ∀ᶠ y : ℝ × ℝ in 𝓝 x, Inside y.1 ∧ Inside y.2 :=
    (continuousAt_fst.eventually (isOpen_inside.mem_nhds h1)).and (continuousAt_snd.eventually (isOpen_inside.mem_nhds h2))
  have ht : Tendsto (fun y : ℝ × ℝ => |y.1 - x.1| + |y.2 - x.2|) (𝓝 x) (𝓝 0) := by
    have : Continuous fun y : ℝ × ℝ => |y.1 - x.1| + |y.2 - x.2| := by fun_prop
    have := this.tendsto x
    simpa using this
  rw [ContinuousAt, tendsto_iff_dist_tendsto_zero]
  refine squeeze_zero' (Eventually.of_forall fun y => dist_nonneg) ?_ ht
  filter_upwards [hnear] with y hy
  rw [Real.dist_eq]
  have a := (copula_lip hC h1 hy.1 hy.2).1
  have b := (copula_lip hC h2 hy.2 h1).2
  have e : C y - C x = (C (y.1, y.2) - C (x.1, y.2)) + (C (x.1, y.2) - C (x.1, x.2)) := by simp
  rw [e]
  exact (abs_add_le _ _).trans (add_le_add a b)

theorem Generated.h_bounds (H : Generated C h c φ g) {u v : ℝ} (hu : Inside u) (hv : Inside v) : 0 ≤ h true (u, v) ∧ h true (u, v) ≤ 1 := by
  have gu := H.gpos u hu
  rw [H.cond u v hu hv]
  refine ⟨div_nonneg (H.gpos _ (H.inside u v hu hv)).le gu.le, ?_⟩
  rw [div_le_one gu]
  exact H.gmono _ _ (H.inside u v hu hv) hu (copula_right H.copula hu hv).2.1

theorem Generated.h_one (H : Generated C h c φ g) {u : ℝ} (hu : Inside u) : Tendsto (fun v => h true (u, v)) (𝓝[<] 1) (𝓝 1) := by
  have := ((H.gcont u hu).tendsto.comp (H.C_one hu)).div_const (g u)
  rw [div_self (H.gpos u hu).ne'] at this
  refine this.congr' ?_
  filter_upwards [eventually_inside_left] with v hv
  exact (H.cond u v hu hv).symm

theorem Generated.h_zero (H : Generated C h c φ g) {u : ℝ} (hu : Inside u) : Tendsto (fun v => h true (u, v)) (𝓝[>] 0) (𝓝 0) := by
  have := (H.gzero.comp (H.C_zero hu)).div_const (g u)
  rw [zero_div] at this
  refine this.congr' ?_
  filter_upwards [eventually_inside] with v hv
  exact (H.cond u v hu hv).symm

/-- The conditional density integrates to one. -/
theorem Generated.total (H : Generated C h c φ g) {u : ℝ} (hu : Inside u) : IntervalIntegrable (fun v => c (u, v)) volume 0 1 ∧ ∫ v in (0 : ℝ)..1, c (u, v) = 1 := by
  have := ftc_nonneg (F := fun v => h true (u, v)) (f := fun v => c (u, v)) (fun v hv => (H.dens u v hu hv).2) (fun v hv => H.nonneg u v hu hv) (H.h_zero hu) (H.h_one hu)
  rwa [sub_zero] at this

theorem Generated.h_int (H : Generated C h c φ g) {u : ℝ} (hu : Inside u) : IntervalIntegrable (fun v => h true (u, v)) volume 0 1 := by
  rw [intervalIntegrable_iff_integrableOn_Ioo_of_le zero_le_one]
  refine Integrable.of_bound (ContinuousOn.aestronglyMeasurable (fun v hv => (H.dens u v hu hv).2.continuousAt.continuousWithinAt) measurableSet_Ioo) 1 ?_
  filter_upwards [ae_restrict_mem measurableSet_Ioo] with v hv
  rw [Real.norm_of_nonneg (H.h_bounds hu hv).1]
  exact (H.h_bounds hu hv).2

/-- The conditional expectation. -/
theorem Generated.expect (H : Generated C h c φ g) {u : ℝ} (hu : Inside u) :
    IntervalIntegrable (fun v => v * c (u, v)) volume 0 1 ∧ ∫ v in (0 : ℝ)..1, v * c (u, v) = 1 - ∫ v in (0 : ℝ)..1, h true (u, v) := by
  have hi := H.h_int hu
  have hM : ContinuousOn (fun v => ∫ s in (0 : ℝ)..v, h true (u, s)) (Icc 0 1) := by
    have := intervalIntegral.continuousOn_primitive_interval' hi (left_mem_uIcc)
    rwa [uIcc_of_le zero_le_one] at this
  have hM0 : Tendsto (fun v => ∫ s in (0 : ℝ)..v, h true (u, s)) (𝓝[>] 0) (𝓝 0) := by
    have := (hM 0 ⟨le_refl _, zero_le_one⟩).tendsto
    rw [intervalIntegral.integral_same] at this
    exact this.mono_left (nhdsWithin_le_of_mem (mem_of_superset (Ioo_mem_nhdsGT zero_lt_one) Ioo_subset_Icc_self))
  have hM1 : Tendsto (fun v => ∫ s in (0 : ℝ)..v, h true (u, s)) (𝓝[<] 1) (𝓝 (∫ s in (0 : ℝ)..1, h true (u, s))) :=
    (hM 1 ⟨zero_le_one, le_refl _⟩).tendsto.mono_left (nhdsWithin_le_of_mem (mem_of_superset (Ioo_mem_nhdsLT zero_lt_one) Ioo_subset_Icc_self))
  have key := ftc_nonneg (F := fun v => v * h true (u, v) - ∫ s in (0 : ℝ)..v, h true (u, s)) (f := fun v => v * c (u, v)) (a := 0) (b := 1 - ∫ s in (0 : ℝ)..1, h true (u, s)) ?_ ?_ ?_ ?_
  · rwa [sub_zero] at key
  · intro v hv
    have d3 : HasDerivAt (fun v => ∫ s in (0 : ℝ)..v, h true (u, s)) (h true (u, v)) v := by
      refine intervalIntegral.integral_hasDerivAt_right ?_ ?_ (H.dens u v hu hv).2.continuousAt
      · exact hi.mono_set (by rw [uIcc_of_le hv.1.le, uIcc_of_le zero_le_one]; exact Icc_subset_Icc_right hv.2.le)
      · exact ContinuousOn.stronglyMeasurableAtFilter isOpen_inside (fun s hs => (H.dens u s hu hs).2.continuousAt.continuousWithinAt) v hv
    refine (((hasDerivAt_id v).mul (H.dens u v hu hv).2).sub d3).congr_deriv ?_
    simp only [id]
    ring
  · exact fun v hv => mul_nonneg hv.1.le (H.nonneg u v hu hv)
  · have := ((tendsto_id.mono_left nhdsWithin_le_nhds).mul (H.h_zero hu)).sub hM0
    rw [mul_zero, sub_zero] at this
    exact this
  · have := ((tendsto_id.mono_left nhdsWithin_le_nhds).mul (H.h_one hu)).sub hM1
    rw [mul_one] at this
    exact this

theorem Generated.square (H : Generated C h c φ g) : Integrable (fun x : ℝ × ℝ => h true x) ((volume.restrict (Ioo (0 : ℝ) 1)).prod (volume.restrict (Ioo (0 : ℝ) 1))) := by
  rw [Measure.prod_restrict]
  have hm : MeasurableSet (Ioo (0 : ℝ) 1 ×ˢ Ioo (0 : ℝ) 1) := measurableSet_Ioo.prod measurableSet_Ioo
  have hc : ContinuousOn (fun x : ℝ × ℝ => g (C x) / g x.1) (Ioo (0 : ℝ) 1 ×ˢ Ioo (0 : ℝ) 1) := by
    rintro ⟨u, v⟩ ⟨hu, hv⟩
    refine ContinuousAt.continuousWithinAt (ContinuousAt.div ?_ ?_ (H.gpos u hu).ne')
    · exact ContinuousAt.comp (g := g) (f := C) (H.gcont _ (H.inside u v hu hv)) (copula_cont H.copula hu hv)
    · exact ContinuousAt.comp (g := g) (f := fun x : ℝ × ℝ => x.1) (H.gcont u hu) continuousAt_fst
  have hc' : ContinuousOn (fun x : ℝ × ℝ => h true x) (Ioo (0 : ℝ) 1 ×ˢ Ioo (0 : ℝ) 1) := hc.congr fun x hx => H.cond x.1 x.2 hx.1 hx.2
  have : IsFiniteMeasure ((volume : Measure (ℝ × ℝ)).restrict (Ioo (0 : ℝ) 1 ×ˢ Ioo (0 : ℝ) 1)) := by
    rw [Measure.volume_eq_prod, ← Measure.prod_restrict]
    infer_instance
  refine Integrable.of_bound (hc'.aestronglyMeasurable hm) 1 ?_
  filter_upwards [ae_restrict_mem hm] with x hx
  rw [Real.norm_of_nonneg (H.h_bounds hx.1 hx.2).1]
  exact (H.h_bounds hx.1 hx.2).2

theorem Generated.margin (H : Generated C h c φ g) {v : ℝ} (hv : Inside v) : ∫ u in (0 : ℝ)..1, h true (u, v) = v := by
  have U1 : Unit (1 : ℝ) := ⟨zero_le_one, le_refl _⟩
  have l1 : Tendsto (fun u => C (u, v)) (𝓝[<] 1) (𝓝 v) := by
    have ht : Tendsto (fun u : ℝ => u - (1 - v)) (𝓝[<] 1) (𝓝 v) := by
      have := ((tendsto_id (x := 𝓝 (1 : ℝ))).sub_const (1 - v)).mono_left (nhdsWithin_le_nhds (s := Iio 1))
      rwa [sub_sub_cancel] at this
    refine tendsto_of_tendsto_of_tendsto_of_le_of_le' ht tendsto_const_nhds ?_ ?_ <;> filter_upwards [eventually_inside_left] with u hu
    · exact (copula_right H.copula hu hv).1
    · exact (copula_right H.copula hu hv).2.2.2
  have l0 : Tendsto (fun u => C (u, v)) (𝓝[>] 0) (𝓝 0) := by
    refine tendsto_of_tendsto_of_tendsto_of_le_of_le' tendsto_const_nhds (tendsto_id.mono_left nhdsWithin_le_nhds) ?_ ?_ <;> filter_upwards [eventually_inside] with u hu
    · exact (copula_right H.copula hu hv).2.2.1
    · exact (copula_right H.copula hu hv).2.1
  have := (ftc_nonneg (F := fun u => C (u, v)) (f := fun u => h true (u, v)) (fun u hu => (H.partials u v hu hv).1) (fun u hu => (H.h_bounds hu hv).1) l0 l1).2
  rwa [sub_zero] at this

theorem unit_integral (f : ℝ → ℝ) : ∫ t in (0 : ℝ)..1, f t = ∫ t in Ioo (0 : ℝ) 1, f t := by rw [intervalIntegral.integral_of_le zero_le_one, integral_Ioc_eq_integral_Ioo]

theorem unit_congr {f k : ℝ → ℝ} (e : ∀ t, Inside t → f t = k t) : (IntervalIntegrable f volume 0 1 ↔ IntervalIntegrable k volume 0 1) ∧ ∫ t in (0 : ℝ)..1, f t = ∫ t in (0 : ℝ)..1, k t := by
  constructor
  · rw [intervalIntegrable_iff_integrableOn_Ioo_of_le zero_le_one, intervalIntegrable_iff_integrableOn_Ioo_of_le zero_le_one]
    exact integrableOn_congr_fun (fun t ht => e t ht) measurableSet_Ioo
  · rw [unit_integral, unit_integral]
    exact setIntegral_congr_fun measurableSet_Ioo fun t ht => e t ht

theorem unit_flip (f : ℝ → ℝ) : (IntervalIntegrable (fun t => f (1 - t)) volume 0 1 ↔ IntervalIntegrable f volume 0 1) ∧ ∫ t in (0 : ℝ)..1, f (1 - t) = ∫ t in (0 : ℝ)..1, f t := by
  constructor
  · have key : ∀ f : ℝ → ℝ, IntervalIntegrable f volume 0 1 → IntervalIntegrable (fun t => f (1 - t)) volume 0 1 := by
      intro f hf
      have := hf.comp_sub_left 1
      rw [sub_zero, sub_self] at this
      exact this.symm
    refine ⟨fun hf => ?_, key f⟩
    have := key _ hf
    simpa using this
  · rw [intervalIntegral.integral_comp_sub_left f 1, sub_self, sub_zero]

theorem Generated.expect_total (H : Generated C h c φ g) :
    IntervalIntegrable (fun u => ∫ v in (0 : ℝ)..1, v * c (u, v)) volume 0 1 ∧ ∫ u in (0 : ℝ)..1, ∫ v in (0 : ℝ)..1, v * c (u, v) = 1 / 2 := by
  have sq := H.square
  have i1 : IntervalIntegrable (fun u => ∫ v in (0 : ℝ)..1, h true (u, v)) volume 0 1 := by
    rw [intervalIntegrable_iff_integrableOn_Ioo_of_le zero_le_one]
    have := sq.integral_prod_left
    simp only [unit_integral]
    exact this
  have v1 : ∫ u in (0 : ℝ)..1, ∫ v in (0 : ℝ)..1, h true (u, v) = 1 / 2 := by
    simp only [unit_integral]
    rw [integral_integral_swap (f := fun u v => h true (u, v)) sq]
    have e : ∫ v in Ioo (0 : ℝ) 1, ∫ u in Ioo (0 : ℝ) 1, h true (u, v) = ∫ v in Ioo (0 : ℝ) 1, v := by
      refine setIntegral_congr_fun measurableSet_Ioo fun v hv => ?_
      rw [← unit_integral]
      exact H.margin hv
    rw [e, ← unit_integral, integral_id]
    norm_num
  have e := unit_congr (f := fun u => ∫ v in (0 : ℝ)..1, v * c (u, v)) (k := fun u => 1 - ∫ v in (0 : ℝ)..1, h true (u, v)) fun u hu => (H.expect hu).2
  refine ⟨e.1.2 ((intervalIntegrable_const (c := (1 : ℝ))).sub i1), ?_⟩
  rw [e.2, intervalIntegral.integral_sub intervalIntegrable_const i1, v1]
  norm_num

/-- The tau of a rotation: the half turn keeps it, the quarter turns change its sign. -/
theorem Generated.rotated (H : Generated C h c φ g) (sC : ∀ u v, Inside u → Inside v → C (v, u) = C (u, v)) (sc : ∀ u v, Inside u → Inside v → c (v, u) = c (u, v))
    {τ : ℝ} (hτ : IsKendall C c τ) (r : Rotation) :
    IsKendall (rotationCdf C r) (fun x => c (applyRotation r x)) (match r with | .r0 | .r180 => τ | .r90 | .r270 => -τ) := by
  obtain ⟨E1, E2⟩ := H.expect_total
  have hid : IntervalIntegrable (fun u : ℝ => u) volume 0 1 := continuous_id.intervalIntegrable 0 1
  cases r with
  | r0 => exact hτ
  | r90 =>
    have key : ∀ u, Inside u → IntervalIntegrable (fun v => rotationCdf C .r90 (u, v) * c (applyRotation .r90 (u, v))) volume 0 1 ∧
        ∫ v in (0 : ℝ)..1, rotationCdf C .r90 (u, v) * c (applyRotation .r90 (u, v)) = (∫ v in (0 : ℝ)..1, v * c (1 - u, v)) - ∫ v in (0 : ℝ)..1, C (1 - u, v) * c (1 - u, v) := by
      intro u hu
      have hx := inside_one_sub hu
      have e := unit_congr (f := fun v => rotationCdf C .r90 (u, v) * c (applyRotation .r90 (u, v))) (k := fun v => v * c (1 - u, v) - C (1 - u, v) * c (1 - u, v)) fun v hv => by
        simp only [rotationCdf, applyRotation]
        rw [sC _ _ hx hv, sc _ _ hx hv]
        ring
      refine ⟨e.1.2 ((H.expect hx).1.sub (hτ.inner _ hx)), ?_⟩
      rw [e.2, intervalIntegral.integral_sub (H.expect hx).1 (hτ.inner _ hx)]
    have e := unit_congr fun u hu => (key u hu).2
    have hs := E1.sub hτ.outer
    refine ⟨fun u hu => (key u hu).1, e.1.2 ((unit_flip fun u => (∫ v in (0 : ℝ)..1, v * c (u, v)) - ∫ v in (0 : ℝ)..1, C (u, v) * c (u, v)).1.2 hs), ?_⟩
    rw [e.2, (unit_flip fun u => (∫ v in (0 : ℝ)..1, v * c (u, v)) - ∫ v in (0 : ℝ)..1, C (u, v) * c (u, v)).2, intervalIntegral.integral_sub E1 hτ.outer, E2, hτ.value]
    ring
  | r180 =>
    have key : ∀ u, Inside u → IntervalIntegrable (fun v => rotationCdf C .r180 (u, v) * c (applyRotation .r180 (u, v))) volume 0 1 ∧
        ∫ v in (0 : ℝ)..1, rotationCdf C .r180 (u, v) * c (applyRotation .r180 (u, v)) = u - (∫ v in (0 : ℝ)..1, v * c (1 - u, v)) + ∫ v in (0 : ℝ)..1, C (1 - u, v) * c (1 - u, v) := by
      intro u hu
      have hx := inside_one_sub hu
      have e : (fun v => rotationCdf C .r180 (u, v) * c (applyRotation .r180 (u, v))) = fun v => (fun w => u * c (1 - u, w) - w * c (1 - u, w) + C (1 - u, w) * c (1 - u, w)) (1 - v) := by
        funext v
        simp only [rotationCdf, applyRotation]
        ring
      have f := unit_flip fun w => u * c (1 - u, w) - w * c (1 - u, w) + C (1 - u, w) * c (1 - u, w)
      have i1 := (H.total hx).1.const_mul u
      rw [e, f.1, f.2, intervalIntegral.integral_add (i1.sub (H.expect hx).1) (hτ.inner _ hx), intervalIntegral.integral_sub i1 (H.expect hx).1, intervalIntegral.integral_const_mul, (H.total hx).2, mul_one]
      exact ⟨(i1.sub (H.expect hx).1).add (hτ.inner _ hx), rfl⟩
    have e := unit_congr fun u hu => (key u hu).2
    have f1 := unit_flip fun u => ∫ v in (0 : ℝ)..1, v * c (u, v)
    have f2 := unit_flip fun u => ∫ v in (0 : ℝ)..1, C (u, v) * c (u, v)
    have g1 := f1.1.2 E1
    have g2 := f2.1.2 hτ.outer
    refine ⟨fun u hu => (key u hu).1, e.1.2 ((hid.sub g1).add g2), ?_⟩
    rw [e.2, intervalIntegral.integral_add (hid.sub g1) g2, intervalIntegral.integral_sub (f := fun u => u) hid g1, f1.2, f2.2, E2, hτ.value, integral_id]
    norm_num
  | r270 =>
    have key : ∀ u, Inside u → IntervalIntegrable (fun v => rotationCdf C .r270 (u, v) * c (applyRotation .r270 (u, v))) volume 0 1 ∧
        ∫ v in (0 : ℝ)..1, rotationCdf C .r270 (u, v) * c (applyRotation .r270 (u, v)) = u - ∫ v in (0 : ℝ)..1, C (u, v) * c (u, v) := by
      intro u hu
      have e := unit_congr (f := fun v => rotationCdf C .r270 (u, v) * c (applyRotation .r270 (u, v))) (k := fun v => (fun w => u * c (u, w) - C (u, w) * c (u, w)) (1 - v)) fun v hv => by
        simp only [rotationCdf, applyRotation]
        rw [sC _ _ hu (inside_one_sub hv), sc _ _ hu (inside_one_sub hv)]
        ring
      have f := unit_flip fun w => u * c (u, w) - C (u, w) * c (u, w)
      have i1 := (H.total hu).1.const_mul u
      rw [e.1, e.2, f.1, f.2, intervalIntegral.integral_sub i1 (hτ.inner _ hu), intervalIntegral.integral_const_mul, (H.total hu).2, mul_one]
      exact ⟨i1.sub (hτ.inner _ hu), rfl⟩
    have e := unit_congr fun u hu => (key u hu).2
    refine ⟨fun u hu => (key u hu).1, e.1.2 (hid.sub hτ.outer), ?_⟩
    rw [e.2, intervalIntegral.integral_sub (f := fun u => u) hid hτ.outer, integral_id, hτ.value]
    norm_num
    ring

end Skfolio.Copula
