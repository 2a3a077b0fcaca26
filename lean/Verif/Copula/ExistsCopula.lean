import Verif.Copula.TailElliptical
import Mathlib.MeasureTheory.Integral.IntervalIntegral.FundThmCalculus
import Mathlib.MeasureTheory.Integral.Prod
import Mathlib.MeasureTheory.Integral.DominatedConvergence
import Mathlib.MeasureTheory.Measure.Lebesgue.Basic
import Mathlib.MeasureTheory.Integral.IntervalIntegral.DerivIntegrable

/-!
The conditional distribution functions of the code belong to a copula: there is a copula with the partial derivatives of `GaussianCopula` and of `StudentTCopula`.
-/
set_option autoImplicit false

namespace Skfolio.Copula

open Filter Topology MeasureTheory Set

/-! ### two conditional distributions with a common density -/

/-- The conditional distribution functions `h true`, `h false` have the common density `c`, and the limits of distribution functions. -/
structure Conditionals (h : Bool → ℝ × ℝ → ℝ) (c : ℝ × ℝ → ℝ) : Prop where
  dens : IsDensity h c
  cont : ∀ u v, Inside u → Inside v → ContinuousAt c (u, v)
  nonneg : ∀ u v, Inside u → Inside v → 0 ≤ c (u, v)
  conth : ∀ b u v, Inside u → Inside v → ContinuousAt (h b) (u, v)
  inside : ∀ b u v, Inside u → Inside v → Inside (h b (u, v))
  zero_true : ∀ u, Inside u → Tendsto (fun v => h true (u, v)) (𝓝[>] 0) (𝓝 0)
  one_true : ∀ u, Inside u → Tendsto (fun v => h true (u, v)) (𝓝[<] 1) (𝓝 1)
  zero_false : ∀ v, Inside v → Tendsto (fun u => h false (u, v)) (𝓝[>] 0) (𝓝 0)

/-- A bounded function that is continuous inside the unit interval is integrable. -/
theorem integrable_inside {g : ℝ → ℝ} (hg : ∀ t, Inside t → ContinuousAt g t) (hb : ∀ t, Inside t → Inside (g t)) {a b : ℝ} (ha : 0 ≤ a) (hab : a ≤ b) (hb1 : b ≤ 1) :
    IntervalIntegrable g volume a b := by
  have hc : ContinuousOn g (Ioo 0 1) := fun t ht => (hg t ⟨ht.1, ht.2⟩).continuousWithinAt
  have hi : IntegrableOn g (Ioo 0 1) := by
    refine Integrable.of_bound (hc.aestronglyMeasurable measurableSet_Ioo) 1 ?_
    filter_upwards [ae_restrict_mem measurableSet_Ioo] with t ht
    have := hb t ⟨ht.1, ht.2⟩
    rw [Real.norm_eq_abs, abs_of_pos this.1]
    exact this.2.le
  rw [intervalIntegrable_iff_integrableOn_Ioo_of_le hab]
  exact hi.mono_set fun t ht => ⟨lt_of_le_of_lt ha ht.1, lt_of_lt_of_le ht.2 hb1⟩

theorem integral_small {g : ℝ → ℝ} (hb : ∀ t, Inside t → Inside (g t)) {w : ℝ} (hw : Inside w) : |∫ t in (0 : ℝ)..w, g t| ≤ w := by
  have := intervalIntegral.norm_integral_le_of_norm_le_const (f := g) (a := 0) (b := w) (C := 1) (by
    intro t ht
    rw [uIoc_of_le hw.1.le] at ht
    have := hb t ⟨ht.1, lt_of_le_of_lt ht.2 hw.2⟩
    rw [Real.norm_eq_abs, abs_of_pos this.1]
    exact this.2.le)
  rwa [sub_zero, one_mul, abs_of_pos hw.1, Real.norm_eq_abs] at this

theorem swap_rect {c : ℝ × ℝ → ℝ} {a b w v : ℝ} (hab : a ≤ b) (hwv : w ≤ v) (hc : ContinuousOn c (Icc a b ×ˢ Icc w v)) :
    ∫ t in w..v, ∫ s in a..b, c (s, t) = ∫ s in a..b, ∫ t in w..v, c (s, t) := by
  simp only [intervalIntegral.integral_of_le hab, intervalIntegral.integral_of_le hwv]
  have hi : IntegrableOn c (Ioc a b ×ˢ Ioc w v) (volume.prod volume) := by
    have : IntegrableOn c (Icc a b ×ˢ Icc w v) (volume.prod volume) := hc.integrableOn_compact (isCompact_Icc.prod isCompact_Icc)
    exact this.mono_set (prod_mono Ioc_subset_Icc_self Ioc_subset_Icc_self)
  rw [IntegrableOn, ← Measure.prod_restrict] at hi
  exact (integral_integral_swap (f := fun s t => c (s, t)) hi).symm

variable {h : Bool → ℝ × ℝ → ℝ} {c : ℝ × ℝ → ℝ}

theorem Conditionals.cont_false (H : Conditionals h c) {u : ℝ} (hu : Inside u) (t : ℝ) (ht : Inside t) : ContinuousAt (fun t => h false (u, t)) t :=
  ContinuousAt.comp (f := fun t => (u, t)) (H.conth false u t hu ht) (by fun_prop)

theorem Conditionals.cont_true (H : Conditionals h c) {v : ℝ} (hv : Inside v) (s : ℝ) (hs : Inside s) : ContinuousAt (fun s => h true (s, v)) s :=
  ContinuousAt.comp (f := fun s => (s, v)) (H.conth true s v hs hv) (by fun_prop)

theorem inside_between {a b t : ℝ} (ha : Inside a) (hb : Inside b) (ht : t ∈ Icc a b) : Inside t := ⟨lt_of_lt_of_le ha.1 ht.1, lt_of_le_of_lt ht.2 hb.2⟩

/-- Both iterated integrals of the density over a rectangle. -/
theorem Conditionals.rect (H : Conditionals h c) {a b w v : ℝ} (ha : Inside a) (hb : Inside b) (hw : Inside w) (hv : Inside v) (hab : a ≤ b) (hwv : w ≤ v) :
    ∫ t in w..v, (h false (b, t) - h false (a, t)) = ∫ s in a..b, (h true (s, v) - h true (s, w)) := by
  have hc : ContinuousOn c (Icc a b ×ˢ Icc w v) := fun x hx => (H.cont x.1 x.2 (inside_between ha hb hx.1) (inside_between hw hv hx.2)).continuousWithinAt
  have e := swap_rect hab hwv hc
  have e1 : ∫ t in w..v, ∫ s in a..b, c (s, t) = ∫ t in w..v, (h false (b, t) - h false (a, t)) := by
    refine intervalIntegral.integral_congr fun t ht => ?_
    rw [uIcc_of_le hwv] at ht
    have it := inside_between hw hv ht
    refine intervalIntegral.integral_eq_sub_of_hasDerivAt (f := fun s => h false (s, t)) (fun s hs => ?_) ?_
    · rw [uIcc_of_le hab] at hs
      exact (H.dens s t (inside_between ha hb hs) it).1
    · refine ContinuousOn.intervalIntegrable ?_
      rw [uIcc_of_le hab]
      intro s hs
      exact (ContinuousAt.comp (f := fun s => (s, t)) (H.cont s t (inside_between ha hb hs) it) (by fun_prop)).continuousWithinAt
  have e2 : ∫ s in a..b, ∫ t in w..v, c (s, t) = ∫ s in a..b, (h true (s, v) - h true (s, w)) := by
    refine intervalIntegral.integral_congr fun s hs => ?_
    rw [uIcc_of_le hab] at hs
    have is := inside_between ha hb hs
    refine intervalIntegral.integral_eq_sub_of_hasDerivAt (f := fun t => h true (s, t)) (fun t ht => ?_) ?_
    · rw [uIcc_of_le hwv] at ht
      exact (H.dens s t is (inside_between hw hv ht)).2
    · refine ContinuousOn.intervalIntegrable ?_
      rw [uIcc_of_le hwv]
      intro t ht
      exact (ContinuousAt.comp (f := fun t => (s, t)) (H.cont s t is (inside_between hw hv ht)) (by fun_prop)).continuousWithinAt
  rw [← e1, e, e2]

theorem Conditionals.int_false (H : Conditionals h c) {u a b : ℝ} (hu : Inside u) (ha : 0 ≤ a) (hab : a ≤ b) (hb : b ≤ 1) : IntervalIntegrable (fun t => h false (u, t)) volume a b :=
  integrable_inside (H.cont_false hu) (fun t ht => H.inside false u t hu ht) ha hab hb

theorem Conditionals.int_true (H : Conditionals h c) {v a b : ℝ} (hv : Inside v) (ha : 0 ≤ a) (hab : a ≤ b) (hb : b ≤ 1) : IntervalIntegrable (fun s => h true (s, v)) volume a b :=
  integrable_inside (H.cont_true hv) (fun s hs => H.inside true s v hs hv) ha hab hb

theorem tendsto_small {φ : ℝ → ℝ} (hφ : ∀ w, Inside w → |φ w| ≤ w) : Tendsto φ (𝓝[>] 0) (𝓝 0) := by
  refine squeeze_zero_norm' ?_ (tendsto_id.mono_left nhdsWithin_le_nhds)
  filter_upwards [eventually_inside] with w hw
  exact hφ w hw

/-- The rectangle down to the axis. -/
theorem Conditionals.strip (H : Conditionals h c) {a b v : ℝ} (ha : Inside a) (hb : Inside b) (hv : Inside v) (hab : a ≤ b) :
    (∫ t in (0 : ℝ)..v, h false (b, t)) - ∫ t in (0 : ℝ)..v, h false (a, t) = ∫ s in a..b, h true (s, v) := by
  have l1 : ∀ u, Inside u → Tendsto (fun w => ∫ t in w..v, h false (u, t)) (𝓝[>] 0) (𝓝 (∫ t in (0 : ℝ)..v, h false (u, t))) := by
    intro u hu
    have h0 : Tendsto (fun w => ∫ t in (0 : ℝ)..w, h false (u, t)) (𝓝[>] 0) (𝓝 0) := tendsto_small fun w hw => integral_small (fun t ht => H.inside false u t hu ht) hw
    have := h0.const_sub (∫ t in (0 : ℝ)..v, h false (u, t))
    rw [sub_zero] at this
    refine this.congr' ?_
    filter_upwards [eventually_inside, Ioo_mem_nhdsGT hv.1] with w hw hwv
    rw [← intervalIntegral.integral_add_adjacent_intervals (H.int_false hu (le_refl 0) hw.1.le hw.2.le) (H.int_false hu hw.1.le hwv.2.le hv.2.le)]
    ring
  have r0 : Tendsto (fun w => ∫ s in a..b, h true (s, w)) (𝓝[>] 0) (𝓝 (∫ _ in a..b, (0 : ℝ))) := by
    refine intervalIntegral.tendsto_integral_filter_of_dominated_convergence (fun _ => 1) ?_ ?_ ?_ ?_
    · filter_upwards [eventually_inside] with w hw
      rw [uIoc_of_le hab]
      refine ContinuousOn.aestronglyMeasurable (fun s hs => ?_) measurableSet_Ioc
      exact (H.cont_true hw s (inside_between ha hb ⟨hs.1.le, hs.2⟩)).continuousWithinAt
    · filter_upwards [eventually_inside] with w hw
      refine Eventually.of_forall fun s hs => ?_
      rw [uIoc_of_le hab] at hs
      have := H.inside true s w (inside_between ha hb ⟨hs.1.le, hs.2⟩) hw
      rw [Real.norm_eq_abs, abs_of_pos this.1]
      exact this.2.le
    · exact intervalIntegrable_const
    · refine Eventually.of_forall fun s hs => ?_
      rw [uIoc_of_le hab] at hs
      exact H.zero_true s (inside_between ha hb ⟨hs.1.le, hs.2⟩)
  rw [intervalIntegral.integral_zero] at r0
  have lhs := (l1 b hb).sub (l1 a ha)
  have rhs := r0.const_sub (∫ s in a..b, h true (s, v))
  rw [sub_zero] at rhs
  refine tendsto_nhds_unique lhs (rhs.congr' ?_)
  filter_upwards [eventually_inside, Ioo_mem_nhdsGT hv.1] with w hw hwv
  rw [← intervalIntegral.integral_sub (H.int_true hv ha.1.le hab hb.2.le) (H.int_true hw ha.1.le hab hb.2.le), ← H.rect ha hb hw hv hab hwv.2.le,
    intervalIntegral.integral_sub (H.int_false hb hw.1.le hwv.2.le hv.2.le) (H.int_false ha hw.1.le hwv.2.le hv.2.le)]

/-- The mass of the rectangle from the origin, in both orders. -/
theorem Conditionals.corner (H : Conditionals h c) {u v : ℝ} (hu : Inside u) (hv : Inside v) : ∫ t in (0 : ℝ)..v, h false (u, t) = ∫ s in (0 : ℝ)..u, h true (s, v) := by
  have r0 : Tendsto (fun a => ∫ t in (0 : ℝ)..v, h false (a, t)) (𝓝[>] 0) (𝓝 (∫ _ in (0 : ℝ)..v, (0 : ℝ))) := by
    refine intervalIntegral.tendsto_integral_filter_of_dominated_convergence (fun _ => 1) ?_ ?_ ?_ ?_
    · filter_upwards [eventually_inside] with a ha
      rw [uIoc_of_le hv.1.le]
      refine ContinuousOn.aestronglyMeasurable (fun t ht => ?_) measurableSet_Ioc
      exact (H.cont_false ha t ⟨ht.1, lt_of_le_of_lt ht.2 hv.2⟩).continuousWithinAt
    · filter_upwards [eventually_inside] with a ha
      refine Eventually.of_forall fun t ht => ?_
      rw [uIoc_of_le hv.1.le] at ht
      have := H.inside false a t ha ⟨ht.1, lt_of_le_of_lt ht.2 hv.2⟩
      rw [Real.norm_eq_abs, abs_of_pos this.1]
      exact this.2.le
    · exact intervalIntegrable_const
    · refine Eventually.of_forall fun t ht => ?_
      rw [uIoc_of_le hv.1.le] at ht
      exact H.zero_false t ⟨ht.1, lt_of_le_of_lt ht.2 hv.2⟩
  rw [intervalIntegral.integral_zero] at r0
  have lhs := r0.const_sub (∫ t in (0 : ℝ)..v, h false (u, t))
  rw [sub_zero] at lhs
  have s0 : Tendsto (fun a => ∫ s in (0 : ℝ)..a, h true (s, v)) (𝓝[>] 0) (𝓝 0) := tendsto_small fun w hw => integral_small (fun t ht => H.inside true t v ht hv) hw
  have rhs := s0.const_sub (∫ s in (0 : ℝ)..u, h true (s, v))
  rw [sub_zero] at rhs
  refine tendsto_nhds_unique lhs (rhs.congr' ?_)
  filter_upwards [eventually_inside, Ioo_mem_nhdsGT hu.1] with a ha hau
  rw [H.strip ha hu hv hau.2.le, ← intervalIntegral.integral_add_adjacent_intervals (H.int_true hv (le_refl 0) ha.1.le ha.2.le) (H.int_true hv ha.1.le hau.2.le hu.2.le)]
  ring

/-! ### the copula -/

/-- The conditional distribution function, with its limits. -/
noncomputable def extended (h : Bool → ℝ × ℝ → ℝ) (u t : ℝ) : ℝ := if u ≤ 0 then 0 else if 1 ≤ u then 1 else h false (u, t)

noncomputable def integralCopula (h : Bool → ℝ × ℝ → ℝ) (x : ℝ × ℝ) : ℝ := ∫ t in (0 : ℝ)..x.2, extended h x.1 t

theorem extended_inside {u : ℝ} (hu : Inside u) (t : ℝ) : extended h u t = h false (u, t) := by
  unfold extended
  rw [if_neg (not_le.2 hu.1), if_neg (not_le.2 hu.2)]

theorem Conditionals.int_extended (H : Conditionals h c) (u : ℝ) {a b : ℝ} (ha : 0 ≤ a) (hab : a ≤ b) (hb : b ≤ 1) : IntervalIntegrable (extended h u) volume a b := by
  by_cases h0 : u ≤ 0
  · have : extended h u = fun _ => 0 := by funext t; unfold extended; rw [if_pos h0]
    rw [this]; exact intervalIntegrable_const
  · by_cases h1 : 1 ≤ u
    · have : extended h u = fun _ => 1 := by funext t; unfold extended; rw [if_neg h0, if_pos h1]
      rw [this]; exact intervalIntegrable_const
    · have hu : Inside u := ⟨not_le.1 h0, not_le.1 h1⟩
      have : extended h u = fun t => h false (u, t) := funext fun t => extended_inside hu t
      rw [this]; exact H.int_false hu ha hab hb

theorem Conditionals.mono_false (H : Conditionals h c) {a b t : ℝ} (ha : Inside a) (hb : Inside b) (ht : Inside t) (hab : a ≤ b) : h false (a, t) ≤ h false (b, t) := by
  have hm : MonotoneOn (fun s => h false (s, t)) (Icc a b) := by
    refine monotoneOn_of_deriv_nonneg (convex_Icc a b) (fun s hs => (H.dens s t (inside_between ha hb hs) ht).1.continuousAt.continuousWithinAt)
      (fun s hs => ?_) fun s hs => ?_
    · rw [interior_Icc] at hs
      exact (H.dens s t (inside_between ha hb ⟨hs.1.le, hs.2.le⟩) ht).1.differentiableAt.differentiableWithinAt
    · rw [interior_Icc] at hs
      have is := inside_between ha hb (t := s) ⟨hs.1.le, hs.2.le⟩
      rw [(H.dens s t is ht).1.deriv]
      exact H.nonneg s t is ht
  exact hm ⟨le_refl _, hab⟩ ⟨hab, le_refl _⟩ hab

theorem Conditionals.mono_extended (H : Conditionals h c) {a b t : ℝ} (ht : Inside t) (hab : a ≤ b) : extended h a t ≤ extended h b t := by
  unfold extended
  by_cases ha0 : a ≤ 0
  · rw [if_pos ha0]
    by_cases hb0 : b ≤ 0
    · rw [if_pos hb0]
    · rw [if_neg hb0]
      by_cases hb1 : 1 ≤ b
      · rw [if_pos hb1]; exact zero_le_one
      · rw [if_neg hb1]; exact (H.inside false b t ⟨not_le.1 hb0, not_le.1 hb1⟩ ht).1.le
  · have hb0 : ¬ b ≤ 0 := fun h => ha0 (hab.trans h)
    rw [if_neg ha0, if_neg hb0]
    by_cases ha1 : 1 ≤ a
    · rw [if_pos ha1, if_pos (ha1.trans hab)]
    · rw [if_neg ha1]
      by_cases hb1 : 1 ≤ b
      · rw [if_pos hb1]; exact (H.inside false a t ⟨not_le.1 ha0, not_le.1 ha1⟩ ht).2.le
      · rw [if_neg hb1]; exact H.mono_false ⟨not_le.1 ha0, not_le.1 ha1⟩ ⟨not_le.1 hb0, not_le.1 hb1⟩ ht hab

theorem Conditionals.margin (H : Conditionals h c) {u : ℝ} (hu : Inside u) : ∫ t in (0 : ℝ)..1, h false (u, t) = u := by
  have lhs : Tendsto (fun v => ∫ t in (0 : ℝ)..v, h false (u, t)) (𝓝[<] 1) (𝓝 (∫ t in (0 : ℝ)..1, h false (u, t))) := by
    have hz : Tendsto (fun v => ∫ t in v..1, h false (u, t)) (𝓝[<] 1) (𝓝 0) := by
      refine squeeze_zero_norm' ?_ (tendsto_one_sub_left.mono_right nhdsWithin_le_nhds)
      filter_upwards [eventually_inside_left] with v hv
      have := intervalIntegral.norm_integral_le_of_norm_le_const_ae (f := fun t => h false (u, t)) (a := v) (b := 1) (C := 1) ?_
      · rwa [one_mul, abs_of_pos (by linarith [hv.2])] at this
      · have hne : ∀ᵐ t : ℝ, t ≠ 1 := by simp [ae_iff]
        filter_upwards [hne] with t ht1 ht
        rw [uIoc_of_le hv.2.le] at ht
        have := H.inside false u t hu ⟨hv.1.trans ht.1, lt_of_le_of_ne ht.2 ht1⟩
        rw [Real.norm_eq_abs, abs_of_pos this.1]
        exact this.2.le
    have := hz.const_sub (∫ t in (0 : ℝ)..1, h false (u, t))
    rw [sub_zero] at this
    refine this.congr' ?_
    filter_upwards [eventually_inside_left] with v hv
    rw [← intervalIntegral.integral_add_adjacent_intervals (H.int_false hu (le_refl 0) hv.1.le hv.2.le) (H.int_false hu hv.1.le hv.2.le (le_refl 1))]
    ring
  have rhs : Tendsto (fun v => ∫ s in (0 : ℝ)..u, h true (s, v)) (𝓝[<] 1) (𝓝 (∫ _ in (0 : ℝ)..u, (1 : ℝ))) := by
    refine intervalIntegral.tendsto_integral_filter_of_dominated_convergence (fun _ => 1) ?_ ?_ ?_ ?_
    · filter_upwards [eventually_inside_left] with v hv
      rw [uIoc_of_le hu.1.le]
      refine ContinuousOn.aestronglyMeasurable (fun t ht => ?_) measurableSet_Ioc
      exact (H.cont_true hv t ⟨ht.1, lt_of_le_of_lt ht.2 hu.2⟩).continuousWithinAt
    · filter_upwards [eventually_inside_left] with v hv
      refine Eventually.of_forall fun t ht => ?_
      rw [uIoc_of_le hu.1.le] at ht
      have := H.inside true t v ⟨ht.1, lt_of_le_of_lt ht.2 hu.2⟩ hv
      rw [Real.norm_eq_abs, abs_of_pos this.1]
      exact this.2.le
    · exact intervalIntegrable_const
    · refine Eventually.of_forall fun t ht => ?_
      rw [uIoc_of_le hu.1.le] at ht
      exact H.one_true t ⟨ht.1, lt_of_le_of_lt ht.2 hu.2⟩
  have e : ∫ _ in (0 : ℝ)..u, (1 : ℝ) = u := by simp
  rw [e] at rhs
  refine tendsto_nhds_unique lhs (rhs.congr' ?_)
  filter_upwards [eventually_inside_left] with v hv
  exact (H.corner hu hv).symm

theorem Conditionals.copula (H : Conditionals h c) : IsCopula (integralCopula h) where
  grounded := by
    intro t ht
    constructor
    · have : extended h 0 = fun _ => 0 := by funext t; unfold extended; rw [if_pos (le_refl _)]
      simp [integralCopula, this]
    · simp [integralCopula]
  margins := by
    intro t ht
    constructor
    · have : extended h 1 = fun _ => 1 := by funext t; unfold extended; rw [if_neg (by norm_num), if_pos (le_refl _)]
      simp [integralCopula, this]
    · unfold integralCopula
      by_cases h0 : t ≤ 0
      · have e : t = 0 := le_antisymm h0 ht.1
        have : extended h t = fun _ => 0 := by funext x; unfold extended; rw [if_pos h0]
        simp only [this]
        simp [e]
      · by_cases h1 : 1 ≤ t
        · have e : t = 1 := le_antisymm ht.2 h1
          have : extended h t = fun _ => 1 := by funext x; unfold extended; rw [if_neg h0, if_pos h1]
          simp only [this]
          simp [e]
        · have hu : Inside t := ⟨not_le.1 h0, not_le.1 h1⟩
          have : extended h t = fun x => h false (t, x) := funext fun x => extended_inside hu x
          simp only [this]
          exact H.margin hu
  mass_nonneg := by
    intro a b x y ha hab hb hx hxy hy
    have hx1 : x ≤ 1 := hxy.trans hy
    have e : mass (integralCopula h) a b x y = ∫ t in x..y, (extended h b t - extended h a t) := by
      rw [intervalIntegral.integral_sub (H.int_extended b hx hxy hy) (H.int_extended a hx hxy hy)]
      simp only [mass, integralCopula]
      rw [← intervalIntegral.integral_add_adjacent_intervals (H.int_extended b (le_refl 0) hx hx1) (H.int_extended b hx hxy hy),
        ← intervalIntegral.integral_add_adjacent_intervals (H.int_extended a (le_refl 0) hx hx1) (H.int_extended a hx hxy hy)]
      ring
    rw [e]
    rw [intervalIntegral.integral_of_le hxy, integral_Ioc_eq_integral_Ioo]
    refine setIntegral_nonneg measurableSet_Ioo fun t ht => ?_
    have it : Inside t := ⟨lt_of_le_of_lt hx ht.1, lt_of_lt_of_le ht.2 hy⟩
    exact sub_nonneg.2 (H.mono_extended it hab)

theorem Conditionals.isPartial (H : Conditionals h c) : IsPartial (integralCopula h) h := by
  intro u v hu hv
  constructor
  · have e : (fun t => integralCopula h (t, v)) =ᶠ[𝓝 u] fun t => ∫ s in (0 : ℝ)..t, h true (s, v) := by
      filter_upwards [isOpen_inside.mem_nhds hu] with t ht
      simp only [integralCopula]
      rw [← H.corner ht hv]
      exact intervalIntegral.integral_congr fun s _ => extended_inside ht s
    refine HasDerivAt.congr_of_eventuallyEq ?_ e
    refine intervalIntegral.integral_hasDerivAt_right (H.int_true hv (le_refl 0) hu.1.le hu.2.le) ?_ (H.cont_true hv u hu)
    exact ContinuousOn.stronglyMeasurableAtFilter isOpen_inside (fun s hs => (H.cont_true hv s hs).continuousWithinAt) u hu
  · have e : (fun t => integralCopula h (u, t)) = fun t => ∫ s in (0 : ℝ)..t, h false (u, s) := by
      funext t
      simp only [integralCopula]
      exact intervalIntegral.integral_congr fun s _ => extended_inside hu s
    rw [e]
    refine intervalIntegral.integral_hasDerivAt_right (H.int_false hu (le_refl 0) hv.1.le hv.2.le) ?_ (H.cont_false hu v hv)
    exact ContinuousOn.stronglyMeasurableAtFilter isOpen_inside (fun s hs => (H.cont_false hu s hs).continuousWithinAt) v hv

/-- The conditional distribution function is the integral of the density. -/
theorem Conditionals.true_eq_integral (H : Conditionals h c) {u v : ℝ} (hu : Inside u) (hv : Inside v) : h true (u, v) = ∫ t in (0 : ℝ)..v, c (u, t) := by
  obtain ⟨g, hg⟩ : ∃ g : ℝ → ℝ, g = fun t => if t ≤ 0 then 0 else h true (u, t) := ⟨_, rfl⟩
  have hg0 : g 0 = 0 := by rw [hg]; simp
  have hgp : ∀ t, 0 < t → g t = h true (u, t) := by intro t ht; rw [hg]; simp [not_le.2 ht]
  have hev : ∀ t, 0 < t → g =ᶠ[𝓝 t] fun t => h true (u, t) := by
    intro t ht
    filter_upwards [lt_mem_nhds ht] with x hx
    exact hgp x hx
  have hd : ∀ t ∈ Ioo 0 v, HasDerivAt g (c (u, t)) t := fun t ht => ((H.dens u t hu ⟨ht.1, ht.2.trans hv.2⟩).2).congr_of_eventuallyEq (hev t ht.1)
  have hcont : ContinuousOn g (Icc 0 v) := by
    intro t ht
    rcases eq_or_lt_of_le ht.1 with h0 | h0
    · subst h0
      have h1 : ContinuousWithinAt g (Ioi 0) 0 := by
        rw [ContinuousWithinAt, hg0]
        refine (H.zero_true u hu).congr' ?_
        filter_upwards [self_mem_nhdsWithin] with x hx
        exact (hgp x hx).symm
      have h2 : ContinuousWithinAt g (Ici 0) 0 := by
        rw [← continuousWithinAt_Ioi_iff_Ici]; exact h1
      exact h2.mono Icc_subset_Ici_self
    · have it : Inside t := ⟨h0, lt_of_le_of_lt ht.2 hv.2⟩
      exact (((H.dens u t hu it).2).congr_of_eventuallyEq (hev t h0)).continuousAt.continuousWithinAt
  have hi : IntervalIntegrable (fun t => c (u, t)) volume 0 v := by
    rw [intervalIntegrable_iff_integrableOn_Ioc_of_le hv.1.le]
    exact intervalIntegral.integrableOn_deriv_of_nonneg hcont hd fun t ht => H.nonneg u t hu ⟨ht.1, ht.2.trans hv.2⟩
  rw [intervalIntegral.integral_eq_sub_of_hasDerivAt_of_le hv.1.le hcont hd hi, hg0, sub_zero, hgp v hv.1]

/-- The copula is the double integral of the density. -/
theorem Conditionals.copula_eq (H : Conditionals h c) {u v : ℝ} (hu : Inside u) (hv : Inside v) : integralCopula h (u, v) = ∫ s in (0 : ℝ)..u, ∫ t in (0 : ℝ)..v, c (s, t) := by
  have e : integralCopula h (u, v) = ∫ t in (0 : ℝ)..v, h false (u, t) := intervalIntegral.integral_congr fun s _ => extended_inside hu s
  rw [e, H.corner hu hv, intervalIntegral.integral_of_le hu.1.le, intervalIntegral.integral_of_le hu.1.le]
  refine setIntegral_congr_fun measurableSet_Ioc fun s hs => ?_
  exact H.true_eq_integral ⟨hs.1, lt_of_le_of_lt hs.2 hu.2⟩ hv

/-- Two copulas with the same conditional distribution functions are equal. -/
theorem copula_unique {C D : ℝ × ℝ → ℝ} (hC : IsCopula C) (hD : IsCopula D) (pC : IsPartial C h) (pD : IsPartial D h) {u v : ℝ} (hu : Inside u) (hv : Inside v) : C (u, v) = D (u, v) := by
  have lip : ∀ {E : ℝ × ℝ → ℝ}, IsCopula E → ∀ t, Inside t → |E (t, v)| ≤ t := by
    intro E hE t ht
    have m1 := hE.mass_nonneg 0 t 0 v (le_refl _) ht.1.le ht.2.le (le_refl _) hv.1.le hv.2.le
    have m2 := hE.mass_nonneg 0 t v 1 (le_refl _) ht.1.le ht.2.le hv.1.le hv.2.le (le_refl _)
    simp only [mass, (hE.grounded v ⟨hv.1.le, hv.2.le⟩).1, (hE.grounded t ⟨ht.1.le, ht.2.le⟩).2, (hE.grounded 0 ⟨le_refl _, zero_le_one⟩).1,
      (hE.grounded 1 ⟨zero_le_one, le_refl _⟩).1, (hE.margins t ⟨ht.1.le, ht.2.le⟩).2] at m1 m2
    rw [abs_of_nonneg (by linarith)]
    linarith
  have hd : ∀ t, Inside t → HasDerivAt (fun t => C (t, v) - D (t, v)) 0 t := by
    intro t ht
    exact ((pC t v ht hv).1.sub (pD t v ht hv).1).congr_deriv (sub_self _)
  have hconst : ∀ t, Inside t → C (t, v) - D (t, v) = C (u, v) - D (u, v) := by
    intro t ht
    refine (convex_Ioo (0 : ℝ) 1).is_const_of_fderivWithin_eq_zero (𝕜 := ℝ) (f := fun t => C (t, v) - D (t, v)) (fun x hx => (hd x hx).differentiableAt.differentiableWithinAt) (fun x hx => ?_) ht hu
    rw [fderivWithin_of_isOpen isOpen_Ioo hx]
    simpa using (hd x hx).hasFDerivAt.fderiv
  have h1 : Tendsto (fun t => C (t, v) - D (t, v)) (𝓝[>] 0) (𝓝 0) := by
    have := (tendsto_small (lip hC)).sub (tendsto_small (lip hD))
    rwa [sub_zero] at this
  have h2 : Tendsto (fun t => C (t, v) - D (t, v)) (𝓝[>] 0) (𝓝 (C (u, v) - D (u, v))) := by
    refine Tendsto.congr' ?_ tendsto_const_nhds
    filter_upwards [eventually_inside] with t ht
    exact (hconst t ht).symm
  exact sub_eq_zero.1 (tendsto_nhds_unique h2 h1)

/-! ### Gaussian -/

variable {F Q : ℝ → ℝ}

theorem gaussian_conditionals (hq : IsQuantile F Q normalPdf) {ρ : ℝ} (hρ : ρ ^ 2 < 1) : Conditionals (gaussianPartial F Q ρ) (fun x => Real.exp (gaussianScore Q ρ x)) where
  dens := (C51_gaussian F Q hq ρ hρ).2
  cont := by
    intro u v hu hv
    have cu : ContinuousAt (fun x : ℝ × ℝ => Q x.1) (u, v) := ContinuousAt.comp (f := Prod.fst) (x := (u, v)) (hq.deriv_quantile hu).continuousAt continuousAt_fst
    have cv : ContinuousAt (fun x : ℝ × ℝ => Q x.2) (u, v) := ContinuousAt.comp (f := Prod.snd) (x := (u, v)) (hq.deriv_quantile hv).continuousAt continuousAt_snd
    refine ContinuousAt.rexp ?_
    unfold gaussianScore
    exact continuousAt_const.sub ((continuousAt_const.mul ((continuousAt_const.mul ((cu.pow 2).add (cv.pow 2))).sub (cu.mul cv))).div_const _)
  nonneg := fun _ _ _ _ => (Real.exp_pos _).le
  conth := fun b _ _ hu hv => gaussian_continuousAt hq b hu hv
  inside := fun _ _ _ _ _ => hq.inside _
  zero_true := by
    intro u hu
    have hk : 0 < (Real.sqrt (1 - ρ ^ 2))⁻¹ := inv_pos.2 (Real.sqrt_pos.2 (by linarith))
    exact hq.atBot.comp ((tendsto_atBot_add_const_right _ (-(ρ * Q u)) hq.quantile_atBot).atBot_mul_const hk)
  one_true := by
    intro u hu
    have hk : 0 < (Real.sqrt (1 - ρ ^ 2))⁻¹ := inv_pos.2 (Real.sqrt_pos.2 (by linarith))
    exact hq.atTop.comp ((tendsto_atTop_add_const_right _ (-(ρ * Q u)) hq.quantile_atTop).atTop_mul_const hk)
  zero_false := by
    intro v hv
    have hk : 0 < (Real.sqrt (1 - ρ ^ 2))⁻¹ := inv_pos.2 (Real.sqrt_pos.2 (by linarith))
    exact hq.atBot.comp ((tendsto_atBot_add_const_right _ (-(ρ * Q v)) hq.quantile_atBot).atBot_mul_const hk)

/-- **C51, Gaussian: the copula.** There is a copula with the conditional distribution functions of the code, it is unique, and its distribution function is the double integral of the exponential of the score. -/
theorem C51_gaussian_copula (ndtr ndtri : ℝ → ℝ) (hq : IsQuantile ndtr ndtri normalPdf) (ρ : ℝ) (hρ : ρ ^ 2 < 1) :
    ∃ C, IsCopula C ∧ IsPartial C (gaussianPartial ndtr ndtri ρ) ∧
      (∀ u v, Inside u → Inside v → C (u, v) = ∫ s in (0 : ℝ)..u, ∫ t in (0 : ℝ)..v, Real.exp (gaussianScore ndtri ρ (s, t))) ∧
      ∀ D, IsCopula D → IsPartial D (gaussianPartial ndtr ndtri ρ) → ∀ u v, Inside u → Inside v → D (u, v) = C (u, v) := by
  have H := gaussian_conditionals hq hρ
  exact ⟨_, H.copula, H.isPartial, fun u v hu hv => H.copula_eq hu hv, fun D hD pD u v hu hv => copula_unique hD H.copula pD H.isPartial hu hv⟩

/-! ### Student's t -/

variable {F' Q' : ℝ → ℝ → ℝ}

theorem student_conditionals {ν : ℝ} (hν : 0 < ν) (hq : IsQuantile (F' ν) (Q' ν) (studentPdf ν)) (hq1 : IsQuantile (F' (ν + 1)) (Q' (ν + 1)) (studentPdf (ν + 1))) {ρ : ℝ} (hρ : ρ ^ 2 < 1) :
    Conditionals (studentPartial F' Q' ν ρ) (fun x => Real.exp (studentScore Q' ν ρ x)) where
  dens := (C51_student F' Q' ν hν hq hq1 ρ hρ).2
  cont := by
    intro u v hu hv
    have cu : ContinuousAt (fun x : ℝ × ℝ => Q' ν x.1) (u, v) := ContinuousAt.comp (f := Prod.fst) (x := (u, v)) (hq.deriv_quantile hu).continuousAt continuousAt_fst
    have cv : ContinuousAt (fun x : ℝ × ℝ => Q' ν x.2) (u, v) := ContinuousAt.comp (f := Prod.snd) (x := (u, v)) (hq.deriv_quantile hv).continuousAt continuousAt_snd
    refine ContinuousAt.rexp ?_
    unfold studentScore
    have l1 : ∀ {a : ℝ × ℝ → ℝ}, ContinuousAt a (u, v) → ContinuousAt (fun x => Real.log (1 + a x ^ 2 / ν)) (u, v) := by
      intro a ha
      refine (continuousAt_const.add ((ha.pow 2).div_const ν)).log ?_
      have : 0 ≤ a (u, v) ^ 2 / ν := by positivity
      exact (add_pos_of_pos_of_nonneg one_pos this).ne'
    have l2 : ContinuousAt (fun x : ℝ × ℝ => Real.log (1 + (Q' ν x.1 ^ 2 - 2 * ρ * Q' ν x.1 * Q' ν x.2 + Q' ν x.2 ^ 2) / (1 - ρ ^ 2) / ν)) (u, v) := by
      refine (continuousAt_const.add (((((cu.pow 2).sub ((continuousAt_const.mul cu).mul cv)).add (cv.pow 2)).div_const _).div_const ν)).log ?_
      have h1 : 0 ≤ Q' ν u ^ 2 - 2 * ρ * Q' ν u * Q' ν v + Q' ν v ^ 2 := by
        nlinarith [sq_nonneg (Q' ν u - ρ * Q' ν v), sq_nonneg (Q' ν v)]
      have h2 : 0 < 1 - ρ ^ 2 := by linarith
      have : 0 ≤ (Q' ν u ^ 2 - 2 * ρ * Q' ν u * Q' ν v + Q' ν v ^ 2) / (1 - ρ ^ 2) / ν := div_nonneg (div_nonneg h1 h2.le) hν.le
      exact (add_pos_of_pos_of_nonneg one_pos this).ne'
    exact (continuousAt_const.add (continuousAt_const.mul ((l1 cu).add (l1 cv)))).sub (continuousAt_const.mul l2)
  nonneg := fun _ _ _ _ => (Real.exp_pos _).le
  conth := fun b _ _ hu hv => student_continuousAt hν hρ hq hq1 b hu hv
  inside := fun _ _ _ _ _ => hq1.inside _
  zero_true := by
    intro u hu
    have hk : 0 < (Real.sqrt ((1 - ρ ^ 2) * (ν + Q' ν u ^ 2) / (ν + 1)))⁻¹ := inv_pos.2 (Real.sqrt_pos.2 (student_scale hν hρ))
    exact hq1.atBot.comp ((tendsto_atBot_add_const_right _ (-(ρ * Q' ν u)) hq.quantile_atBot).atBot_mul_const hk)
  one_true := by
    intro u hu
    have hk : 0 < (Real.sqrt ((1 - ρ ^ 2) * (ν + Q' ν u ^ 2) / (ν + 1)))⁻¹ := inv_pos.2 (Real.sqrt_pos.2 (student_scale hν hρ))
    exact hq1.atTop.comp ((tendsto_atTop_add_const_right _ (-(ρ * Q' ν u)) hq.quantile_atTop).atTop_mul_const hk)
  zero_false := by
    intro v hv
    have hk : 0 < (Real.sqrt ((1 - ρ ^ 2) * (ν + Q' ν v ^ 2) / (ν + 1)))⁻¹ := inv_pos.2 (Real.sqrt_pos.2 (student_scale hν hρ))
    exact hq1.atBot.comp ((tendsto_atBot_add_const_right _ (-(ρ * Q' ν v)) hq.quantile_atBot).atBot_mul_const hk)

/-- **C51, Student's t: the copula.** There is a copula with the conditional distribution functions of the code, it is unique, and its distribution function is the double integral of the exponential of the score. -/
theorem C51_student_copula (stdtr stdtrit : ℝ → ℝ → ℝ) (ν : ℝ) (hν : 0 < ν) (hq : IsQuantile (stdtr ν) (stdtrit ν) (studentPdf ν))
    (hq1 : IsQuantile (stdtr (ν + 1)) (stdtrit (ν + 1)) (studentPdf (ν + 1))) (ρ : ℝ) (hρ : ρ ^ 2 < 1) :
    ∃ C, IsCopula C ∧ IsPartial C (studentPartial stdtr stdtrit ν ρ) ∧
      (∀ u v, Inside u → Inside v → C (u, v) = ∫ s in (0 : ℝ)..u, ∫ t in (0 : ℝ)..v, Real.exp (studentScore stdtrit ν ρ (s, t))) ∧
      ∀ D, IsCopula D → IsPartial D (studentPartial stdtr stdtrit ν ρ) → ∀ u v, Inside u → Inside v → D (u, v) = C (u, v) := by
  have H := student_conditionals hν hq hq1 hρ
  exact ⟨_, H.copula, H.isPartial, fun u v hu hv => H.copula_eq hu hv, fun D hD pD u v hu hv => copula_unique hD H.copula pD H.isPartial hu hv⟩

/-! ### instances -/

/-- The hypotheses of the tail theorems of the Gaussian copula hold for the true normal law and every correlation. -/
example (ρ : ℝ) (hρ : ρ ^ 2 < 1) : ∃ ndtr ndtri C, IsQuantile ndtr ndtri normalPdf ∧ IsCopula C ∧ IsPartial C (gaussianPartial ndtr ndtri ρ) ∧ LowerTail C 0 := by
  obtain ⟨F, Q, h⟩ := exists_normal
  obtain ⟨C, hC, hp, -⟩ := C51_gaussian_copula F Q h ρ hρ
  exact ⟨F, Q, C, h, hC, hp, (C89_gaussian F Q h ρ hρ C hC hp).1⟩

/-- Those of Student's t hold for one degree of freedom and every correlation. -/
example (ρ : ℝ) (hρ : ρ ^ 2 < 1) : ∃ stdtr stdtrit C, IsCopula C ∧ IsPartial C (studentPartial stdtr stdtrit 1 ρ) ∧ LowerTail C (studentLower stdtr 1 ρ) := by
  obtain ⟨F1, Q1, h1⟩ := exists_student_one
  obtain ⟨F2, Q2, h2⟩ := exists_student_two
  have e : (1 + 1 : ℝ) = 2 := by norm_num
  have e2 : (2 : ℝ) ≠ 1 := by norm_num
  obtain ⟨F, hF⟩ : ∃ F : ℝ → ℝ → ℝ, F = fun ν => if ν = 1 then F1 else F2 := ⟨_, rfl⟩
  obtain ⟨Q, hQ⟩ : ∃ Q : ℝ → ℝ → ℝ, Q = fun ν => if ν = 1 then Q1 else Q2 := ⟨_, rfl⟩
  have a : IsQuantile (F 1) (Q 1) (studentPdf 1) := by
    rw [hF, hQ]
    simpa using h1
  have b : IsQuantile (F (1 + 1)) (Q (1 + 1)) (studentPdf (1 + 1)) := by
    rw [e, hF, hQ]
    simpa [e2] using h2
  obtain ⟨C, hC, hp, -⟩ := C51_student_copula F Q 1 one_pos a b ρ hρ
  exact ⟨F, Q, C, hC, hp, (C89_student F Q 1 one_pos a b ρ hρ C hC hp).1⟩

end Skfolio.Copula
