import Verif.Copula.ArchimedeanModel
import Verif.Copula.CopulaLemmas
import Mathlib.Analysis.SpecialFunctions.Pow.Deriv
import Mathlib.Analysis.SpecialFunctions.Log.Deriv
import Mathlib.Analysis.SpecialFunctions.ExpDeriv
import Mathlib.Topology.Order.IntermediateValue
import Mathlib.Tactic.FieldSimp
import Mathlib.Tactic.Positivity

/-! C51, Joe. -/
set_option autoImplicit false

namespace Skfolio.Copula

open Set Real

/-- `(1 - u)^θ` of an inner point is an inner point. -/
theorem joe_pow {θ u : ℝ} (hθ : 1 ≤ θ) (hu : Inside u) : Inside ((1 - u) ^ θ) :=
  ⟨rpow_pos_of_pos (by linarith [hu.2]) θ, rpow_lt_one (by linarith [hu.2]) (by linarith [hu.1]) (by linarith)⟩

theorem joe_symm (θ u v : ℝ) : joeCdf θ (u, v) = joeCdf θ (v, u) := by
  unfold joeCdf
  simp only
  rw [add_comm ((1 - u) ^ θ), mul_comm ((1 - u) ^ θ)]

theorem hasDerivAt_joe_pow {θ v : ℝ} (hv : Inside v) : HasDerivAt (fun t : ℝ => (1 - t) ^ θ) (-θ * (1 - v) ^ (θ - 1)) v := by
  have h1 : HasDerivAt (fun t : ℝ => 1 - t) (-1) v := by
    have := (hasDerivAt_id v).const_sub 1
    exact this
  have := h1.rpow_const (p := θ) (Or.inl (by linarith [hv.2]))
  exact this.congr_deriv (by ring)

theorem joe_D {a b : ℝ} (hb : 0 < b) : a + b - a * b = b * (1 + a / b - a) := by
  field_simp
  ring

theorem joe_D_pos {a b : ℝ} (ha : Inside a) (hb : Inside b) : 0 < a + b - a * b := by
  have := mul_pos ha.1 (sub_pos.2 hb.2)
  linarith [hb.1]

theorem joe_W_ge {a b : ℝ} (ha : 0 ≤ a) (hb : Inside b) : 1 ≤ 1 + a / b - a := by
  have : a ≤ a / b := by
    rw [le_div_iff₀ hb.1]
    nlinarith [hb.2]
  linarith

theorem joe_deriv_false {θ u v : ℝ} (hθ : 1 ≤ θ) (hu : Inside u) (hv : Inside v) : HasDerivAt (fun t => joeCdf θ (u, t)) (joePartial θ false (u, v)) v := by
  have hA := joe_pow hθ hu
  have hB := joe_pow hθ hv
  have hv1 : 0 < 1 - v := by linarith [hv.2]
  obtain ⟨a, hadef⟩ : ∃ a, a = (1 - u) ^ θ := ⟨_, rfl⟩
  obtain ⟨b, hbdef⟩ : ∃ b, b = (1 - v) ^ θ := ⟨_, rfl⟩
  rw [← hadef] at hA
  rw [← hbdef] at hB
  have d1 := hasDerivAt_joe_pow (θ := θ) hv
  have d2 : HasDerivAt (fun t => a + (1 - t) ^ θ - a * (1 - t) ^ θ) ((1 - a) * (-θ * (1 - v) ^ (θ - 1))) v :=
    ((d1.const_add a).sub (d1.const_mul a)).congr_deriv (by ring)
  have d3 := (d2.rpow_const (p := 1 / θ) (Or.inl (by rw [← hbdef]; exact (joe_D_pos hA hB).ne'))).const_sub 1
  rw [← hbdef] at d3
  have e : joePartial θ false (u, v) = -((1 - a) * (-θ * (1 - v) ^ (θ - 1)) * (1 / θ) * (a + b - a * b) ^ (1 / θ - 1)) := by
    simp only [joePartial, marginSwap, Bool.false_eq_true, if_false]
    rw [← hadef, ← hbdef, joe_D hB.1, mul_rpow hB.1.le (by linarith [joe_W_ge hA.1.le hB])]
    obtain ⟨Q, hQ⟩ : ∃ Q, Q = (1 + a / b - a) ^ (1 / θ - 1) := ⟨_, rfl⟩
    rw [← hQ]
    have e2 : (1 - v) ^ (θ - 1) * b ^ (1 / θ - 1) = 1 := by
      rw [hbdef, ← rpow_mul hv1.le, ← rpow_add hv1]
      have : θ - 1 + θ * (1 / θ - 1) = 0 := by
        field_simp
        ring
      rw [this, rpow_zero]
    have hθ0 : θ ≠ 0 := by linarith
    calc Q * (1 - a) = Q * (1 - a) * ((1 - v) ^ (θ - 1) * b ^ (1 / θ - 1)) := by rw [e2, mul_one]
      _ = _ := by
        field_simp
  rw [e]
  refine d3.congr_of_eventuallyEq (Filter.Eventually.of_forall fun t => ?_)
  simp [joeCdf, hadef]

theorem joe_swap (θ : ℝ) (x : ℝ × ℝ) : joePartial θ true x = joePartial θ false (x.2, x.1) := rfl

theorem joe_partial {θ : ℝ} (hθ : 1 ≤ θ) : IsPartial (joeCdf θ) (joePartial θ) := by
  intro u v hu hv
  refine ⟨?_, joe_deriv_false hθ hu hv⟩
  have := joe_deriv_false hθ hv hu
  rw [joe_swap]
  simpa only [joe_symm θ _ v] using this

theorem joe_exp_nonpos {θ : ℝ} (hθ : 1 ≤ θ) : 1 / θ - 1 ≤ 0 := by
  rw [sub_nonpos, div_le_one (by linarith)]
  exact hθ

/-- The conditional probability as a function of `a = (1 - u)^θ` falls strictly. -/
theorem joe_anti {θ a a' b : ℝ} (hθ : 1 ≤ θ) (ha : 0 ≤ a) (h : a < a') (ha' : a' ≤ 1) (hb : Inside b) :
    (1 + a' / b - a') ^ (1 / θ - 1) * (1 - a') < (1 + a / b - a) ^ (1 / θ - 1) * (1 - a) := by
  have hW := joe_W_ge ha hb
  have hW' := joe_W_ge (ha.trans h.le) hb
  have hle : 1 + a / b - a ≤ 1 + a' / b - a' := by
    have : (a' - a) ≤ (a' - a) / b := by
      rw [le_div_iff₀ hb.1]
      nlinarith [hb.2]
    have e : (a' - a) / b = a' / b - a / b := by ring
    linarith
  have h1 : (1 + a' / b - a') ^ (1 / θ - 1) ≤ (1 + a / b - a) ^ (1 / θ - 1) := rpow_le_rpow_of_nonpos (by linarith) hle (joe_exp_nonpos hθ)
  have h2 : 0 < (1 + a / b - a) ^ (1 / θ - 1) := rpow_pos_of_pos (by linarith) _
  have h3 : 0 < (1 + a' / b - a') ^ (1 / θ - 1) := rpow_pos_of_pos (by linarith) _
  calc (1 + a' / b - a') ^ (1 / θ - 1) * (1 - a') ≤ (1 + a / b - a) ^ (1 / θ - 1) * (1 - a') := mul_le_mul_of_nonneg_right h1 (by linarith)
    _ < _ := mul_lt_mul_of_pos_left (by linarith) h2

theorem joe_inside {θ u v : ℝ} (hθ : 1 ≤ θ) (hu : Inside u) (hv : Inside v) : Inside (joePartial θ false (u, v)) := by
  have hA := joe_pow hθ hu
  have hB := joe_pow hθ hv
  simp only [joePartial, marginSwap, Bool.false_eq_true, if_false]
  have h0 := joe_anti hθ (le_refl 0) hA.1 hA.2.le hB
  have h1 := joe_anti hθ hA.1.le hA.2 (le_refl 1) hB
  simp only [sub_self, mul_zero] at h1
  simp only [zero_div, sub_zero, add_zero, one_rpow, mul_one] at h0
  exact ⟨h1, h0⟩

theorem joe_mono {θ u u' v : ℝ} (hθ : 1 ≤ θ) (hu : Inside u) (hu' : Inside u') (hv : Inside v) (h : u ≤ u') : joePartial θ false (u, v) ≤ joePartial θ false (u', v) := by
  have hA := joe_pow hθ hu
  have hA' := joe_pow hθ hu'
  have hB := joe_pow hθ hv
  simp only [joePartial, marginSwap, Bool.false_eq_true, if_false]
  have hle : (1 - u') ^ θ ≤ (1 - u) ^ θ := rpow_le_rpow (by linarith [hu'.2]) (by linarith) (by linarith)
  rcases eq_or_lt_of_le hle with e | e
  · rw [e]
  · exact (joe_anti hθ hA'.1.le e hA.2.le hB).le

theorem joe_copula {θ : ℝ} (hθ : 1 ≤ θ) : IsCopula (joeCdf θ) := by
  have hθ0 : θ ≠ 0 := by linarith
  have g : ∀ t, Unit t → joeCdf θ (0, t) = 0 := by
    intro t ht
    simp [joeCdf]
  have m : ∀ t, Unit t → joeCdf θ (1, t) = t := by
    intro t ht
    have : 0 ≤ 1 - t := by linarith [ht.2]
    simp only [joeCdf, sub_self]
    rw [zero_rpow hθ0, zero_add, zero_mul, sub_zero, ← rpow_mul this, mul_one_div_cancel hθ0, rpow_one]
    ring
  refine copula_of_partial _ (joePartial θ) (fun t ht => ⟨g t ht, by rw [joe_symm]; exact g t ht⟩) (fun t ht => ⟨m t ht, by rw [joe_symm]; exact m t ht⟩) (joe_partial hθ)
    (fun u v hu hv => ⟨(joe_inside hθ hu hv).1.le, (joe_inside hθ hu hv).2.le⟩) (fun u u' v hu hu' hv h => joe_mono hθ hu hu' hv h) ?_
  intro u hu
  apply Continuous.continuousOn
  unfold joeCdf
  have c1 : Continuous fun t : ℝ => (1 - t) ^ θ := (continuous_const.sub continuous_id).rpow_const fun _ => Or.inr (by linarith)
  have c2 : Continuous fun t : ℝ => (1 - u) ^ θ + (1 - t) ^ θ - (1 - u) ^ θ * (1 - t) ^ θ := (continuous_const.add c1).sub (continuous_const.mul c1)
  have c3 : Continuous fun t : ℝ => ((1 - u) ^ θ + (1 - t) ^ θ - (1 - u) ^ θ * (1 - t) ^ θ) ^ (1 / θ) := c2.rpow_const fun _ => Or.inr (by positivity)
  exact continuous_const.sub c3

/-! ### The function whose root the inverse looks for -/

theorem joe_F_deriv {θ x y : ℝ} (hx : 0 ≤ x) (hy : Inside y) :
    HasDerivAt (fun x : ℝ => (1 + x / y - x) ^ (1 / θ - 1) * (1 - x))
      ((1 / y - 1) * (1 / θ - 1) * (1 + x / y - x) ^ (1 / θ - 1 - 1) * (1 - x) - (1 + x / y - x) ^ (1 / θ - 1)) x := by
  have hW := joe_W_ge hx hy
  have d1 : HasDerivAt (fun x : ℝ => 1 + x / y - x) (1 / y - 1) x := (((hasDerivAt_id x).div_const y).const_add 1).sub (hasDerivAt_id x)
  have d2 := d1.rpow_const (p := 1 / θ - 1) (Or.inl (by linarith : 1 + x / y - x ≠ 0))
  have d3 : HasDerivAt (fun x : ℝ => 1 - x) (-1) x := (hasDerivAt_id x).const_sub 1
  exact (d2.mul d3).congr_deriv (by ring)

/-- The derivative, in the variables of the code. -/
theorem joe_F_deriv_eq {θ x y : ℝ} (hθ : 1 ≤ θ) (hx : 0 ≤ x) (hy : Inside y) :
    (1 / y - 1) * (1 / θ - 1) * (1 + x / y - x) ^ (1 / θ - 1 - 1) * (1 - x) - (1 + x / y - x) ^ (1 / θ - 1) =
      (1 + x / y - x) ^ (1 / θ) * y * ((1 - x) * (1 - y) - θ) / (θ * (x + y - x * y) ^ 2) := by
  have hW := joe_W_ge hx hy
  obtain ⟨W, hWdef⟩ : ∃ W, W = 1 + x / y - x := ⟨_, rfl⟩
  rw [joe_D hy.1, ← hWdef]
  rw [← hWdef] at hW
  have hW0 : 0 < W := by linarith
  rw [rpow_sub hW0 _ 1, rpow_sub hW0 _ 1, rpow_one]
  have e : y * (W - 1) = x * (1 - y) := by
    have := hy.1.ne'
    rw [hWdef]
    field_simp
    ring
  obtain ⟨w, hw⟩ : ∃ w, w = W ^ (1 / θ) := ⟨_, rfl⟩
  rw [← hw]
  have hy0 := hy.1.ne'
  have hθ0 : θ ≠ 0 := by linarith
  field_simp
  linear_combination (-θ * w) * e

/-- The density. -/
theorem joe_density_false {θ u v : ℝ} (hθ : 1 < θ) (hu : Inside u) (hv : Inside v) : HasDerivAt (fun t => joePartial θ false (t, v)) (exp (joeScore θ (u, v))) u := by
  have hA := joe_pow hθ.le hu
  have hB := joe_pow hθ.le hv
  have hu1 : 0 < 1 - u := by linarith [hu.2]
  have hv1 : 0 < 1 - v := by linarith [hv.2]
  have d1 := hasDerivAt_joe_pow (θ := θ) hu
  have d2 := HasDerivAt.comp (h := fun t : ℝ => (1 - t) ^ θ) u (joe_F_deriv (θ := θ) hA.1.le hB) d1
  obtain ⟨a, hadef⟩ : ∃ a, a = (1 - u) ^ θ := ⟨_, rfl⟩
  obtain ⟨b, hbdef⟩ : ∃ b, b = (1 - v) ^ θ := ⟨_, rfl⟩
  have hθ0 : θ ≠ 0 := by linarith
  have hscore : exp (joeScore θ (u, v)) = (a + b - a * b) ^ (1 / θ - 2) * ((1 - u) ^ (θ - 1) * (1 - v) ^ (θ - 1)) * (θ - 1 + (a + b - a * b)) := by
    simp only [joeScore]
    have e1 : exp (log (1 - u) * θ) = a := by rw [hadef, rpow_def_of_pos hu1]
    have e2 : exp (log (1 - v) * θ) = b := by rw [hbdef, rpow_def_of_pos hv1]
    rw [add_mul (log (1 - u)), add_mul (log (1 - u)), exp_add (log (1 - u) * θ), e1, e2]
    have hD : 0 < a + b - a * b := by
      rw [hadef, hbdef]
      exact joe_D_pos hA hB
    rw [exp_add, exp_add, exp_log (by linarith), exp_add, mul_comm (1 / θ - 2), ← rpow_def_of_pos hD, ← rpow_def_of_pos hu1, ← rpow_def_of_pos hv1]
  rw [hscore]
  refine (d2.congr_deriv ?_).congr_of_eventuallyEq (Filter.Eventually.of_forall fun t => rfl)
  rw [joe_F_deriv_eq hθ.le hA.1.le hB, ← hadef, ← hbdef]
  rw [← hadef] at hA
  rw [← hbdef] at hB
  have hD := joe_D_pos hA hB
  have hWD : 1 + a / b - a = (a + b - a * b) / b := by
    rw [joe_D hB.1]
    have := hB.1.ne'
    field_simp
  have hw : (1 + a / b - a) ^ (1 / θ) = (a + b - a * b) ^ (1 / θ) / (1 - v) := by
    rw [hWD, div_rpow hD.le hB.1.le]
    congr 1
    rw [hbdef, ← rpow_mul hv1.le, mul_one_div_cancel hθ0, rpow_one]
  have hb2 : b = (1 - v) ^ (θ - 1) * (1 - v) := by
    rw [hbdef]
    nth_rewrite 3 [← rpow_one (1 - v)]
    rw [← rpow_add hv1]
    simp
  have h2 : (a + b - a * b) ^ (1 / θ - 2) = (a + b - a * b) ^ (1 / θ) / (a + b - a * b) ^ 2 := by
    rw [rpow_sub hD, rpow_ofNat]
  rw [hw, h2]
  obtain ⟨D, hDdef⟩ : ∃ D, D = a + b - a * b := ⟨_, rfl⟩
  have e3 : (1 - a) * (1 - b) = 1 - D := by
    rw [hDdef]
    ring
  rw [e3, ← hDdef]
  rw [← hDdef] at hD
  obtain ⟨Q, hQ⟩ : ∃ Q, Q = D ^ (1 / θ) := ⟨_, rfl⟩
  obtain ⟨V, hV⟩ : ∃ V, V = (1 - v) ^ (θ - 1) := ⟨_, rfl⟩
  obtain ⟨U, hU⟩ : ∃ U, U = (1 - u) ^ (θ - 1) := ⟨_, rfl⟩
  rw [← hQ, ← hV, ← hU]
  rw [← hV] at hb2
  rw [hb2]
  field_simp
  ring

/-! ### The inverse -/

/-- The function, less the probability. -/
noncomputable def joeF (θ p y x : ℝ) : ℝ := (1 + x / y - x) ^ (1 / θ - 1) * (1 - x) - p

/-- Its slope. -/
noncomputable def joeF' (θ y x : ℝ) : ℝ := (1 + x / y - x) ^ (1 / θ) * y * ((1 - x) * (1 - y) - θ) / (θ * (x + y - x * y) ^ 2)

theorem joe_d_pos {x y : ℝ} (hx : 0 ≤ x) (hy : Inside y) : 0 < x + y - x * y := by
  have := mul_nonneg hx (sub_nonneg.2 hy.2.le)
  linarith [hy.1]

theorem joeF'_neg {θ x y : ℝ} (hθ : 1 < θ) (hx : 0 ≤ x) (hy : Inside y) : joeF' θ y x < 0 := by
  unfold joeF'
  have hW := joe_W_ge hx hy
  have hd := joe_d_pos hx hy
  have hw : 0 < (1 + x / y - x) ^ (1 / θ) := rpow_pos_of_pos (by linarith) _
  have h1 : (1 - x) * (1 - y) - θ < 0 := by nlinarith [hy.1, hy.2]
  refine div_neg_of_neg_of_pos (mul_neg_of_pos_of_neg (mul_pos hw hy.1) h1) ?_
  have : 0 < θ := by linarith
  positivity

/-- The function lies above its tangents. -/
theorem joe_convex {θ p x z y : ℝ} (hθ : 1 < θ) (hx : 0 ≤ x) (hz : 0 ≤ z) (hz1 : z ≤ 1) (hy : Inside y) : joeF θ p y x + joeF' θ y x * (z - x) ≤ joeF θ p y z := by
  have hslope : joeF' θ y x = (1 / y - 1) * (1 / θ - 1) * (1 + x / y - x) ^ (1 / θ - 1 - 1) * (1 - x) - (1 + x / y - x) ^ (1 / θ - 1) := (joe_F_deriv_eq hθ.le hx hy).symm
  rw [hslope]
  unfold joeF
  have hWx := joe_W_ge hx hy
  have hWz := joe_W_ge hz hy
  have hα := joe_exp_nonpos hθ.le
  have hc : 0 ≤ 1 / y - 1 := by
    rw [sub_nonneg, le_div_iff₀ hy.1, one_mul]
    exact hy.2.le
  have hdiff : (1 + z / y - z) - (1 + x / y - x) = (1 / y - 1) * (z - x) := by ring
  obtain ⟨α, hαdef⟩ : ∃ α, α = 1 / θ - 1 := ⟨_, rfl⟩
  obtain ⟨c, hcdef⟩ : ∃ c, c = 1 / y - 1 := ⟨_, rfl⟩
  obtain ⟨W, hW⟩ : ∃ W, W = 1 + x / y - x := ⟨_, rfl⟩
  obtain ⟨Z, hZ⟩ : ∃ Z, Z = 1 + z / y - z := ⟨_, rfl⟩
  rw [← hαdef, ← hcdef, ← hW, ← hZ]
  rw [← hαdef] at hα
  rw [← hcdef] at hc
  rw [← hW] at hWx
  rw [← hZ] at hWz
  rw [← hZ, ← hW, ← hcdef] at hdiff
  have hW0 : 0 < W := by linarith
  have hZ0 : 0 < Z := by linarith
  -- the tangent of the power
  have tangent : W ^ α + α * W ^ (α - 1) * (Z - W) ≤ Z ^ α := by
    have hr : 0 < Z / W := div_pos hZ0 hW0
    have h1 : 1 + α * (Z / W - 1) ≤ (Z / W) ^ α := by
      rw [rpow_def_of_pos hr]
      have e1 := add_one_le_exp (log (Z / W) * α)
      have e2 := log_le_sub_one_of_pos hr
      nlinarith
    rw [div_rpow hZ0.le hW0.le, le_div_iff₀ (rpow_pos_of_pos hW0 α)] at h1
    have e3 : (1 + α * (Z / W - 1)) * W ^ α = W ^ α + α * W ^ (α - 1) * (Z - W) := by
      rw [rpow_sub hW0, rpow_one]
      field_simp
    linarith
  have hQ : 0 ≤ W ^ (α - 1) := (rpow_pos_of_pos hW0 _).le
  have h2 := mul_le_mul_of_nonneg_right tangent (sub_nonneg.2 hz1)
  have h3 : 0 ≤ -(c * α * W ^ (α - 1)) * (z - x) ^ 2 := by
    refine mul_nonneg ?_ (sq_nonneg _)
    have := mul_nonneg (mul_nonneg hc (neg_nonneg.2 hα)) hQ
    linarith
  rw [hdiff] at h2
  nlinarith

/-- The step of the code is the Newton step, clipped to [0, 1]. -/
theorem joe_step_newton {θ p x y : ℝ} (hθ : 1 < θ) (hx : 0 ≤ x) (hy : Inside y) : joeStep θ p y x = min (max (x - joeF θ p y x / joeF' θ y x) 0) 1 := by
  unfold joeStep
  simp only
  congr 2
  have hW := joe_W_ge hx hy
  have hW0 : 0 < 1 + x / y - x := by linarith
  have hWe : (1 / y - 1) * x + 1 = 1 + x / y - x := by ring
  have hd := joe_d_pos hx hy
  have hneg : (1 - x) * (1 - y) - θ < 0 := by nlinarith [hy.1, hy.2]
  have hWd : 1 + x / y - x = (x + y - x * y) / y := by
    rw [joe_D hy.1]
    have := hy.1.ne'
    field_simp
  unfold joeF joeF'
  rw [hWe, rpow_sub hW0, rpow_one]
  obtain ⟨w, hw⟩ : ∃ w, w = (1 + x / y - x) ^ (1 / θ) := ⟨_, rfl⟩
  have hwpos : 0 < w := by rw [hw]; exact rpow_pos_of_pos hW0 _
  rw [← hw, hWd]
  have hden : (y - 1) * ((x - 1) * y) - θ * y = y * ((1 - x) * (1 - y) - θ) := by ring
  have hkd : (x - 1) * y - x = -(x + y - x * y) := by ring
  have hkd2 : -((x - 1) * y) + x = x + y - x * y := by ring
  rw [hden, hkd, hkd2]
  obtain ⟨d, hddef⟩ : ∃ d, d = x + y - x * y := ⟨_, rfl⟩
  obtain ⟨m, hmdef⟩ : ∃ m, m = (1 - x) * (1 - y) - θ := ⟨_, rfl⟩
  rw [← hddef, ← hmdef]
  rw [← hddef] at hd
  rw [← hmdef] at hneg
  have hy0 := hy.1.ne'
  have hd0 := hd.ne'
  have hm0 := hneg.ne
  have hw0 := hwpos.ne'
  have hθ0 : θ ≠ 0 := by linarith
  field_simp
  ring

theorem joe_root_exists {θ p y : ℝ} (hθ : 1 < θ) (hp : Inside p) (hy : Inside y) : ∃ r, Inside r ∧ joeF θ p y r = 0 := by
  have hc : ContinuousOn (joeF θ p y) (Icc 0 1) := fun x hx => ((joe_F_deriv (θ := θ) hx.1 hy).continuousAt.sub continuousAt_const).continuousWithinAt
  have h0 : joeF θ p y 0 = 1 - p := by simp [joeF]
  have h1 : joeF θ p y 1 = -p := by simp [joeF]
  have := intermediate_value_Icc' (zero_le_one) hc
  have mem : (0 : ℝ) ∈ Icc (joeF θ p y 1) (joeF θ p y 0) := by
    rw [h0, h1]
    exact ⟨by linarith [hp.1], by linarith [hp.2]⟩
  obtain ⟨r, hr, hr0⟩ := this mem
  refine ⟨r, ⟨lt_of_le_of_ne hr.1 ?_, lt_of_le_of_ne hr.2 ?_⟩, hr0⟩
  · rintro rfl
    rw [h0] at hr0
    linarith [hp.2]
  · rintro rfl
    rw [h1] at hr0
    linarith [hp.1]

theorem joeF_anti {θ p y x z : ℝ} (hθ : 1 < θ) (hy : Inside y) (hx : 0 ≤ x) (h : x < z) (hz : z ≤ 1) : joeF θ p y z < joeF θ p y x :=
  sub_lt_sub_right (joe_anti hθ.le hx h hz hy) p

/-- A Newton step from anywhere in [0, 1] lands in [0, r], where `r` is the root. -/
theorem joe_step_le {θ p x y r : ℝ} (hθ : 1 < θ) (hx : 0 ≤ x) (hx1 : x ≤ 1) (hy : Inside y) (hr : Inside r) (hr0 : joeF θ p y r = 0) :
    joeStep θ p y x = max (x - joeF θ p y x / joeF' θ y x) 0 ∧ 0 ≤ joeStep θ p y x ∧ joeStep θ p y x ≤ r := by
  have hn := joeF'_neg hθ hx hy
  have hcv := joe_convex (p := p) hθ hx hr.1.le hr.2.le hy
  rw [hr0] at hcv
  have hle : x - joeF θ p y x / joeF' θ y x ≤ r := by
    have : -(joeF θ p y x / joeF' θ y x) ≤ r - x := by
      rw [← neg_div, div_le_iff_of_neg hn]
      linarith
    linarith
  have hmax : max (x - joeF θ p y x / joeF' θ y x) 0 ≤ r := max_le hle hr.1.le
  have e : joeStep θ p y x = max (x - joeF θ p y x / joeF' θ y x) 0 := by
    rw [joe_step_newton hθ hx hy, min_eq_left (hmax.trans hr.2.le)]
  rw [e]
  exact ⟨rfl, le_max_right _ _, hmax⟩

/-- Below the root a step goes up. -/
theorem joe_step_ge {θ p x y r : ℝ} (hθ : 1 < θ) (hx : 0 ≤ x) (hxr : x ≤ r) (hy : Inside y) (hr : Inside r) (hr0 : joeF θ p y r = 0) : x ≤ joeStep θ p y x := by
  rw [(joe_step_le hθ hx (hxr.trans hr.2.le) hy hr hr0).1]
  have hn := joeF'_neg hθ hx hy
  have h0 : 0 ≤ joeF θ p y x := by
    rcases eq_or_lt_of_le hxr with e | e
    · rw [e, hr0]
    · rw [← hr0]
      exact (joeF_anti hθ hy hx e hr.2.le).le
  have : joeF θ p y x / joeF' θ y x ≤ 0 := div_nonpos_of_nonneg_of_nonpos h0 hn.le
  exact le_max_of_le_left (by linarith)

theorem joe_newton {θ p y r x0 : ℝ} (hθ : 1 < θ) (hx : 0 ≤ x0) (hx1 : x0 ≤ 1) (hy : Inside y) (hr : Inside r) (hr0 : joeF θ p y r = 0) :
    Filter.Tendsto (fun k => (joeStep θ p y)^[k] x0) Filter.atTop (nhds r) := by
  have inv : ∀ k, 0 ≤ (joeStep θ p y)^[k + 1] x0 ∧ (joeStep θ p y)^[k + 1] x0 ≤ r := by
    intro k
    induction k with
    | zero => exact (joe_step_le hθ hx hx1 hy hr hr0).2
    | succ k ih =>
      rw [Function.iterate_succ_apply']
      exact (joe_step_le hθ ih.1 (ih.2.trans hr.2.le) hy hr hr0).2
  have mono : Monotone (fun k => (joeStep θ p y)^[k + 1] x0) := by
    refine monotone_nat_of_le_succ fun k => ?_
    rw [Function.iterate_succ_apply' _ (k + 1)]
    exact joe_step_ge hθ (inv k).1 (inv k).2 hy hr hr0
  have bdd : BddAbove (range fun k => (joeStep θ p y)^[k + 1] x0) := ⟨r, by rintro _ ⟨k, rfl⟩; exact (inv k).2⟩
  have lim := tendsto_atTop_ciSup mono bdd
  obtain ⟨L, hL⟩ : ∃ L, L = ⨆ k, (joeStep θ p y)^[k + 1] x0 := ⟨_, rfl⟩
  rw [← hL] at lim
  have hL0 : 0 ≤ L := ge_of_tendsto' lim fun k => (inv k).1
  have hLr : L ≤ r := le_of_tendsto' lim fun k => (inv k).2
  have hLn := joeF'_neg hθ hL0 hy
  have hW := joe_W_ge hL0 hy
  have hd := joe_d_pos hL0 hy
  have hL1 : L ≤ 1 := hLr.trans hr.2.le
  have cont : ContinuousAt (joeStep θ p y) L := by
    unfold joeStep
    have ck : ContinuousAt (fun x : ℝ => (x - 1) * y) L := (continuousAt_id.sub continuousAt_const).mul continuousAt_const
    have cw : ContinuousAt (fun x : ℝ => ((1 / y - 1) * x + 1) ^ (1 / θ)) L := by
      refine ContinuousAt.rpow_const ((continuousAt_const.mul continuousAt_id).add continuousAt_const) (Or.inl ?_)
      have : (1 / y - 1) * L + 1 = 1 + L / y - L := by ring
      exact ne_of_gt (this ▸ by linarith)
    have hne1 : (y - 1) * ((L - 1) * y) - θ * y ≠ 0 := by
      have e : (y - 1) * ((L - 1) * y) - θ * y = y * ((1 - L) * (1 - y) - θ) := by ring
      rw [e]
      have hneg : (1 - L) * (1 - y) - θ < 0 := by nlinarith [hy.1, hy.2]
      exact mul_ne_zero hy.1.ne' hneg.ne
    have hne2 : ((1 / y - 1) * L + 1) ^ (1 / θ) ≠ 0 := by
      refine (rpow_pos_of_pos ?_ _).ne'
      have : (1 / y - 1) * L + 1 = 1 + L / y - L := by ring
      rw [this]
      linarith
    refine Filter.Tendsto.min (Filter.Tendsto.max (ContinuousAt.sub continuousAt_id (ContinuousAt.div (ContinuousAt.div ?_ ?_ hne1) cw hne2)) continuousAt_const) continuousAt_const
    · exact (continuousAt_const.mul (ck.sub continuousAt_id)).mul ((continuousAt_const.mul (ck.neg.add continuousAt_id)).add (ck.mul cw))
    · exact (continuousAt_const.mul ck).sub continuousAt_const
  have fix : joeStep θ p y L = L := by
    have l1 := (cont.tendsto.comp lim)
    have l2 := lim.comp (Filter.tendsto_add_atTop_nat 1)
    refine tendsto_nhds_unique l1 (l2.congr fun k => ?_)
    simp only [Function.comp_apply]
    rw [Function.iterate_succ_apply' _ (k + 1)]
  have hroot : L = r := by
    by_contra hne
    have hlt : L < r := lt_of_le_of_ne hLr hne
    have hFpos : 0 < joeF θ p y L := by
      rw [← hr0]
      exact joeF_anti hθ hy hL0 hlt hr.2.le
    have hneg : joeF θ p y L / joeF' θ y L < 0 := div_neg_of_pos_of_neg hFpos hLn
    have := (joe_step_le hθ hL0 hL1 hy hr hr0).1
    rw [fix] at this
    have h2 := le_max_left (L - joeF θ p y L / joeF' θ y L) 0
    linarith
  rw [hroot] at lim
  exact (Filter.tendsto_add_atTop_iff_nat 1).1 lim

theorem joe_inverse_false {θ p v : ℝ} (hθ : 1 < θ) (hp : Inside p) (hv : Inside v) :
    ∃ u, Inside u ∧ joePartial θ false (u, v) = p ∧ (∀ u', Inside u' → joePartial θ false (u', v) = p → u' = u) ∧
      Filter.Tendsto (fun k => joeInverse θ k false (p, v)) Filter.atTop (nhds u) := by
  have hy := joe_pow hθ.le hv
  have hθp : 0 < θ := by linarith
  obtain ⟨r, hr, hr0⟩ := joe_root_exists hθ hp hy
  have hrp : Inside (r ^ (1 / θ)) := ⟨rpow_pos_of_pos hr.1 _, rpow_lt_one hr.1.le hr.2 (by positivity)⟩
  have hin : Inside (1 - r ^ (1 / θ)) := ⟨by linarith [hrp.2], by linarith [hrp.1]⟩
  have hval : ∀ u, joePartial θ false (u, v) = p ↔ joeF θ p ((1 - v) ^ θ) ((1 - u) ^ θ) = 0 := by
    intro u
    simp only [joePartial, marginSwap, Bool.false_eq_true, if_false, joeF, sub_eq_zero]
  refine ⟨1 - r ^ (1 / θ), hin, ?_, ?_, ?_⟩
  · rw [hval, sub_sub_cancel, ← rpow_mul hr.1.le, one_div_mul_cancel hθp.ne', rpow_one]
    exact hr0
  · intro u' hu' h'
    rw [hval] at h'
    have ha' := joe_pow hθ.le hu'
    have : (1 - u') ^ θ = r := by
      rcases lt_trichotomy ((1 - u') ^ θ) r with h | h | h
      · have := joeF_anti (p := p) hθ hy ha'.1.le h hr.2.le
        linarith
      · exact h
      · have := joeF_anti (p := p) hθ hy hr.1.le h ha'.2.le
        linarith
    rw [← this, ← rpow_mul (by linarith [hu'.2]), mul_one_div_cancel hθp.ne', rpow_one]
    ring
  · obtain ⟨x0, hx0⟩ : ∃ x0, x0 = ((1 - v) * ((1 - p) ^ (1 / θ - 1) - 1) / (1 - v) ^ θ + 1) ^ (θ / (1 - θ)) := ⟨_, rfl⟩
    have hbase : 1 ≤ (1 - v) * ((1 - p) ^ (1 / θ - 1) - 1) / (1 - v) ^ θ + 1 := by
      have h1 : 1 ≤ (1 - p) ^ (1 / θ - 1) := one_le_rpow_of_pos_of_le_one_of_nonpos (by linarith [hp.2]) (by linarith [hp.1]) (joe_exp_nonpos hθ.le)
      have : 0 ≤ (1 - v) * ((1 - p) ^ (1 / θ - 1) - 1) / (1 - v) ^ θ := div_nonneg (mul_nonneg (by linarith [hv.2]) (by linarith)) hy.1.le
      linarith
    have hx0a : 0 ≤ x0 := by rw [hx0]; exact (rpow_pos_of_pos (by linarith) _).le
    have hx0b : x0 ≤ 1 := by
      rw [hx0]
      exact rpow_le_one_of_one_le_of_nonpos hbase (div_nonpos_of_nonneg_of_nonpos hθp.le (by linarith))
    have lim := joe_newton hθ hx0a hx0b hy hr hr0
    have hc : ContinuousAt (fun x : ℝ => 1 - x ^ (1 / θ)) r := continuousAt_const.sub (ContinuousAt.rpow_const continuousAt_id (Or.inl hr.1.ne'))
    refine (hc.tendsto.comp lim).congr fun k => ?_
    simp [joeInverse, marginSwap, hx0]

/-- **C51, Joe.** For every parameter above 1 the distribution function is a copula, `partial_derivative` is its partial derivative, the Newton iteration of `inverse_partial_derivative` tends to the only solution,
and the exponential of the score is the density. -/
theorem C51_joe (θ : ℝ) (hθ : 1 < θ) :
    IsCopula (joeCdf θ) ∧ IsPartial (joeCdf θ) (joePartial θ) ∧ ConvergesToInverse (joePartial θ) (joeInverse θ) ∧ IsDensity (joePartial θ) (fun x => exp (joeScore θ x)) := by
  refine ⟨joe_copula hθ.le, joe_partial hθ.le, ⟨fun p v hp hv => joe_inverse_false hθ hp hv, fun u p hu hp => joe_inverse_false hθ hp hu⟩, fun u v hu hv => ⟨joe_density_false hθ hu hv, ?_⟩⟩
  have := joe_density_false hθ hv hu
  have e : joeScore θ (v, u) = joeScore θ (u, v) := by
    simp only [joeScore]
    rw [add_comm (log (1 - v)), add_comm (exp (log (1 - v) * θ))]
  rw [e] at this
  exact this

end Skfolio.Copula
