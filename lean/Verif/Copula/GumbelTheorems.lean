import Verif.Copula.ArchimedeanModel
import Verif.Copula.CopulaLemmas
import Mathlib.Analysis.SpecialFunctions.Pow.Deriv
import Mathlib.Analysis.SpecialFunctions.Log.Deriv
import Mathlib.Analysis.SpecialFunctions.ExpDeriv
import Mathlib.Tactic.FieldSimp
import Mathlib.Tactic.Positivity

/-! C51, Gumbel. -/
set_option autoImplicit false

namespace Skfolio.Copula

open Set Real

theorem neglog_pos {u : ℝ} (hu : Inside u) : 0 < -log u := by linarith [log_neg hu.1 hu.2]

theorem gumbel_symm (θ u v : ℝ) : gumbelCdf θ (u, v) = gumbelCdf θ (v, u) := by
  unfold gumbelCdf
  simp only [or_comm (a := u = 0)]
  split_ifs
  · rfl
  · rw [add_comm ((-log u) ^ θ)]

theorem hasDerivAt_neglog {v : ℝ} (hv : 0 < v) : HasDerivAt (fun t => -log t) (-(1 / v)) v := by
  exact ((hasDerivAt_log hv.ne').neg.congr_deriv (by simp)).congr_of_eventuallyEq (Filter.Eventually.of_forall fun _ => rfl)

/-- The sum of powers, by the ratio. -/
theorem gumbel_sum {θ a b : ℝ} (ha : 0 ≤ a) (hb : 0 < b) : a ^ θ + b ^ θ = b ^ θ * ((a / b) ^ θ + 1) := by
  have := rpow_pos_of_pos hb θ
  rw [div_rpow ha hb.le]
  field_simp

theorem gumbel_deriv_false {θ u v : ℝ} (hθ : 1 ≤ θ) (hu : Inside u) (hv : Inside v) : HasDerivAt (fun t => gumbelCdf θ (u, t)) (gumbelPartial θ false (u, v)) v := by
  have ha := neglog_pos hu
  have hb := neglog_pos hv
  obtain ⟨a, hadef⟩ : ∃ a, a = -log u := ⟨_, rfl⟩
  obtain ⟨b, hbdef⟩ : ∃ b, b = -log v := ⟨_, rfl⟩
  rw [← hadef] at ha
  rw [← hbdef] at hb
  have hA := rpow_pos_of_pos ha θ
  have hB := rpow_pos_of_pos hb θ
  have d1 : HasDerivAt (fun t => a ^ θ + (-log t) ^ θ) (-(1 / v) * θ * b ^ (θ - 1)) v := by
    have := ((hasDerivAt_neglog hv.1).rpow_const (p := θ) (Or.inl (by rw [← hbdef]; exact hb.ne'))).const_add (a ^ θ)
    rwa [← hbdef] at this
  have d2 := ((d1.rpow_const (p := 1 / θ) (Or.inl (by rw [← hbdef]; positivity))).neg).exp
  rw [← hbdef] at d2
  have e : gumbelPartial θ false (u, v) = exp (-(a ^ θ + b ^ θ) ^ (1 / θ)) * -(-(1 / v) * θ * b ^ (θ - 1) * (1 / θ) * (a ^ θ + b ^ θ) ^ (1 / θ - 1)) := by
    simp only [gumbelPartial, marginSwap, Bool.false_eq_true, if_false]
    rw [← hadef, ← hbdef]
    have hR : 0 < (a / b) ^ θ + 1 := by positivity
    have : (a ^ θ + b ^ θ) ^ (1 / θ - 1) = b ^ (1 - θ) * ((a / b) ^ θ + 1) ^ (1 / θ - 1) := by
      rw [gumbel_sum ha.le hb, mul_rpow hB.le hR.le, ← rpow_mul hb.le]
      congr 2
      field_simp
    rw [this]
    have e2 : b ^ (θ - 1) * b ^ (1 - θ) = 1 := by
      rw [← rpow_add hb]
      simp
    have hv0 := hv.1.ne'
    have hθ0 : θ ≠ 0 := by linarith
    obtain ⟨Q, hQ⟩ : ∃ Q, Q = ((a / b) ^ θ + 1) ^ (1 / θ - 1) := ⟨_, rfl⟩
    obtain ⟨E, hE⟩ : ∃ E, E = exp (-(a ^ θ + b ^ θ) ^ (1 / θ)) := ⟨_, rfl⟩
    rw [← hQ, ← hE]
    calc E * Q / v = E * Q / v * (b ^ (θ - 1) * b ^ (1 - θ)) := by rw [e2, mul_one]
      _ = _ := by field_simp
  rw [e]
  refine (d2.congr_deriv ?_).congr_of_eventuallyEq ?_
  · simp [← hbdef]
  filter_upwards [Ioo_mem_nhds hv.1 hv.2] with s hs
  simp [gumbelCdf, hu.1.ne', hs.1.ne', hadef]

theorem gumbel_swap (θ : ℝ) (x : ℝ × ℝ) : gumbelPartial θ true x = gumbelPartial θ false (x.2, x.1) := rfl

theorem gumbel_partial {θ : ℝ} (hθ : 1 ≤ θ) : IsPartial (gumbelCdf θ) (gumbelPartial θ) := by
  intro u v hu hv
  refine ⟨?_, gumbel_deriv_false hθ hu hv⟩
  have := gumbel_deriv_false hθ hv hu
  rw [gumbel_swap]
  simpa only [gumbel_symm θ _ v] using this

/-- `(a^θ + b^θ)^(1/θ) ≥ b`. -/
theorem norm_ge {θ a b : ℝ} (hθ : 0 < θ) (ha : 0 ≤ a) (hb : 0 ≤ b) : b ≤ (a ^ θ + b ^ θ) ^ (1 / θ) := by
  calc b = (b ^ θ) ^ (1 / θ) := by rw [← rpow_mul hb, mul_one_div_cancel hθ.ne', rpow_one]
    _ ≤ _ := rpow_le_rpow (rpow_nonneg hb _) (by linarith [rpow_nonneg ha θ]) (by positivity)

theorem norm_gt {θ a b : ℝ} (hθ : 0 < θ) (ha : 0 < a) (hb : 0 ≤ b) : b < (a ^ θ + b ^ θ) ^ (1 / θ) := by
  calc b = (b ^ θ) ^ (1 / θ) := by rw [← rpow_mul hb, mul_one_div_cancel hθ.ne', rpow_one]
    _ < _ := rpow_lt_rpow (rpow_nonneg hb _) (by linarith [rpow_pos_of_pos ha θ]) (by positivity)

theorem gumbel_inside {θ u v : ℝ} (hθ : 1 ≤ θ) (hu : Inside u) (hv : Inside v) : Inside (gumbelPartial θ false (u, v)) := by
  have ha := neglog_pos hu
  have hb := neglog_pos hv
  simp only [gumbelPartial, marginSwap, Bool.false_eq_true, if_false]
  have hR : 1 ≤ (-log u / -log v) ^ θ + 1 := by
    have : 0 < (-log u / -log v) ^ θ := rpow_pos_of_pos (div_pos ha hb) θ
    linarith
  have hP : 0 < ((-log u / -log v) ^ θ + 1) ^ (1 / θ - 1) := rpow_pos_of_pos (by linarith) _
  have hP1 : ((-log u / -log v) ^ θ + 1) ^ (1 / θ - 1) ≤ 1 := by
    refine rpow_le_one_of_one_le_of_nonpos hR ?_
    rw [sub_nonpos, div_le_one (by linarith)]
    exact hθ
  have hE : exp (-((-log u) ^ θ + (-log v) ^ θ) ^ (1 / θ)) < v := by
    calc _ < exp (- -log v) := exp_lt_exp.2 (by linarith [norm_gt (by linarith : (0 : ℝ) < θ) ha hb.le])
      _ = v := by rw [neg_neg, exp_log hv.1]
  have hE0 := exp_pos (-((-log u) ^ θ + (-log v) ^ θ) ^ (1 / θ))
  refine ⟨div_pos (mul_pos hE0 hP) hv.1, ?_⟩
  rw [div_lt_one hv.1]
  nlinarith

theorem gumbel_mono {θ u u' v : ℝ} (hθ : 1 ≤ θ) (hu : Inside u) (hu' : Inside u') (hv : Inside v) (h : u ≤ u') : gumbelPartial θ false (u, v) ≤ gumbelPartial θ false (u', v) := by
  have ha := neglog_pos hu
  have ha' := neglog_pos hu'
  have hb := neglog_pos hv
  have hlog : -log u' ≤ -log u := neg_le_neg (log_le_log hu.1 h)
  simp only [gumbelPartial, marginSwap, Bool.false_eq_true, if_false]
  have hpow : (-log u') ^ θ ≤ (-log u) ^ θ := rpow_le_rpow ha'.le hlog (by linarith)
  have hdiv : (-log u' / -log v) ^ θ ≤ (-log u / -log v) ^ θ := rpow_le_rpow (div_pos ha' hb).le (by gcongr) (by linarith)
  have hR : 0 < (-log u' / -log v) ^ θ + 1 := by
    have : 0 < (-log u' / -log v) ^ θ := rpow_pos_of_pos (div_pos ha' hb) θ
    linarith
  have hR2 : 0 < (-log u / -log v) ^ θ + 1 := by linarith
  have p1 : ((-log u / -log v) ^ θ + 1) ^ (1 / θ - 1) ≤ ((-log u' / -log v) ^ θ + 1) ^ (1 / θ - 1) := by
    refine rpow_le_rpow_of_nonpos hR (by linarith) ?_
    rw [sub_nonpos, div_le_one (by linarith)]
    exact hθ
  have p2 : exp (-((-log u) ^ θ + (-log v) ^ θ) ^ (1 / θ)) ≤ exp (-((-log u') ^ θ + (-log v) ^ θ) ^ (1 / θ)) := by
    apply exp_le_exp.2
    apply neg_le_neg
    exact rpow_le_rpow (by linarith [rpow_pos_of_pos ha' θ, rpow_pos_of_pos hb θ]) (by linarith) (by positivity)
  have q0 := rpow_pos_of_pos hR2 (1 / θ - 1)
  have q1 := exp_pos (-((-log u) ^ θ + (-log v) ^ θ) ^ (1 / θ))
  have q2 := hv.1.le
  gcongr

theorem gumbel_bounds {θ u v : ℝ} (hθ : 1 ≤ θ) (hu : 0 < u) (hu1 : u ≤ 1) (hv : 0 ≤ v) (hv1 : v ≤ 1) : 0 ≤ gumbelCdf θ (u, v) ∧ gumbelCdf θ (u, v) ≤ v := by
  unfold gumbelCdf
  rcases eq_or_lt_of_le hv with h | h
  · simp [← h]
  · simp only [hu.ne', h.ne', or_self, if_false]
    refine ⟨(exp_pos _).le, ?_⟩
    have ha : 0 ≤ -log u := by linarith [log_nonpos hu.le hu1]
    have hb : 0 ≤ -log v := by linarith [log_nonpos hv hv1]
    calc _ ≤ exp (- -log v) := exp_le_exp.2 (by linarith [norm_ge (by linarith : (0 : ℝ) < θ) ha hb])
      _ = v := by rw [neg_neg, exp_log h]

theorem gumbel_cont {θ u : ℝ} (hθ : 1 ≤ θ) (hu : Inside u) : ContinuousOn (fun t => gumbelCdf θ (u, t)) (Icc 0 1) := by
  intro t ht
  rcases eq_or_lt_of_le ht.1 with h | h
  · subst h
    have hz : gumbelCdf θ (u, 0) = 0 := by simp [gumbelCdf]
    have hev : ∀ᶠ s in nhdsWithin (0 : ℝ) (Icc 0 1), s ∈ Icc (0 : ℝ) 1 := self_mem_nhdsWithin
    rw [ContinuousWithinAt, hz]
    refine tendsto_of_tendsto_of_tendsto_of_le_of_le' (g := fun _ => (0 : ℝ)) (h := fun s => s) tendsto_const_nhds (Filter.tendsto_id.mono_left nhdsWithin_le_nhds) ?_ ?_
    · filter_upwards [hev] with s hs using (gumbel_bounds hθ hu.1 hu.2.le hs.1 hs.2).1
    · filter_upwards [hev] with s hs using (gumbel_bounds hθ hu.1 hu.2.le hs.1 hs.2).2
  · have h0 : ContinuousAt (fun s => exp (-((-log u) ^ θ + (-log s) ^ θ) ^ (1 / θ))) t := by
      refine (ContinuousAt.neg (ContinuousAt.rpow_const (continuousAt_const.add (ContinuousAt.rpow_const (continuousAt_log h.ne').neg (Or.inr (by linarith)))) (Or.inr (by positivity)))).rexp
    refine (h0.congr ?_).continuousWithinAt
    filter_upwards [Ioi_mem_nhds h] with s hs
    simp [gumbelCdf, hu.1.ne', ne_of_gt (mem_Ioi.1 hs)]

theorem gumbel_copula {θ : ℝ} (hθ : 1 ≤ θ) : IsCopula (gumbelCdf θ) := by
  refine copula_of_partial _ (gumbelPartial θ) (fun t _ => by simp [gumbelCdf]) ?_ (gumbel_partial hθ) (fun u v hu hv => ⟨(gumbel_inside hθ hu hv).1.le, (gumbel_inside hθ hu hv).2.le⟩)
    (fun u u' v hu hu' hv h => gumbel_mono hθ hu hu' hv h) (fun u hu => gumbel_cont hθ hu)
  have : ∀ t, Unit t → gumbelCdf θ (1, t) = t := by
    intro t ht
    unfold gumbelCdf
    rcases eq_or_lt_of_le ht.1 with h | h
    · simp [← h]
    · have hb : 0 ≤ -log t := by linarith [log_nonpos ht.1 ht.2]
      simp only [one_ne_zero, h.ne', or_self, if_false, log_one, neg_zero]
      rw [zero_rpow (by linarith), zero_add, ← rpow_mul hb, mul_one_div_cancel (by linarith), rpow_one, neg_neg, exp_log h]
  exact fun t ht => ⟨this t ht, by rw [gumbel_symm]; exact this t ht⟩

/-- The density of the Gumbel copula, without the clip of the code. -/
noncomputable def gumbelDensity (θ : ℝ) (x : ℝ × ℝ) : ℝ :=
  let a := -log x.1
  let b := -log x.2
  let s := (a ^ θ + b ^ θ) ^ (1 / θ)
  exp (-s) * (s + θ - 1) * s ^ (1 - 2 * θ) * (a ^ (θ - 1) * b ^ (θ - 1)) / (x.1 * x.2)

theorem gumbel_score {θ u v : ℝ} (hθ : 1 < θ) (hu : Inside u) (hv : Inside v) (hclip : 1 / 10 ^ 10 ≤ ((-log u) ^ θ + (-log v) ^ θ) ^ (1 / θ)) :
    exp (gumbelScore θ (u, v)) = gumbelDensity θ (u, v) := by
  have ha := neglog_pos hu
  have hb := neglog_pos hv
  obtain ⟨a, hadef⟩ : ∃ a, a = -log u := ⟨_, rfl⟩
  obtain ⟨b, hbdef⟩ : ∃ b, b = -log v := ⟨_, rfl⟩
  rw [← hadef] at ha
  rw [← hbdef] at hb
  rw [← hadef, ← hbdef] at hclip
  have hA := rpow_pos_of_pos ha θ
  have hB := rpow_pos_of_pos hb θ
  obtain ⟨S, hS⟩ : ∃ S, S = a ^ θ + b ^ θ := ⟨_, rfl⟩
  have hSpos : 0 < S := by rw [hS]; positivity
  obtain ⟨s, hs⟩ : ∃ s, s = S ^ (1 / θ) := ⟨_, rfl⟩
  have hspos : 0 < s := by rw [hs]; exact rpow_pos_of_pos hSpos _
  simp only [gumbelScore, gumbelDensity]
  rw [← hadef, ← hbdef, ← hS, ← hs, max_eq_left (by rw [hs, hS]; exact hclip)]
  have h1 : 0 < s + θ - 1 := by linarith
  rw [exp_add, exp_add, exp_add, exp_add, exp_log h1, mul_comm (1 - 2 * θ), ← rpow_def_of_pos hspos, mul_comm (θ - 1), ← rpow_def_of_pos (mul_pos ha hb), mul_rpow ha.le hb.le, exp_add, show exp a = u⁻¹ by rw [hadef, exp_neg, exp_log hu.1],
    show exp b = v⁻¹ by rw [hbdef, exp_neg, exp_log hv.1]]
  have := hu.1.ne'
  have := hv.1.ne'
  field_simp

/-- The derivative of the conditional distribution function. -/
theorem gumbel_density_exact {θ u v : ℝ} (hθ : 1 < θ) (hu : Inside u) (hv : Inside v) : HasDerivAt (fun t => gumbelPartial θ false (t, v)) (gumbelDensity θ (u, v)) u := by
  have ha := neglog_pos hu
  have hb := neglog_pos hv
  have hθ0 : θ ≠ 0 := by linarith
  obtain ⟨a, hadef⟩ : ∃ a, a = -log u := ⟨_, rfl⟩
  obtain ⟨b, hbdef⟩ : ∃ b, b = -log v := ⟨_, rfl⟩
  rw [← hadef] at ha
  rw [← hbdef] at hb
  have hA := rpow_pos_of_pos ha θ
  have hB := rpow_pos_of_pos hb θ
  obtain ⟨S, hS⟩ : ∃ S, S = a ^ θ + b ^ θ := ⟨_, rfl⟩
  have hSpos : 0 < S := by rw [hS]; positivity
  obtain ⟨s, hs⟩ : ∃ s, s = S ^ (1 / θ) := ⟨_, rfl⟩
  have hspos : 0 < s := by rw [hs]; exact rpow_pos_of_pos hSpos _
  -- another form of the conditional distribution function
  have form : ∀ t, Inside t → gumbelPartial θ false (t, v) = (b ^ (θ - 1) / v) * (exp (-((-log t) ^ θ + b ^ θ) ^ (1 / θ)) * ((-log t) ^ θ + b ^ θ) ^ (1 / θ - 1)) := by
    intro t ht
    have hc := neglog_pos ht
    simp only [gumbelPartial, marginSwap, Bool.false_eq_true, if_false]
    rw [← hbdef]
    have hR : 0 < (-log t / b) ^ θ + 1 := by
      have := rpow_pos_of_pos (div_pos hc hb) θ
      linarith
    have : ((-log t) ^ θ + b ^ θ) ^ (1 / θ - 1) = b ^ (1 - θ) * ((-log t / b) ^ θ + 1) ^ (1 / θ - 1) := by
      rw [gumbel_sum hc.le hb, mul_rpow hB.le hR.le, ← rpow_mul hb.le]
      congr 2
      field_simp
    rw [this]
    have e2 : b ^ (θ - 1) * b ^ (1 - θ) = 1 := by
      rw [← rpow_add hb]
      simp
    obtain ⟨E, hE⟩ : ∃ E, E = exp (-((-log t) ^ θ + b ^ θ) ^ (1 / θ)) := ⟨_, rfl⟩
    rw [← hE]
    have hv0 := hv.1.ne'
    obtain ⟨Q, hQ⟩ : ∃ Q, Q = ((-log t / b) ^ θ + 1) ^ (1 / θ - 1) := ⟨_, rfl⟩
    rw [← hQ]
    calc E * Q / v = E * Q / v * (b ^ (θ - 1) * b ^ (1 - θ)) := by rw [e2, mul_one]
      _ = _ := by ring
  have d1 : HasDerivAt (fun t => (-log t) ^ θ + b ^ θ) (-(1 / u) * θ * a ^ (θ - 1)) u := by
    have := ((hasDerivAt_neglog hu.1).rpow_const (p := θ) (Or.inl (by rw [← hadef]; exact ha.ne'))).add_const (b ^ θ)
    rwa [← hadef] at this
  have hval : (-log u) ^ θ + b ^ θ = S := by rw [← hadef, hS]
  have d2 := ((d1.rpow_const (p := 1 / θ) (Or.inl (by rw [hval]; exact hSpos.ne'))).neg).exp
  have d3 := d1.rpow_const (p := 1 / θ - 1) (Or.inl (by rw [hval]; exact hSpos.ne'))
  have d4 := (d2.mul d3).const_mul (b ^ (θ - 1) / v)
  simp only [hval] at d4
  -- the value
  have hscore : gumbelDensity θ (u, v) = exp (-s) * (s + θ - 1) * s ^ (1 - 2 * θ) * (a ^ (θ - 1) * b ^ (θ - 1)) / (u * v) := by
    simp only [gumbelDensity]
    rw [← hadef, ← hbdef, ← hS, ← hs]
  have s1 : S ^ (1 / θ - 1) = s ^ (1 - θ) := by
    rw [hs, ← rpow_mul hSpos.le]
    congr 1
    field_simp
  have s2 : S ^ (1 / θ - 1 - 1) = s ^ (1 - 2 * θ) := by
    rw [hs, ← rpow_mul hSpos.le]
    congr 1
    field_simp
    ring
  have s3 : s ^ (1 - θ) * s ^ (1 - θ) = s * s ^ (1 - 2 * θ) := by
    rw [← rpow_add hspos]
    nth_rewrite 2 [← rpow_one s]
    rw [← rpow_add hspos]
    congr 1
    ring
  rw [hscore]
  refine (d4.congr_of_eventuallyEq ?_).congr_deriv ?_
  · filter_upwards [Ioo_mem_nhds hu.1 hu.2] with t ht
    rw [form t ⟨ht.1, ht.2⟩]
    rfl
  · simp only [Pi.neg_apply, hval]
    rw [s2, ← hs, s1]
    have hu0 := hu.1.ne'
    have hv0 := hv.1.ne'
    obtain ⟨P, hP⟩ : ∃ P, P = s ^ (1 - θ) := ⟨_, rfl⟩
    obtain ⟨Q, hQ⟩ : ∃ Q, Q = s ^ (1 - 2 * θ) := ⟨_, rfl⟩
    rw [← hP, ← hQ] at s3
    rw [← hP, ← hQ]
    field_simp
    linear_combination s3

/-- The score of the code, where its clip does nothing. -/
theorem gumbel_density_false {θ u v : ℝ} (hθ : 1 < θ) (hu : Inside u) (hv : Inside v) (hclip : 1 / 10 ^ 10 ≤ ((-log u) ^ θ + (-log v) ^ θ) ^ (1 / θ)) :
    HasDerivAt (fun t => gumbelPartial θ false (t, v)) (exp (gumbelScore θ (u, v))) u := by
  rw [gumbel_score hθ hu hv hclip]
  exact gumbel_density_exact hθ hu hv

theorem gumbelDensity_symm (θ u v : ℝ) : gumbelDensity θ (v, u) = gumbelDensity θ (u, v) := by
  simp only [gumbelDensity]
  rw [add_comm ((-log v) ^ θ), mul_comm v u, mul_comm ((-log v) ^ (θ - 1))]

theorem gumbel_isDensity {θ : ℝ} (hθ : 1 < θ) : IsDensity (gumbelPartial θ) (gumbelDensity θ) := by
  intro u v hu hv
  refine ⟨gumbel_density_exact hθ hu hv, ?_⟩
  have := gumbel_density_exact hθ hv hu
  rw [gumbelDensity_symm] at this
  exact this

/-- The data that the public methods pass on are clipped to [1e-9, 1 - 1e-9] (`_validate_X`, `_base.py` L66-79); there the clip of `s` at 1e-10 does nothing. -/
theorem gumbel_clip {θ u v : ℝ} (hθ : 1 < θ) (hu : Inside u) (hv : Inside v) (hu9 : u ≤ 1 - 1 / 10 ^ 9) : 1 / 10 ^ 10 ≤ ((-log u) ^ θ + (-log v) ^ θ) ^ (1 / θ) := by
  have h1 := norm_ge (θ := θ) (by linarith) (neglog_pos hv).le (neglog_pos hu).le
  have h2 := log_le_sub_one_of_pos hu.1
  rw [add_comm]
  norm_num at hu9 ⊢
  norm_num at h1
  linarith

/-! ### The inverse -/

/-- A conditional probability is `p` exactly when the radius `y` solves `y + (θ - 1) log y = s`. -/
theorem gumbel_root {θ u v p : ℝ} (hθ : 1 < θ) (hu : Inside u) (hv : Inside v) (hp : Inside p) :
    gumbelPartial θ false (u, v) = p ↔
      ((-log u) ^ θ + (-log v) ^ θ) ^ (1 / θ) + (θ - 1) * log (((-log u) ^ θ + (-log v) ^ θ) ^ (1 / θ)) = -log v + -log p + log (-log v) * (θ - 1) := by
  have hpos := (gumbel_inside hθ.le hu hv).1
  have ha := neglog_pos hu
  have hb := neglog_pos hv
  have hθ0 : θ ≠ 0 := by linarith
  have key : log (gumbelPartial θ false (u, v)) = -((-log u) ^ θ + (-log v) ^ θ) ^ (1 / θ) + (1 - θ) * (log (((-log u) ^ θ + (-log v) ^ θ) ^ (1 / θ)) - log (-log v)) - log v := by
    simp only [gumbelPartial, marginSwap, Bool.false_eq_true, if_false]
    have hR : 0 < (-log u / -log v) ^ θ + 1 := by
      have := rpow_pos_of_pos (div_pos ha hb) θ
      linarith
    have hS : 0 < (-log u) ^ θ + (-log v) ^ θ := by
      have := rpow_pos_of_pos ha θ
      have := rpow_pos_of_pos hb θ
      linarith
    have hsum := gumbel_sum (θ := θ) ha.le hb
    have hl : log ((-log u) ^ θ + (-log v) ^ θ) = θ * log (-log v) + log ((-log u / -log v) ^ θ + 1) := by
      rw [hsum, log_mul (rpow_pos_of_pos hb θ).ne' hR.ne', log_rpow hb]
    rw [log_div (mul_pos (exp_pos _) (rpow_pos_of_pos hR _)).ne' hv.1.ne', log_mul (exp_pos _).ne' (rpow_pos_of_pos hR _).ne', log_exp, log_rpow hR, log_rpow hS, hl]
    field_simp
    ring
  constructor
  · intro h
    rw [h] at key
    linarith
  · intro h
    apply log_injOn_pos hpos hp.1
    rw [key]
    linarith

/-- The Newton step without its guard. -/
theorem gumbel_newton_eq {θ s x : ℝ} (hθ : 1 < θ) (hx : 0 < x) : x * (s - (θ - 1) * (log x - 1)) / (θ + x - 1) = x + x * (s - (x + (θ - 1) * log x)) / (θ + x - 1) := by
  have : θ + x - 1 ≠ 0 := by linarith
  field_simp
  ring

/-- Below the root a step goes up and stays below the root. -/
theorem gumbel_step {θ s x : ℝ} (hθ : 1 < θ) (hx : 0 < x) (h : x + (θ - 1) * log x ≤ s) : x ≤ gumbelStep θ s x ∧ gumbelStep θ s x + (θ - 1) * log (gumbelStep θ s x) ≤ s := by
  have hd : 0 < θ + x - 1 := by linarith
  have hge : x ≤ x * (s - (θ - 1) * (log x - 1)) / (θ + x - 1) := by
    rw [gumbel_newton_eq hθ hx]
    have : 0 ≤ x * (s - (x + (θ - 1) * log x)) / (θ + x - 1) := div_nonneg (mul_nonneg hx.le (by linarith)) hd.le
    linarith
  refine ⟨le_max_right _ _, ?_⟩
  unfold gumbelStep
  rw [max_eq_left hge]
  obtain ⟨z, hz⟩ : ∃ z, z = x * (s - (θ - 1) * (log x - 1)) / (θ + x - 1) := ⟨_, rfl⟩
  rw [← hz] at hge ⊢
  have hzpos : 0 < z := lt_of_lt_of_le hx hge
  have hlog : log z ≤ log x + (z - x) / x := by
    have := log_le_sub_one_of_pos (div_pos hzpos hx)
    rw [log_div hzpos.ne' hx.ne'] at this
    have e : (z - x) / x = z / x - 1 := by field_simp
    rw [e]
    linarith
  have hz2 : (z - x) * (θ + x - 1) = x * (s - (x + (θ - 1) * log x)) := by
    rw [hz, gumbel_newton_eq hθ hx]
    field_simp
    ring
  have hz3 : (z - x) + (θ - 1) * ((z - x) / x) = s - (x + (θ - 1) * log x) := by
    field_simp
    linear_combination hz2
  nlinarith

/-- The iterates increase, stay below `s`, and tend to the root. -/
theorem gumbel_newton {θ s b : ℝ} (hθ : 1 < θ) (hb : 0 < b) (h : b + (θ - 1) * log b ≤ s) :
    ∃ L, b ≤ L ∧ L + (θ - 1) * log L = s ∧ Filter.Tendsto (fun k => (gumbelStep θ s)^[k] b) Filter.atTop (nhds L) := by
  have inv : ∀ k, b ≤ (gumbelStep θ s)^[k] b ∧ (gumbelStep θ s)^[k] b + (θ - 1) * log ((gumbelStep θ s)^[k] b) ≤ s := by
    intro k
    induction k with
    | zero => exact ⟨le_refl _, h⟩
    | succ k ih =>
      rw [Function.iterate_succ_apply']
      have := gumbel_step hθ (lt_of_lt_of_le hb ih.1) ih.2
      exact ⟨ih.1.trans this.1, this.2⟩
  have mono : Monotone (fun k => (gumbelStep θ s)^[k] b) := by
    refine monotone_nat_of_le_succ fun k => ?_
    simp only [Function.iterate_succ_apply']
    exact (gumbel_step hθ (lt_of_lt_of_le hb (inv k).1) (inv k).2).1
  have bdd : BddAbove (range fun k => (gumbelStep θ s)^[k] b) := by
    refine ⟨s - (θ - 1) * log b, ?_⟩
    rintro _ ⟨k, rfl⟩
    have := log_le_log hb (inv k).1
    have := (inv k).2
    simp only
    nlinarith
  have lim := tendsto_atTop_ciSup mono bdd
  obtain ⟨L, hL⟩ : ∃ L, L = ⨆ k, (gumbelStep θ s)^[k] b := ⟨_, rfl⟩
  rw [← hL] at lim
  have hbL : b ≤ L := ge_of_tendsto' lim fun k => (inv k).1
  have hLpos := lt_of_lt_of_le hb hbL
  have hd : 0 < θ + L - 1 := by linarith
  have cont : ContinuousAt (gumbelStep θ s) L := by
    unfold gumbelStep
    have hlog := continuousAt_log hLpos.ne'
    refine Filter.Tendsto.max (ContinuousAt.div ?_ ?_ hd.ne') continuousAt_id
    · exact continuousAt_id.mul (continuousAt_const.sub (continuousAt_const.mul (hlog.sub continuousAt_const)))
    · exact (continuousAt_const.add continuousAt_id).sub continuousAt_const
  have fix : gumbelStep θ s L = L := by
    have l1 := (cont.tendsto.comp lim)
    have l2 := lim.comp (Filter.tendsto_add_atTop_nat 1)
    refine tendsto_nhds_unique l1 (l2.congr fun k => ?_)
    simp [Function.iterate_succ_apply']
  have hle : L + (θ - 1) * log L ≤ s := by
    have hc : ContinuousAt (fun x => x + (θ - 1) * log x) L := continuousAt_id.add (continuousAt_const.mul (continuousAt_log hLpos.ne'))
    exact le_of_tendsto' (hc.tendsto.comp lim) fun k => (inv k).2
  have hge : s ≤ L + (θ - 1) * log L := by
    have : L * (s - (θ - 1) * (log L - 1)) / (θ + L - 1) ≤ L := by
      rw [← fix.symm.symm]
      unfold gumbelStep at fix ⊢
      rw [fix]
      exact le_of_le_of_eq (le_max_left _ _) fix
    rw [gumbel_newton_eq hθ hLpos] at this
    by_contra hc
    push Not at hc
    have : 0 < L * (s - (L + (θ - 1) * log L)) / (θ + L - 1) := div_pos (mul_pos hLpos (by linarith)) hd
    linarith
  exact ⟨L, hbL, le_antisymm hle hge, lim⟩

theorem gumbel_f_inj {θ x y : ℝ} (hθ : 1 < θ) (hx : 0 < x) (hy : 0 < y) (h : x + (θ - 1) * log x = y + (θ - 1) * log y) : x = y := by
  have : ∀ x y : ℝ, 0 < x → x < y → x + (θ - 1) * log x < y + (θ - 1) * log y := by
    intro x y hx hxy
    have := log_lt_log hx hxy
    nlinarith
  rcases lt_trichotomy x y with h' | h' | h'
  · exact absurd h (this x y hx h').ne
  · exact h'
  · exact absurd h (this y x hy h').ne'

theorem gumbel_inverse_false {θ p v : ℝ} (hθ : 1 < θ) (hp : Inside p) (hv : Inside v) :
    ∃ u, Inside u ∧ gumbelPartial θ false (u, v) = p ∧ (∀ u', Inside u' → gumbelPartial θ false (u', v) = p → u' = u) ∧
      Filter.Tendsto (fun k => gumbelInverse θ k false (p, v)) Filter.atTop (nhds u) := by
  have hb := neglog_pos hv
  have hP := neglog_pos hp
  have hθp : 0 < θ := by linarith
  obtain ⟨s, hs⟩ : ∃ s, s = -log v + -log p + log (-log v) * (θ - 1) := ⟨_, rfl⟩
  obtain ⟨L, hbL, hL, lim⟩ := gumbel_newton (s := s) hθ hb (by rw [hs]; linarith)
  have hbL' : -log v < L := by
    refine lt_of_le_of_ne hbL fun e => ?_
    rw [← e, hs] at hL
    linarith
  have hLpos := lt_trans hb hbL'
  have hB := rpow_pos_of_pos hb θ
  have hdiff : 0 < L ^ θ - (-log v) ^ θ := sub_pos.2 (rpow_lt_rpow hb.le hbL' hθp)
  have hapos : 0 < (L ^ θ - (-log v) ^ θ) ^ (1 / θ) := rpow_pos_of_pos hdiff _
  have hin : Inside (exp (-(L ^ θ - (-log v) ^ θ) ^ (1 / θ))) := ⟨exp_pos _, exp_lt_one_iff.2 (by linarith)⟩
  have hrad : ((-log (exp (-(L ^ θ - (-log v) ^ θ) ^ (1 / θ)))) ^ θ + (-log v) ^ θ) ^ (1 / θ) = L := by
    rw [log_exp, neg_neg, ← rpow_mul hdiff.le, one_div_mul_cancel hθp.ne', rpow_one, sub_add_cancel, ← rpow_mul hLpos.le, mul_one_div_cancel hθp.ne', rpow_one]
  refine ⟨exp (-(L ^ θ - (-log v) ^ θ) ^ (1 / θ)), hin, ?_, ?_, ?_⟩
  · rw [gumbel_root hθ hin hv hp, hrad, hL, hs]
  · intro u' hu' h'
    rw [gumbel_root hθ hu' hv hp, ← hs, ← hL] at h'
    have ha' := neglog_pos hu'
    have hS : 0 < (-log u') ^ θ + (-log v) ^ θ := by linarith [rpow_pos_of_pos ha' θ]
    have := gumbel_f_inj hθ (rpow_pos_of_pos hS _) hLpos h'
    rw [← this, ← rpow_mul hS.le, one_div_mul_cancel hθp.ne', rpow_one, add_sub_cancel_right, ← rpow_mul ha'.le, mul_one_div_cancel hθp.ne', rpow_one, neg_neg, exp_log hu'.1]
  · have hc : ContinuousAt (fun y : ℝ => exp (-(y ^ θ - (-log v) ^ θ) ^ (1 / θ))) L :=
      (ContinuousAt.neg (ContinuousAt.rpow_const ((ContinuousAt.rpow_const continuousAt_id (Or.inl hLpos.ne')).sub continuousAt_const) (Or.inl hdiff.ne'))).rexp
    have := hc.tendsto.comp lim
    refine this.congr fun k => ?_
    simp [gumbelInverse, marginSwap, hs]

/-- **C51, Gumbel.** For every parameter above 1 the distribution function is a copula, `partial_derivative` is its partial derivative, the Newton iteration of `inverse_partial_derivative` tends to the only solution,
and on the data that the public methods pass on (clipped to 1 - 1e-9) the exponential of the score is the density. -/
theorem C51_gumbel (θ : ℝ) (hθ : 1 < θ) :
    IsCopula (gumbelCdf θ) ∧ IsPartial (gumbelCdf θ) (gumbelPartial θ) ∧ ConvergesToInverse (gumbelPartial θ) (gumbelInverse θ) ∧
      (∀ u v, Inside u → Inside v → u ≤ 1 - 1 / 10 ^ 9 → v ≤ 1 - 1 / 10 ^ 9 →
        HasDerivAt (fun t => gumbelPartial θ false (t, v)) (exp (gumbelScore θ (u, v))) u ∧ HasDerivAt (fun t => gumbelPartial θ true (u, t)) (exp (gumbelScore θ (u, v))) v) := by
  refine ⟨gumbel_copula hθ.le, gumbel_partial hθ.le, ⟨fun p v hp hv => gumbel_inverse_false hθ hp hv, fun u p hu hp => ?_⟩, fun u v hu hv h1 h2 => ⟨gumbel_density_false hθ hu hv (gumbel_clip hθ hu hv h1), ?_⟩⟩
  · exact gumbel_inverse_false hθ hp hu
  · have := gumbel_density_false hθ hv hu (gumbel_clip hθ hv hu h2)
    have e : gumbelScore θ (v, u) = gumbelScore θ (u, v) := by
      simp only [gumbelScore]
      rw [add_comm ((-log v) ^ θ), mul_comm (-log v), add_comm (-log v) (-log u)]
    rw [e] at this
    exact this

end Skfolio.Copula
