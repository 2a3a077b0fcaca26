import Verif.Copula.TailModel
import Verif.Copula.RotationTheorems
import Verif.Copula.EllipticalTheorems
import Mathlib.Analysis.Calculus.FDeriv.Partial
import Mathlib.Analysis.Calculus.LHopital
import Mathlib.Analysis.SpecialFunctions.Pow.Deriv
import Mathlib.Analysis.MeanInequalitiesPow

/-!
Claim C89: the tail dependence coefficients are the limits of the conditional probabilities of the tails.
-/
set_option autoImplicit false

namespace Skfolio.Copula

open Filter Topology Real

/-! ### specification -/

/-- The probability that the second variable is at most `q`, given that the first one is, tends to `l` for `q → 0`. -/
def LowerTail (C : ℝ × ℝ → ℝ) (l : ℝ) : Prop := Tendsto (fun q => C (q, q) / q) (𝓝[>] 0) (𝓝 l)

/-- The probability that the second variable is above `q`, given that the first one is, tends to `l` for `q → 1`. -/
def UpperTail (C : ℝ × ℝ → ℝ) (l : ℝ) : Prop := Tendsto (fun q => (1 - 2 * q + C (q, q)) / (1 - q)) (𝓝[<] 1) (𝓝 l)

/-! ### rotations -/

theorem tendsto_one_sub_left : Tendsto (fun q : ℝ => 1 - q) (𝓝[<] 1) (𝓝[>] 0) := by
  refine tendsto_nhdsWithin_iff.2 ⟨?_, ?_⟩
  · have : Tendsto (fun q : ℝ => 1 - q) (𝓝 1) (𝓝 (1 - 1)) := tendsto_const_nhds.sub tendsto_id
    rw [sub_self] at this
    exact this.mono_left nhdsWithin_le_nhds
  · filter_upwards [self_mem_nhdsWithin] with q hq
    have : q < 1 := hq
    show 0 < 1 - q
    linarith

theorem tendsto_one_sub_right : Tendsto (fun q : ℝ => 1 - q) (𝓝[>] 0) (𝓝[<] 1) := by
  refine tendsto_nhdsWithin_iff.2 ⟨?_, ?_⟩
  · have : Tendsto (fun q : ℝ => 1 - q) (𝓝 0) (𝓝 (1 - 0)) := tendsto_const_nhds.sub tendsto_id
    rw [sub_zero] at this
    exact this.mono_left nhdsWithin_le_nhds
  · filter_upwards [self_mem_nhdsWithin] with q hq
    have : 0 < q := hq
    show 1 - q < 1
    linarith

theorem upper_iff (C : ℝ × ℝ → ℝ) (l : ℝ) : UpperTail C l ↔ Tendsto (fun p => (2 * p - 1 + C (1 - p, 1 - p)) / p) (𝓝[>] 0) (𝓝 l) := by
  constructor
  · intro h
    refine (h.comp tendsto_one_sub_right).congr fun p => ?_
    simp only [Function.comp]
    congr 1 <;> ring
  · intro h
    refine (h.comp tendsto_one_sub_left).congr fun q => ?_
    simp only [Function.comp]
    rw [sub_sub_cancel]
    congr 1
    ring

/-- What the rotations do to the tails of an exchangeable copula whose off-diagonal tails are independent. -/
theorem tails_rotate {C : ℝ × ℝ → ℝ} (hsym : ∀ u v, C (u, v) = C (v, u)) {L U : ℝ} (hL : LowerTail C L) (hU : UpperTail C U)
    (hM : Tendsto (fun q => C (1 - q, q) / q) (𝓝[>] 0) (𝓝 1)) (r : Rotation) :
    LowerTail (rotationCdf C r) (if r = .r0 then L else if r = .r180 then U else 0) ∧
    UpperTail (rotationCdf C r) (if r = .r180 then L else if r = .r0 then U else 0) := by
  have hU' := (upper_iff C U).1 hU
  have hM0 : Tendsto (fun q => 1 - C (1 - q, q) / q) (𝓝[>] 0) (𝓝 0) := by
    have := hM.const_sub 1
    rwa [sub_self] at this
  have off : Tendsto (fun q => (q - C (1 - q, q)) / q) (𝓝[>] 0) (𝓝 0) := by
    refine hM0.congr' ?_
    filter_upwards [self_mem_nhdsWithin] with q hq
    have : q ≠ 0 := ne_of_gt hq
    rw [sub_div, div_self this]
  rw [upper_iff]
  cases r with
  | r0 => exact ⟨hL, hU'⟩
  | r180 =>
    constructor
    · unfold LowerTail
      simp only [rotationCdf, applyRotation, reduceCtorEq, if_false, if_true]
      exact hU'.congr fun q => by rw [two_mul]
    · simp only [rotationCdf, applyRotation, if_true]
      refine hL.congr fun q => ?_
      rw [sub_sub_cancel]
      congr 1
      ring
  | r90 =>
    constructor
    · unfold LowerTail
      simp only [rotationCdf, applyRotation, reduceCtorEq, if_false]
      exact off.congr fun q => by rw [hsym q]
    · simp only [rotationCdf, applyRotation, reduceCtorEq, if_false]
      refine off.congr fun q => ?_
      rw [sub_sub_cancel]
      congr 1
      ring
  | r270 =>
    constructor
    · unfold LowerTail
      simp only [rotationCdf, applyRotation, reduceCtorEq, if_false]
      exact off
    · simp only [rotationCdf, applyRotation, reduceCtorEq, if_false]
      refine off.congr fun q => ?_
      rw [sub_sub_cancel, hsym q]
      congr 1
      ring

/-- The off-diagonal tails of a positively dependent copula. -/
theorem off_diagonal {C : ℝ × ℝ → ℝ} (hle : ∀ q, Inside q → C (1 - q, q) ≤ q) (hge : ∀ q, Inside q → (1 - q) * q ≤ C (1 - q, q)) :
    Tendsto (fun q => C (1 - q, q) / q) (𝓝[>] 0) (𝓝 1) := by
  have h1 : Tendsto (fun q : ℝ => 1 - q) (𝓝[>] 0) (𝓝 1) := tendsto_one_sub_right.mono_right nhdsWithin_le_nhds
  have hin : ∀ᶠ q : ℝ in 𝓝[>] 0, Inside q := by
    filter_upwards [Ioo_mem_nhdsGT (show (0 : ℝ) < 1 by norm_num)] with q hq
    exact ⟨hq.1, hq.2⟩
  refine tendsto_of_tendsto_of_tendsto_of_le_of_le' h1 tendsto_const_nhds ?_ ?_
  · filter_upwards [hin] with q hq
    rw [le_div_iff₀ hq.1]
    exact hge q hq
  · filter_upwards [hin] with q hq
    rw [div_le_iff₀ hq.1, one_mul]
    exact hle q hq

theorem eventually_inside : ∀ᶠ q : ℝ in 𝓝[>] 0, Inside q := by
  filter_upwards [Ioo_mem_nhdsGT (show (0 : ℝ) < 1 by norm_num)] with q hq
  exact ⟨hq.1, hq.2⟩

/-- The upper tail from the slope of the diagonal at 1. -/
theorem upper_of_deriv {C : ℝ × ℝ → ℝ} {δ : ℝ → ℝ} {d : ℝ} (h1 : δ 1 = 1) (hd : HasDerivAt δ d 1) (he : ∀ q, Inside q → C (q, q) = δ q) : UpperTail C (2 - d) := by
  have h := hasDerivAt_iff_tendsto_slope.1 hd
  have h' : Tendsto (slope δ 1) (𝓝[<] 1) (𝓝 d) := h.mono_left (nhdsWithin_mono _ fun x (hx : x < 1) => ne_of_lt hx)
  refine ((h'.const_sub 2)).congr' ?_
  filter_upwards [Ioo_mem_nhdsLT (show (0 : ℝ) < 1 by norm_num)] with q hq
  have hq1 : q - 1 ≠ 0 := sub_ne_zero.2 (ne_of_lt hq.2)
  have hq2 : 1 - q ≠ 0 := sub_ne_zero.2 (ne_of_gt hq.2)
  rw [he q ⟨hq.1, hq.2⟩, slope_def_field, h1]
  field_simp
  ring

/-- The lower tail from the slope of the diagonal at 0. -/
theorem lower_of_deriv {C : ℝ × ℝ → ℝ} {δ : ℝ → ℝ} {d : ℝ} (h0 : δ 0 = 0) (hd : HasDerivAt δ d 0) (he : ∀ q, Inside q → C (q, q) = δ q) : LowerTail C d := by
  have h := hasDerivAt_iff_tendsto_slope.1 hd
  have h' : Tendsto (slope δ 0) (𝓝[>] 0) (𝓝 d) := h.mono_left (nhdsWithin_mono _ fun x (hx : 0 < x) => ne_of_gt hx)
  refine h'.congr' ?_
  filter_upwards [eventually_inside] with q hq
  rw [he q hq, slope_def_field, h0, sub_zero, sub_zero]

/-! ### Clayton -/

theorem clayton_diag {θ : ℝ} (hθ : 0 < θ) {q : ℝ} (hq : Inside q) : claytonCdf θ (q, q) = q * (2 - q ^ θ) ^ (-1 / θ) := by
  have hq0 : q ≠ 0 := ne_of_gt hq.1
  have h2 : 0 ≤ 2 - q ^ θ := by
    have := rpow_le_one hq.1.le hq.2.le hθ.le
    linarith
  simp only [claytonCdf, hq0, or_self, if_false]
  have e : q ^ (-θ) + q ^ (-θ) - 1 = q ^ (-θ) * (2 - q ^ θ) := by
    have : q ^ (-θ) * q ^ θ = 1 := by rw [← rpow_add hq.1]; simp
    linear_combination this
  rw [e, mul_rpow (rpow_nonneg hq.1.le _) h2, ← rpow_mul hq.1.le]
  have : -θ * (-1 / θ) = 1 := by field_simp
  rw [this, rpow_one]

theorem clayton_lower {θ : ℝ} (hθ : 0 < θ) : LowerTail (claytonCdf θ) ((2 : ℝ) ^ (-1 / θ)) := by
  have h1 : Tendsto (fun q : ℝ => q ^ θ) (𝓝[>] 0) (𝓝 0) := by
    have := (continuousAt_rpow_const 0 θ (Or.inr hθ.le)).tendsto
    rw [zero_rpow hθ.ne'] at this
    exact this.mono_left nhdsWithin_le_nhds
  have h2 : Tendsto (fun q : ℝ => (2 - q ^ θ) ^ (-1 / θ)) (𝓝[>] 0) (𝓝 ((2 - 0 : ℝ) ^ (-1 / θ))) :=
    (h1.const_sub 2).rpow_const (Or.inl (by norm_num))
  rw [sub_zero] at h2
  refine h2.congr' ?_
  filter_upwards [eventually_inside] with q hq
  rw [clayton_diag hθ hq, mul_div_cancel_left₀ _ (ne_of_gt hq.1)]

theorem clayton_upper {θ : ℝ} (hθ : 0 < θ) : UpperTail (claytonCdf θ) 0 := by
  have hd : HasDerivAt (fun q : ℝ => q * (2 - q ^ θ) ^ (-1 / θ)) 2 1 := by
    have d1 : HasDerivAt (fun q : ℝ => q ^ θ) (θ * 1 ^ (θ - 1)) 1 := hasDerivAt_rpow_const (Or.inl one_ne_zero)
    rw [one_rpow, mul_one] at d1
    have d2 := (d1.const_sub 2).rpow_const (p := -1 / θ) (Or.inl (by rw [one_rpow]; norm_num))
    have d3 := (hasDerivAt_id (1 : ℝ)).mul d2
    refine d3.congr_deriv ?_
    simp only [one_rpow, id]
    norm_num
    field_simp
    norm_num
  have := upper_of_deriv (C := claytonCdf θ) (by norm_num) hd fun q hq => clayton_diag hθ hq
  rwa [sub_self] at this

theorem clayton_off {θ : ℝ} (hθ : 0 < θ) : Tendsto (fun q => claytonCdf θ (1 - q, q) / q) (𝓝[>] 0) (𝓝 1) := by
  have key : ∀ q, Inside q → claytonCdf θ (1 - q, q) = ((1 - q) ^ (-θ) + q ^ (-θ) - 1) ^ (-1 / θ) := by
    intro q hq
    have h1 : 1 - q ≠ 0 := sub_ne_zero.2 (ne_of_gt hq.2)
    simp [claytonCdf, h1, ne_of_gt hq.1]
  have ge1 : ∀ t : ℝ, 0 < t → t ≤ 1 → 1 ≤ t ^ (-θ) := fun t h0 h1 => one_le_rpow_of_pos_of_le_one_of_nonpos h0 h1 (by linarith)
  have back : ∀ t : ℝ, 0 < t → (t ^ (-θ)) ^ (-1 / θ) = t := by
    intro t ht
    rw [← rpow_mul ht.le]
    have : -θ * (-1 / θ) = 1 := by field_simp
    rw [this, rpow_one]
  have hneg : -1 / θ ≤ 0 := by rw [neg_div]; have := one_div_pos.2 hθ; linarith
  refine off_diagonal (fun q hq => ?_) fun q hq => ?_
  · rw [key q hq]
    have hp : 0 < q ^ (-θ) := rpow_pos_of_pos hq.1 _
    have h1 := ge1 (1 - q) (by linarith [hq.2]) (by linarith [hq.1])
    calc ((1 - q) ^ (-θ) + q ^ (-θ) - 1) ^ (-1 / θ) ≤ (q ^ (-θ)) ^ (-1 / θ) := rpow_le_rpow_of_nonpos hp (by linarith) hneg
      _ = q := back q hq.1
  · rw [key q hq]
    have hp : 0 < 1 - q := by linarith [hq.2]
    have h1 := ge1 (1 - q) hp (by linarith [hq.1])
    have h2 := ge1 q hq.1 hq.2.le
    have hle : (1 - q) ^ (-θ) + q ^ (-θ) - 1 ≤ ((1 - q) * q) ^ (-θ) := by
      rw [mul_rpow hp.le hq.1.le]
      nlinarith
    calc (1 - q) * q = (((1 - q) * q) ^ (-θ)) ^ (-1 / θ) := (back _ (mul_pos hp hq.1)).symm
      _ ≤ _ := rpow_le_rpow_of_nonpos (by linarith) hle hneg

/-- **C89, Clayton.** -/
theorem C89_clayton (θ : ℝ) (hθ : 0 < θ) (r : Rotation) :
    LowerTail (rotationCdf (claytonCdf θ) r) (claytonLower θ r) ∧ UpperTail (rotationCdf (claytonCdf θ) r) (claytonUpper θ r) := by
  have h := tails_rotate (C := claytonCdf θ) (fun u v => by simp only [claytonCdf, or_comm, add_comm]) (clayton_lower hθ) (clayton_upper hθ) (clayton_off hθ) r
  cases r <;> simpa [claytonLower, claytonUpper] using h

/-! ### Joe -/

theorem joe_diag {θ : ℝ} {q : ℝ} (hθ : 1 < θ) (h0 : 0 ≤ q) (h1 : q ≤ 1) : joeCdf θ (q, q) = 1 - (1 - q) * (2 - (1 - q) ^ θ) ^ (1 / θ) := by
  have hp : 0 ≤ 1 - q := by linarith
  have h2 : 0 ≤ 2 - (1 - q) ^ θ := by
    have := rpow_le_one hp (by linarith) (by linarith : (0 : ℝ) ≤ θ)
    linarith
  simp only [joeCdf]
  have e : (1 - q) ^ θ + (1 - q) ^ θ - (1 - q) ^ θ * (1 - q) ^ θ = (1 - q) ^ θ * (2 - (1 - q) ^ θ) := by ring
  rw [e, mul_rpow (rpow_nonneg hp _) h2, ← rpow_mul hp]
  have : θ * (1 / θ) = 1 := by field_simp
  rw [this, rpow_one]

theorem joe_lower {θ : ℝ} (hθ : 1 < θ) : LowerTail (joeCdf θ) 0 := by
  refine lower_of_deriv (δ := fun q => 1 - (1 - q) * (2 - (1 - q) ^ θ) ^ (1 / θ)) (by norm_num) ?_ fun q hq => joe_diag hθ hq.1.le hq.2.le
  have d0 : HasDerivAt (fun q : ℝ => 1 - q) (-1) 0 := by simpa using (hasDerivAt_id (0 : ℝ)).const_sub 1
  have d1 := d0.rpow_const (p := θ) (Or.inl (by norm_num))
  have d2 := (d1.const_sub 2).rpow_const (p := 1 / θ) (Or.inl (by norm_num))
  have d3 := (d0.mul d2).const_sub 1
  refine d3.congr_deriv ?_
  have : θ ≠ 0 := by linarith
  norm_num
  field_simp
  norm_num

theorem joe_upper {θ : ℝ} (hθ : 1 < θ) : UpperTail (joeCdf θ) (2 - (2 : ℝ) ^ (1 / θ)) := by
  rw [upper_iff]
  have hθ0 : 0 < θ := by linarith
  have h1 : Tendsto (fun q : ℝ => q ^ θ) (𝓝[>] 0) (𝓝 0) := by
    have := (continuousAt_rpow_const 0 θ (Or.inr hθ0.le)).tendsto
    rw [zero_rpow hθ0.ne'] at this
    exact this.mono_left nhdsWithin_le_nhds
  have h2 : Tendsto (fun q : ℝ => 2 - (2 - q ^ θ) ^ (1 / θ)) (𝓝[>] 0) (𝓝 (2 - (2 - 0 : ℝ) ^ (1 / θ))) :=
    ((h1.const_sub 2).rpow_const (Or.inl (by norm_num))).const_sub 2
  rw [sub_zero] at h2
  refine h2.congr' ?_
  filter_upwards [eventually_inside] with p hp
  rw [joe_diag hθ (by linarith [hp.2]) (by linarith [hp.1]), sub_sub_cancel]
  have : p ≠ 0 := ne_of_gt hp.1
  field_simp
  ring

theorem joe_off {θ : ℝ} (hθ : 1 < θ) : Tendsto (fun q => joeCdf θ (1 - q, q) / q) (𝓝[>] 0) (𝓝 1) := by
  have hθ0 : 0 < θ := by linarith
  have back : ∀ t : ℝ, 0 ≤ t → (t ^ θ) ^ (1 / θ) = t := by
    intro t ht
    rw [← rpow_mul ht]
    have : θ * (1 / θ) = 1 := by field_simp
    rw [this, rpow_one]
  have hlow : Tendsto (fun q : ℝ => 1 - q ^ (θ - 1) * (1 - q) ^ (1 - θ) / θ) (𝓝[>] 0) (𝓝 1) := by
    have a : Tendsto (fun q : ℝ => q ^ (θ - 1)) (𝓝[>] 0) (𝓝 0) := by
      have := (continuousAt_rpow_const 0 (θ - 1) (Or.inr (by linarith))).tendsto
      rw [zero_rpow (by linarith)] at this
      exact this.mono_left nhdsWithin_le_nhds
    have b : Tendsto (fun q : ℝ => (1 - q) ^ (1 - θ)) (𝓝[>] 0) (𝓝 ((1 : ℝ) ^ (1 - θ))) :=
      (tendsto_one_sub_right.mono_right nhdsWithin_le_nhds).rpow_const (Or.inl one_ne_zero)
    have c := ((a.mul b).div_const θ).const_sub 1
    simpa using c
  refine tendsto_of_tendsto_of_tendsto_of_le_of_le' hlow tendsto_const_nhds ?_ ?_
  · filter_upwards [eventually_inside] with q hq
    have hx : 0 < 1 - q := by linarith [hq.2]
    have hxθ : 0 < (1 - q) ^ θ := rpow_pos_of_pos hx _
    have hqθ : 0 < q ^ θ := rpow_pos_of_pos hq.1 _
    have hbern : (1 + q ^ θ / (1 - q) ^ θ) ^ (1 / θ) ≤ 1 + 1 / θ * (q ^ θ / (1 - q) ^ θ) :=
      rpow_one_add_le_one_add_mul_self (by have := div_pos hqθ hxθ; linarith) (by positivity) (by rw [div_le_one hθ0]; exact hθ.le)
    have hle : ((1 - (1 - q)) ^ θ + (1 - q) ^ θ - (1 - (1 - q)) ^ θ * (1 - q) ^ θ) ^ (1 / θ) ≤ (1 - q) * (1 + 1 / θ * (q ^ θ / (1 - q) ^ θ)) := by
      rw [sub_sub_cancel]
      have e1 : q ^ θ + (1 - q) ^ θ - q ^ θ * (1 - q) ^ θ ≤ (1 - q) ^ θ * (1 + q ^ θ / (1 - q) ^ θ) := by
        have : (1 - q) ^ θ * (1 + q ^ θ / (1 - q) ^ θ) = (1 - q) ^ θ + q ^ θ := by field_simp
        rw [this]
        nlinarith [mul_pos hqθ hxθ]
      have e0 : 0 ≤ q ^ θ + (1 - q) ^ θ - q ^ θ * (1 - q) ^ θ := by
        have h1 : q ^ θ ≤ 1 := rpow_le_one hq.1.le hq.2.le hθ0.le
        nlinarith
      calc _ ≤ ((1 - q) ^ θ * (1 + q ^ θ / (1 - q) ^ θ)) ^ (1 / θ) := rpow_le_rpow e0 e1 (by positivity)
        _ = (1 - q) * (1 + q ^ θ / (1 - q) ^ θ) ^ (1 / θ) := by rw [mul_rpow hxθ.le (by positivity), back _ hx.le]
        _ ≤ _ := mul_le_mul_of_nonneg_left hbern hx.le
    rw [le_div_iff₀ hq.1]
    simp only [joeCdf]
    have e2 : (1 - q ^ (θ - 1) * (1 - q) ^ (1 - θ) / θ) * q = 1 - (1 - q) * (1 + 1 / θ * (q ^ θ / (1 - q) ^ θ)) := by
      have a : q ^ θ = q ^ (θ - 1) * q := by
        rw [← rpow_add_one hq.1.ne']; ring_nf
      have b : (1 - q) ^ (1 - θ) = (1 - q) / (1 - q) ^ θ := by
        rw [rpow_sub hx, rpow_one]
      rw [a, b]
      field_simp
      ring
    rw [e2]
    linarith
  · filter_upwards [eventually_inside] with q hq
    have hx : 0 < 1 - q := by linarith [hq.2]
    rw [div_le_iff₀ hq.1, one_mul]
    simp only [joeCdf]
    rw [sub_sub_cancel]
    have h1 : (1 - q) ^ θ ≤ 1 := rpow_le_one hx.le (by linarith [hq.1]) hθ0.le
    have h2 : (1 - q) ^ θ ≤ q ^ θ + (1 - q) ^ θ - q ^ θ * (1 - q) ^ θ := by
      nlinarith [rpow_nonneg hq.1.le θ]
    have := rpow_le_rpow (rpow_nonneg hx.le θ) h2 (by positivity : 0 ≤ 1 / θ)
    rw [back _ hx.le] at this
    linarith

/-- **C89, Joe.** -/
theorem C89_joe (θ : ℝ) (hθ : 1 < θ) (r : Rotation) :
    LowerTail (rotationCdf (joeCdf θ) r) (joeLower θ r) ∧ UpperTail (rotationCdf (joeCdf θ) r) (joeUpper θ r) := by
  have h := tails_rotate (C := joeCdf θ) (fun u v => by simp only [joeCdf, add_comm, mul_comm]) (joe_lower hθ) (joe_upper hθ) (joe_off hθ) r
  cases r <;> simpa [joeLower, joeUpper] using h

/-! ### Gumbel -/

theorem gumbel_diag {θ : ℝ} (hθ : 1 < θ) {q : ℝ} (hq : Inside q) : gumbelCdf θ (q, q) = q ^ ((2 : ℝ) ^ (1 / θ)) := by
  have hq0 : q ≠ 0 := ne_of_gt hq.1
  have hl : 0 ≤ -log q := by have := log_nonpos hq.1.le hq.2.le; linarith
  simp only [gumbelCdf, hq0, or_self, if_false]
  rw [← two_mul, mul_rpow (by norm_num) (rpow_nonneg hl _), ← rpow_mul hl]
  have : θ * (1 / θ) = 1 := by field_simp
  rw [this, rpow_one, rpow_def_of_pos hq.1]
  congr 1
  ring

theorem two_rpow_gt {θ : ℝ} (hθ : 1 < θ) : 1 < (2 : ℝ) ^ (1 / θ) := one_lt_rpow (by norm_num) (by positivity)

theorem gumbel_lower {θ : ℝ} (hθ : 1 < θ) : LowerTail (gumbelCdf θ) 0 := by
  have hk := two_rpow_gt hθ
  have h1 : Tendsto (fun q : ℝ => q ^ ((2 : ℝ) ^ (1 / θ) - 1)) (𝓝[>] 0) (𝓝 0) := by
    have := (continuousAt_rpow_const 0 ((2 : ℝ) ^ (1 / θ) - 1) (Or.inr (by linarith))).tendsto
    rw [zero_rpow (by linarith)] at this
    exact this.mono_left nhdsWithin_le_nhds
  refine h1.congr' ?_
  filter_upwards [eventually_inside] with q hq
  rw [gumbel_diag hθ hq, rpow_sub_one (ne_of_gt hq.1)]

theorem gumbel_upper {θ : ℝ} (hθ : 1 < θ) : UpperTail (gumbelCdf θ) (2 - (2 : ℝ) ^ (1 / θ)) := by
  have hd : HasDerivAt (fun q : ℝ => q ^ ((2 : ℝ) ^ (1 / θ))) ((2 : ℝ) ^ (1 / θ)) 1 := by
    have := hasDerivAt_rpow_const (x := (1 : ℝ)) (p := (2 : ℝ) ^ (1 / θ)) (Or.inl one_ne_zero)
    simpa using this
  exact upper_of_deriv (C := gumbelCdf θ) (by simp) hd fun q hq => gumbel_diag hθ hq

theorem gumbel_off {θ : ℝ} (hθ : 1 < θ) : Tendsto (fun q => gumbelCdf θ (1 - q, q) / q) (𝓝[>] 0) (𝓝 1) := by
  have hθ0 : 0 < θ := by linarith
  have key : ∀ q, Inside q → gumbelCdf θ (1 - q, q) = exp (-((-log (1 - q)) ^ θ + (-log q) ^ θ) ^ (1 / θ)) := by
    intro q hq
    have h1 : 1 - q ≠ 0 := sub_ne_zero.2 (ne_of_gt hq.2)
    simp [gumbelCdf, h1, ne_of_gt hq.1]
  have back : ∀ t : ℝ, 0 ≤ t → (t ^ θ) ^ (1 / θ) = t := by
    intro t ht
    rw [← rpow_mul ht]
    have : θ * (1 / θ) = 1 := by field_simp
    rw [this, rpow_one]
  have nn : ∀ t, Inside t → 0 ≤ -log t := fun t ht => by have := log_nonpos ht.1.le ht.2.le; linarith
  have flip : ∀ q, Inside q → Inside (1 - q) := fun q hq => ⟨by linarith [hq.2], by linarith [hq.1]⟩
  refine off_diagonal (fun q hq => ?_) fun q hq => ?_
  · rw [key q hq]
    have ha := nn _ (flip q hq)
    have hb := nn _ hq
    have h1 : -log q ≤ ((-log (1 - q)) ^ θ + (-log q) ^ θ) ^ (1 / θ) := by
      calc -log q = ((-log q) ^ θ) ^ (1 / θ) := (back _ hb).symm
        _ ≤ _ := rpow_le_rpow (rpow_nonneg hb _) (by linarith [rpow_nonneg ha θ]) (by positivity)
    calc exp (-((-log (1 - q)) ^ θ + (-log q) ^ θ) ^ (1 / θ)) ≤ exp (log q) := exp_le_exp.2 (by linarith)
      _ = q := exp_log hq.1
  · rw [key q hq]
    have ha := nn _ (flip q hq)
    have hb := nn _ hq
    have h1 : ((-log (1 - q)) ^ θ + (-log q) ^ θ) ^ (1 / θ) ≤ -log (1 - q) + -log q := by
      calc _ ≤ ((-log (1 - q) + -log q) ^ θ) ^ (1 / θ) :=
            rpow_le_rpow (add_nonneg (rpow_nonneg ha _) (rpow_nonneg hb _)) (add_rpow_le_rpow_add ha hb hθ.le) (by positivity)
        _ = _ := back _ (add_nonneg ha hb)
    calc (1 - q) * q = exp (log (1 - q) + log q) := by rw [exp_add, exp_log (flip q hq).1, exp_log hq.1]
      _ ≤ _ := exp_le_exp.2 (by linarith)

/-- **C89, Gumbel.** -/
theorem C89_gumbel (θ : ℝ) (hθ : 1 < θ) (r : Rotation) :
    LowerTail (rotationCdf (gumbelCdf θ) r) (gumbelLower θ r) ∧ UpperTail (rotationCdf (gumbelCdf θ) r) (gumbelUpper θ r) := by
  have h := tails_rotate (C := gumbelCdf θ) (fun u v => by simp only [gumbelCdf, or_comm, add_comm]) (gumbel_lower hθ) (gumbel_upper hθ) (gumbel_off hθ) r
  cases r <;> simpa [gumbelLower, gumbelUpper] using h

/-! ### independence -/

/-- **C89, independent copula.** -/
theorem C89_independent : LowerTail independentCdf independentLower ∧ UpperTail independentCdf independentUpper := by
  constructor
  · refine lower_of_deriv (δ := fun q => q * q) (by norm_num) ?_ fun q _ => rfl
    exact ((hasDerivAt_id (0 : ℝ)).mul (hasDerivAt_id (0 : ℝ))).congr_deriv (by simp [independentLower])
  · have hd : HasDerivAt (fun q : ℝ => q * q) 2 1 := by
      refine ((hasDerivAt_id (1 : ℝ)).mul (hasDerivAt_id (1 : ℝ))).congr_deriv ?_
      norm_num
    have := upper_of_deriv (C := independentCdf) (by norm_num) hd fun q _ => rfl
    rwa [sub_self] at this

/-! ### tail concentration -/

theorem copula_diag {C : ℝ × ℝ → ℝ} (hC : IsCopula C) {q : ℝ} (hq : Unit q) : 0 ≤ C (q, q) ∧ C (q, q) ≤ q ∧ 2 * q - 1 ≤ C (q, q) := by
  have h0 : Unit (0 : ℝ) := ⟨le_refl _, zero_le_one⟩
  have h1 : Unit (1 : ℝ) := ⟨zero_le_one, le_refl _⟩
  have a := hC.mass_nonneg 0 q 0 q (le_refl _) hq.1 hq.2 (le_refl _) hq.1 hq.2
  have b := hC.mass_nonneg q 1 0 q hq.1 hq.2 (le_refl _) (le_refl _) hq.1 hq.2
  have c := hC.mass_nonneg q 1 q 1 hq.1 hq.2 (le_refl _) hq.1 hq.2 (le_refl _)
  simp only [mass] at a b c
  have g := hC.grounded q hq
  have g0 := hC.grounded 0 h0
  have g1 := hC.grounded 1 h1
  have m := hC.margins q hq
  have m0 := hC.margins 0 h0
  have m1 := hC.margins 1 h1
  refine ⟨?_, ?_, ?_⟩
  · rw [g.1, g.2, g0.1] at a; linarith
  · rw [m.1, m0.1, g.2] at b; linarith
  · rw [m1.1, m.1, m.2] at c; linarith

/-- **C89.** Between 1e-9 and 1 - 1e-9 the tail concentration of a copula is the conditional probability of the tail, between 0 and 1. -/
theorem C89_concentration_partial (C : ℝ × ℝ → ℝ) (hC : IsCopula C) (q : ℝ) (h0 : 1 / 10 ^ 9 ≤ q) (h1 : q ≤ 1 - 1 / 10 ^ 9) :
    ∃ t, copulaConcentration C q = some (some t) ∧ t = (if q ≤ 1 / 2 then C (q, q) / q else (1 - 2 * q + C (q, q)) / (1 - q)) ∧ 0 ≤ t ∧ t ≤ 1 := by
  have hq0 : 0 < q := lt_of_lt_of_le (by positivity) h0
  have hq1 : q < 1 := lt_of_le_of_lt h1 (by norm_num)
  have hc : clipMarginal q = q := by
    unfold clipMarginal marginalEpsilon
    rw [max_eq_left h0, min_eq_left h1]
  have hd := copula_diag hC (q := q) ⟨hq0.le, hq1.le⟩
  have hp : 0 < 1 - q := by linarith
  unfold copulaConcentration
  rw [if_pos ⟨hq0.le, hq1.le⟩]
  simp only [hc]
  by_cases h : q ≤ 1 / 2
  · rw [if_pos h]
    refine ⟨C (q, q) / q, by unfold floatDiv; rw [if_neg hq0.ne'], by rw [if_pos h], div_nonneg hd.1 hq0.le, (div_le_one hq0).2 hd.2.1⟩
  · rw [if_neg h]
    refine ⟨(1 - 2 * q + C (q, q)) / (1 - q), by unfold floatDiv; rw [if_neg hp.ne'], by rw [if_neg h], div_nonneg (by linarith) hp.le, (div_le_one hp).2 (by linarith)⟩

/-- **C89.** Exactly the quantiles outside [0, 1] are refused. -/
theorem C89_concentration_refuses (C : ℝ × ℝ → ℝ) (q : ℝ) : copulaConcentration C q = none ↔ q < 0 ∨ 1 < q := by
  unfold copulaConcentration
  by_cases h : 0 ≤ q ∧ q ≤ 1
  · rw [if_pos h]
    simp only [reduceCtorEq, false_iff, not_or, not_lt]
    exact h
  · rw [if_neg h]
    simp only [true_iff]
    by_contra hc
    push Not at hc
    exact h hc

/-- **C89** (negated). For every copula the tail concentration is negative, so that it is no probability, for quantiles between 1 - 5e-10 and 1. -/
theorem C89_concentration_negative (C : ℝ × ℝ → ℝ) (hC : IsCopula C) (q : ℝ) (h0 : 1 - 1 / (2 * 10 ^ 9) < q) (h1 : q < 1) :
    ∃ t, copulaConcentration C q = some (some t) ∧ t < 0 := by
  have hq : ¬ q ≤ 1 / 2 := by norm_num at h0 ⊢; linarith
  have hp : 0 < 1 - q := by linarith
  have hc : clipMarginal q = 1 - 1 / 10 ^ 9 := by
    unfold clipMarginal marginalEpsilon
    rw [max_eq_left (by norm_num at h0 ⊢; linarith), min_eq_right (by norm_num at h0 ⊢; linarith)]
  have hd := copula_diag hC (q := 1 - 1 / 10 ^ 9) ⟨by norm_num, by norm_num⟩
  unfold copulaConcentration
  rw [if_pos ⟨by linarith, h1.le⟩]
  simp only [hc, if_neg hq]
  refine ⟨(1 - 2 * q + C (1 - 1 / 10 ^ 9, 1 - 1 / 10 ^ 9)) / (1 - q), by unfold floatDiv; rw [if_neg hp.ne'], div_neg_of_neg_of_pos ?_ hp⟩
  have := hd.2.1
  norm_num at h0 this ⊢
  linarith

/-- **C89** (negated). Near 0 it is above every bound, for every copula with mass in the corner. -/
theorem C89_concentration_above_one (C : ℝ × ℝ → ℝ) (hC : IsCopula C) (q : ℝ) (h0 : 0 < q) (h1 : q < C (1 / 10 ^ 9, 1 / 10 ^ 9)) :
    ∃ t, copulaConcentration C q = some (some t) ∧ 1 < t := by
  have hd := copula_diag hC (q := 1 / 10 ^ 9) ⟨by norm_num, by norm_num⟩
  have hle : q < 1 / 10 ^ 9 := lt_of_lt_of_le h1 hd.2.1
  have hq : q ≤ 1 / 2 := hle.le.trans (by norm_num)
  have hc : clipMarginal q = 1 / 10 ^ 9 := by
    unfold clipMarginal marginalEpsilon
    rw [max_eq_right hle.le, min_eq_left (by norm_num)]
  unfold copulaConcentration
  rw [if_pos ⟨h0.le, hq.trans (by norm_num)⟩]
  simp only [hc, if_pos hq]
  exact ⟨C (1 / 10 ^ 9, 1 / 10 ^ 9) / q, by unfold floatDiv; rw [if_neg h0.ne'], (one_lt_div h0).2 h1⟩

/-- **C89** (negated). At the quantiles 0 and 1, which are accepted, it is NaN or infinite. -/
theorem C89_concentration_ends (C : ℝ × ℝ → ℝ) : copulaConcentration C 0 = some none ∧ copulaConcentration C 1 = some none := by
  constructor
  · norm_num [copulaConcentration, floatDiv]
  · norm_num [copulaConcentration, floatDiv]

example : IsCopula independentCdf := independent_copula.1

/-- The independent copula: the concentration of the quantile 1e-20 is 100 instead of 1e-20. -/
example : copulaConcentration independentCdf (1 / 10 ^ 20) = some (some 100) := by
  have hc : clipMarginal (1 / 10 ^ 20) = 1 / 10 ^ 9 := by
    unfold clipMarginal marginalEpsilon
    rw [max_eq_right (by norm_num), min_eq_left (by norm_num)]
  unfold copulaConcentration
  rw [if_pos ⟨by norm_num, by norm_num⟩]
  simp only [hc]
  norm_num [floatDiv, independentCdf]

end Skfolio.Copula
