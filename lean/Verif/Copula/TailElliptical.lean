import Verif.Copula.TailTheorems
import Verif.Copula.EllipticalExamples

/-!
Claim C89 for the Gaussian and the Student's t copula: their distribution functions are any copulas with the conditional distribution functions of the code.
-/
set_option autoImplicit false

namespace Skfolio.Copula

open Filter Topology Real

/-! ### the diagonal of a copula -/

theorem isOpen_inside : IsOpen {t : ℝ | Inside t} := isOpen_Ioo (a := (0 : ℝ)) (b := 1)

theorem diag_deriv {C : ℝ × ℝ → ℝ} {h : Bool → ℝ × ℝ → ℝ} (hp : IsPartial C h) (hc : ∀ b u v, Inside u → Inside v → ContinuousAt (h b) (u, v)) {q : ℝ} (hq : Inside q) :
    HasDerivAt (fun q => C (q, q)) (h true (q, q) + h false (q, q)) q := by
  have hev : ∀ᶠ v : ℝ × ℝ in 𝓝 (q, q), Inside v.1 ∧ Inside v.2 := by
    have ho : IsOpen {v : ℝ × ℝ | Inside v.1 ∧ Inside v.2} := (isOpen_inside.preimage continuous_fst).inter (isOpen_inside.preimage continuous_snd)
    exact ho.mem_nhds ⟨hq, hq⟩
  have key := hasStrictFDerivAt_uncurry_coprod (𝕜 := ℝ) (u := (q, q)) (f := fun a b => C (a, b))
    (f₁ := fun a b => ContinuousLinearMap.toSpanSingleton ℝ (h true (a, b))) (f₂ := fun a b => ContinuousLinearMap.toSpanSingleton ℝ (h false (a, b)))
    (by filter_upwards [hev] with v hv; exact (hp v.1 v.2 hv.1 hv.2).1.hasFDerivAt)
    (by filter_upwards [hev] with v hv; exact (hp v.1 v.2 hv.1 hv.2).2.hasFDerivAt)
    ((ContinuousLinearMap.toSpanSingletonCLE (𝕜 := ℝ) (E := ℝ)).continuous.continuousAt.comp (hc true q q hq hq))
    ((ContinuousLinearMap.toSpanSingletonCLE (𝕜 := ℝ) (E := ℝ)).continuous.continuousAt.comp (hc false q q hq hq))
  have hd : HasDerivAt (fun t : ℝ => (t, t)) ((1 : ℝ), (1 : ℝ)) q := (hasDerivAt_id q).prodMk (hasDerivAt_id q)
  have := HasFDerivAt.comp_hasDerivAt (f := fun t : ℝ => (t, t)) q key.hasFDerivAt hd
  refine this.congr_deriv ?_
  simp [Function.HasUncurry.uncurry]

theorem lower_of_limit {C : ℝ × ℝ → ℝ} {h : Bool → ℝ × ℝ → ℝ} (hC : IsCopula C) (hp : IsPartial C h) (hc : ∀ b u v, Inside u → Inside v → ContinuousAt (h b) (u, v)) {l : ℝ}
    (hl : Tendsto (fun q => h true (q, q) + h false (q, q)) (𝓝[>] 0) (𝓝 l)) : LowerTail C l := by
  refine HasDerivAt.lhopital_zero_nhdsGT (f' := fun q => h true (q, q) + h false (q, q)) (g' := fun _ => 1) ?_ ?_ ?_ ?_ ?_ ?_
  · filter_upwards [eventually_inside] with q hq
    exact diag_deriv hp hc hq
  · exact Eventually.of_forall fun q => hasDerivAt_id q
  · exact Eventually.of_forall fun _ => one_ne_zero
  · refine tendsto_of_tendsto_of_tendsto_of_le_of_le' tendsto_const_nhds (tendsto_id.mono_left nhdsWithin_le_nhds) ?_ ?_
    · filter_upwards [eventually_inside] with q hq
      exact (copula_diag hC ⟨hq.1.le, hq.2.le⟩).1
    · filter_upwards [eventually_inside] with q hq
      exact (copula_diag hC ⟨hq.1.le, hq.2.le⟩).2.1
  · exact tendsto_id.mono_left nhdsWithin_le_nhds
  · simpa using hl

theorem eventually_inside_left : ∀ᶠ q : ℝ in 𝓝[<] 1, Inside q := by
  filter_upwards [Ioo_mem_nhdsLT (show (0 : ℝ) < 1 by norm_num)] with q hq
  exact ⟨hq.1, hq.2⟩

theorem upper_of_limit {C : ℝ × ℝ → ℝ} {h : Bool → ℝ × ℝ → ℝ} (hC : IsCopula C) (hp : IsPartial C h) (hc : ∀ b u v, Inside u → Inside v → ContinuousAt (h b) (u, v)) {l : ℝ}
    (hl : Tendsto (fun q => h true (q, q) + h false (q, q)) (𝓝[<] 1) (𝓝 l)) : UpperTail C (2 - l) := by
  have h1 : Tendsto (fun q : ℝ => 1 - q) (𝓝[<] 1) (𝓝 0) := tendsto_one_sub_left.mono_right nhdsWithin_le_nhds
  refine HasDerivAt.lhopital_zero_nhdsLT (f' := fun q => -2 + (h true (q, q) + h false (q, q))) (g' := fun _ => -1) ?_ ?_ ?_ ?_ ?_ ?_
  · filter_upwards [eventually_inside_left] with q hq
    have d1 : HasDerivAt (fun q : ℝ => 1 - 2 * q) (-2) q := by
      have := ((hasDerivAt_id q).const_mul 2).const_sub 1
      simpa using this
    exact d1.add (diag_deriv hp hc hq)
  · exact Eventually.of_forall fun q => by simpa using (hasDerivAt_id q).const_sub 1
  · exact Eventually.of_forall fun _ => by norm_num
  · refine tendsto_of_tendsto_of_tendsto_of_le_of_le' tendsto_const_nhds h1 ?_ ?_
    · filter_upwards [eventually_inside_left] with q hq
      have := (copula_diag hC (q := q) ⟨hq.1.le, hq.2.le⟩).2.2
      linarith
    · filter_upwards [eventually_inside_left] with q hq
      have := (copula_diag hC (q := q) ⟨hq.1.le, hq.2.le⟩).2.1
      linarith
  · exact h1
  · have := (hl.const_add (-2)).div_const (-1)
    have e : (-2 + l) / -1 = 2 - l := by ring
    rwa [e] at this

/-! ### distribution functions and quantiles -/

variable {F Q f : ℝ → ℝ}

theorem IsQuantile.quantile_atBot (h : IsQuantile F Q f) : Tendsto Q (𝓝[>] 0) atBot := by
  refine tendsto_atBot.2 fun M => ?_
  filter_upwards [Ioo_mem_nhdsGT (h.inside M).1] with q hq
  have hin : Inside q := ⟨hq.1, hq.2.trans (h.inside M).2⟩
  have : F (Q q) < F M := by rw [h.right q hin]; exact hq.2
  exact (h.strictMono.lt_iff_lt.1 this).le

theorem IsQuantile.quantile_atTop (h : IsQuantile F Q f) : Tendsto Q (𝓝[<] 1) atTop := by
  refine tendsto_atTop.2 fun M => ?_
  filter_upwards [Ioo_mem_nhdsLT (h.inside M).2] with q hq
  have hin : Inside q := ⟨(h.inside M).1.trans hq.1, hq.2⟩
  have : F M < F (Q q) := by rw [h.right q hin]; exact hq.1
  exact (h.strictMono.lt_iff_lt.1 this).le

theorem IsQuantile.atBot (h : IsQuantile F Q f) : Tendsto F atBot (𝓝 0) := by
  rw [Metric.tendsto_nhds]
  intro ε hε
  have hin : Inside (min ε (1 / 2)) := ⟨lt_min hε (by norm_num), lt_of_le_of_lt (min_le_right _ _) (by norm_num)⟩
  filter_upwards [eventually_lt_atBot (Q (min ε (1 / 2)))] with x hx
  have := h.strictMono hx
  rw [h.right _ hin] at this
  rw [Real.dist_eq, sub_zero, abs_of_pos (h.inside x).1]
  exact lt_of_lt_of_le this (min_le_left _ _)

theorem IsQuantile.atTop (h : IsQuantile F Q f) : Tendsto F atTop (𝓝 1) := by
  rw [Metric.tendsto_nhds]
  intro ε hε
  have hm : 0 < min ε (1 / 2) := lt_min hε (by norm_num)
  have hm' : min ε (1 / 2) < 1 := lt_of_le_of_lt (min_le_right _ _) (by norm_num)
  have hin : Inside (1 - min ε (1 / 2)) := ⟨by linarith, by linarith⟩
  filter_upwards [eventually_gt_atTop (Q (1 - min ε (1 / 2)))] with x hx
  have := h.strictMono hx
  rw [h.right _ hin] at this
  have h1 := (h.inside x).2
  rw [Real.dist_eq, abs_sub_comm, abs_of_pos (by linarith)]
  have := min_le_left ε (1 / 2)
  linarith

theorem IsQuantile.continuous (h : IsQuantile F Q f) : Continuous F := continuous_iff_continuousAt.2 fun x => (h.density x).continuousAt

/-- The distribution function of a symmetric law. -/
theorem IsQuantile.symm (h : IsQuantile F Q f) (hf : ∀ x, f (-x) = f x) (x : ℝ) : F x + F (-x) = 1 := by
  have hd : ∀ x, HasDerivAt (fun x => F x + F (-x)) 0 x := by
    intro x
    have d1 := (h.density (-x)).comp x (hasDerivAt_neg x)
    refine ((h.density x).add d1).congr_deriv ?_
    rw [hf]
    ring
  have hconst : ∀ y, F y + F (-y) = F x + F (-x) := fun y =>
    is_const_of_deriv_eq_zero (fun z => (hd z).differentiableAt) (fun z => (hd z).deriv) y x
  have h1 : Tendsto (fun y => F y + F (-y)) Filter.atTop (𝓝 (1 + 0)) := h.atTop.add (h.atBot.comp tendsto_neg_atTop_atBot)
  have h2 : Tendsto (fun _ : ℝ => F x + F (-x)) Filter.atTop (𝓝 (1 + 0)) := h1.congr hconst
  have := tendsto_nhds_unique h2 tendsto_const_nhds
  linarith

/-! ### Gaussian -/

theorem gaussian_continuousAt {ρ : ℝ} (h : IsQuantile F Q f) (b : Bool) {u v : ℝ} (hu : Inside u) (hv : Inside v) : ContinuousAt (gaussianPartial F Q ρ b) (u, v) := by
  have cu : ContinuousAt (fun x : ℝ × ℝ => Q x.1) (u, v) := ContinuousAt.comp (f := Prod.fst) (x := (u, v)) (h.deriv_quantile hu).continuousAt continuousAt_fst
  have cv : ContinuousAt (fun x : ℝ × ℝ => Q x.2) (u, v) := ContinuousAt.comp (f := Prod.snd) (x := (u, v)) (h.deriv_quantile hv).continuousAt continuousAt_snd
  cases b
  · exact ContinuousAt.comp (g := F) (f := fun x : ℝ × ℝ => (Q x.1 - ρ * Q x.2) / sqrt (1 - ρ ^ 2)) h.continuous.continuousAt ((cu.sub (continuousAt_const.mul cv)).div_const _)
  · exact ContinuousAt.comp (g := F) (f := fun x : ℝ × ℝ => (Q x.2 - ρ * Q x.1) / sqrt (1 - ρ ^ 2)) h.continuous.continuousAt ((cv.sub (continuousAt_const.mul cu)).div_const _)

theorem gaussian_diag {ρ : ℝ} (b : Bool) (q : ℝ) : gaussianPartial F Q ρ b (q, q) = F (Q q * ((1 - ρ) / sqrt (1 - ρ ^ 2))) := by
  cases b <;> · simp only [gaussianPartial, marginSwap, Bool.false_eq_true, if_false, if_true]; congr 1; ring

/-- **C89, Gaussian.** A copula whose conditional distribution functions are those of the code has the tail dependence 0. -/
theorem C89_gaussian (ndtr ndtri : ℝ → ℝ) (h : IsQuantile ndtr ndtri normalPdf) (ρ : ℝ) (hρ : ρ ^ 2 < 1) (C : ℝ × ℝ → ℝ) (hC : IsCopula C)
    (hp : IsPartial C (gaussianPartial ndtr ndtri ρ)) : LowerTail C gaussianLower ∧ UpperTail C gaussianUpper := by
  have hk : 0 < (1 - ρ) / sqrt (1 - ρ ^ 2) := div_pos (by nlinarith) (sqrt_pos.2 (by linarith))
  constructor
  · refine lower_of_limit hC hp (fun b u v hu hv => gaussian_continuousAt h b hu hv) ?_
    simp only [gaussian_diag]
    have h1 := h.atBot.comp (h.quantile_atBot.atBot_mul_const hk)
    simpa [gaussianLower, Function.comp] using h1.add h1
  · have e : gaussianUpper = 2 - (1 + 1) := by norm_num [gaussianUpper]
    rw [e]
    refine upper_of_limit hC hp (fun b u v hu hv => gaussian_continuousAt h b hu hv) ?_
    simp only [gaussian_diag]
    have h1 := h.atTop.comp (h.quantile_atTop.atTop_mul_const hk)
    exact h1.add h1

/-! ### Student's t -/

variable {F' Q' : ℝ → ℝ → ℝ}

theorem studentPdf_neg (ν x : ℝ) : studentPdf ν (-x) = studentPdf ν x := by
  simp only [studentPdf, neg_sq]

theorem student_continuousAt {ν ρ : ℝ} {g : ℝ → ℝ} (hν : 0 < ν) (hρ : ρ ^ 2 < 1) (h : IsQuantile (F' ν) (Q' ν) f) (h1 : IsQuantile (F' (ν + 1)) (Q' (ν + 1)) g) (b : Bool) {u v : ℝ}
    (hu : Inside u) (hv : Inside v) : ContinuousAt (studentPartial F' Q' ν ρ b) (u, v) := by
  have cu : ContinuousAt (fun x : ℝ × ℝ => Q' ν x.1) (u, v) := ContinuousAt.comp (f := Prod.fst) (x := (u, v)) (h.deriv_quantile hu).continuousAt continuousAt_fst
  have cv : ContinuousAt (fun x : ℝ × ℝ => Q' ν x.2) (u, v) := ContinuousAt.comp (f := Prod.snd) (x := (u, v)) (h.deriv_quantile hv).continuousAt continuousAt_snd
  have go : ∀ {a b : ℝ × ℝ → ℝ}, ContinuousAt a (u, v) → ContinuousAt b (u, v) →
      ContinuousAt (fun x => F' (ν + 1) ((a x - ρ * b x) / sqrt ((1 - ρ ^ 2) * (ν + b x ^ 2) / (ν + 1)))) (u, v) := by
    intro a b ha hb
    refine ContinuousAt.comp (g := F' (ν + 1)) h1.continuous.continuousAt ?_
    refine (ha.sub (continuousAt_const.mul hb)).div ?_ (sqrt_pos.2 (student_scale hν hρ)).ne'
    exact ((continuousAt_const.mul (continuousAt_const.add (hb.pow 2))).div_const _).sqrt
  cases b
  · exact go cu cv
  · exact go cv cu

theorem student_diag {ν ρ : ℝ} (b : Bool) (q : ℝ) :
    studentPartial F' Q' ν ρ b (q, q) = F' (ν + 1) (Q' ν q * (1 - ρ) / sqrt ((1 - ρ ^ 2) * (ν + Q' ν q ^ 2) / (ν + 1))) := by
  cases b <;> · simp only [studentPartial, marginSwap, Bool.false_eq_true, if_false, if_true]; congr 2; ring

/-- The argument of the t distribution on the diagonal tends to the one of the tail dependence. -/
theorem student_arg {ν ρ : ℝ} (hν : 0 < ν) (hρ : ρ ^ 2 < 1) :
    Tendsto (fun x : ℝ => x * (1 - ρ) / sqrt ((1 - ρ ^ 2) * (ν + x ^ 2) / (ν + 1))) atTop (𝓝 (sqrt ((ν + 1) * (1 - ρ) / (1 + ρ)))) := by
  have h1 : 0 < 1 - ρ := by nlinarith
  have h2 : 0 < 1 + ρ := by nlinarith
  have hlim : Tendsto (fun x : ℝ => (1 - ρ) / sqrt ((1 - ρ ^ 2) * (ν * (x⁻¹) ^ 2 + 1) / (ν + 1))) atTop (𝓝 ((1 - ρ) / sqrt ((1 - ρ ^ 2) * (ν * 0 ^ 2 + 1) / (ν + 1)))) := by
    refine Tendsto.div tendsto_const_nhds ?_ ?_
    · refine (Real.continuous_sqrt.tendsto _).comp ?_
      exact ((((tendsto_inv_atTop_zero.pow 2).const_mul ν).add_const 1).const_mul (1 - ρ ^ 2)).div_const _
    · refine (sqrt_pos.2 ?_).ne'
      have : 0 < 1 - ρ ^ 2 := by linarith
      positivity
  have e : (1 - ρ) / sqrt ((1 - ρ ^ 2) * (ν * 0 ^ 2 + 1) / (ν + 1)) = sqrt ((ν + 1) * (1 - ρ) / (1 + ρ)) := by
    have h3 : (ν + 1) * (1 - ρ) / (1 + ρ) = (1 - ρ) ^ 2 / ((1 - ρ ^ 2) * (ν * 0 ^ 2 + 1) / (ν + 1)) := by
      have : 1 - ρ ^ 2 = (1 - ρ) * (1 + ρ) := by ring
      rw [this]
      field_simp
      ring
    rw [h3, sqrt_div (sq_nonneg _), sqrt_sq h1.le]
  rw [e] at hlim
  refine hlim.congr' ?_
  filter_upwards [eventually_gt_atTop 0] with x hx
  have e2 : (1 - ρ ^ 2) * (ν + x ^ 2) / (ν + 1) = x ^ 2 * ((1 - ρ ^ 2) * (ν * (x⁻¹) ^ 2 + 1) / (ν + 1)) := by
    field_simp
  rw [e2, sqrt_mul (sq_nonneg x), sqrt_sq hx.le, mul_div_mul_left _ _ hx.ne']

/-- **C89, Student's t.** A copula whose conditional distribution functions are those of the code has the tail dependence of the code in both tails. -/
theorem C89_student (stdtr stdtrit : ℝ → ℝ → ℝ) (ν : ℝ) (hν : 0 < ν) (h : IsQuantile (stdtr ν) (stdtrit ν) (studentPdf ν))
    (h1 : IsQuantile (stdtr (ν + 1)) (stdtrit (ν + 1)) (studentPdf (ν + 1))) (ρ : ℝ) (hρ : ρ ^ 2 < 1) (C : ℝ × ℝ → ℝ) (hC : IsCopula C)
    (hp : IsPartial C (studentPartial stdtr stdtrit ν ρ)) : LowerTail C (studentLower stdtr ν ρ) ∧ UpperTail C (studentUpper stdtr ν ρ) := by
  have hs := h1.symm (studentPdf_neg _) (sqrt ((ν + 1) * (1 - ρ) / (1 + ρ)))
  constructor
  · refine lower_of_limit hC hp (fun b u v hu hv => student_continuousAt hν hρ h h1 b hu hv) ?_
    simp only [student_diag]
    have a : Tendsto (fun x : ℝ => x * (1 - ρ) / sqrt ((1 - ρ ^ 2) * (ν + x ^ 2) / (ν + 1))) atBot (𝓝 (-sqrt ((ν + 1) * (1 - ρ) / (1 + ρ)))) := by
      refine ((student_arg hν hρ).comp tendsto_neg_atBot_atTop).neg.congr fun x => ?_
      simp only [Function.comp, neg_sq]
      ring
    have b := (h1.continuous.tendsto _).comp (a.comp h.quantile_atBot)
    rw [studentLower, two_mul]
    exact b.add b
  · have e : studentUpper stdtr ν ρ = 2 - (stdtr (ν + 1) (sqrt ((ν + 1) * (1 - ρ) / (1 + ρ))) + stdtr (ν + 1) (sqrt ((ν + 1) * (1 - ρ) / (1 + ρ)))) := by
      rw [studentUpper, studentLower]
      linarith
    rw [e]
    refine upper_of_limit hC hp (fun b u v hu hv => student_continuousAt hν hρ h h1 b hu hv) ?_
    simp only [student_diag]
    have b := (h1.continuous.tendsto _).comp ((student_arg hν hρ).comp h.quantile_atTop)
    exact b.add b

/-! ### instances -/

/-- With the true normal law and correlation 0 the copula is the independent one. -/
example : ∃ ndtr ndtri, IsQuantile ndtr ndtri normalPdf ∧ ∃ C, IsCopula C ∧ IsPartial C (gaussianPartial ndtr ndtri 0) := by
  obtain ⟨F, Q, h⟩ := exists_normal
  refine ⟨F, Q, h, independentCdf, independent_copula.1, fun u v hu hv => ⟨?_, ?_⟩⟩
  · have e : gaussianPartial F Q 0 true (u, v) = v := by
      simp [gaussianPartial, marginSwap, h.right v hv]
    rw [e]
    exact (hasDerivAt_mul_const v)
  · have e : gaussianPartial F Q 0 false (u, v) = u := by
      simp [gaussianPartial, marginSwap, h.right u hu]
    rw [e]
    exact (hasDerivAt_const_mul u)

end Skfolio.Copula
