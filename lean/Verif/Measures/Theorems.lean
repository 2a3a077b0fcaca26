import Verif.Measures.DispersionLemmas
import Mathlib.Analysis.SpecialFunctions.Log.Basic
import Mathlib.Analysis.SpecialFunctions.Exp
import Mathlib.Algebra.Order.Archimedean.Real.Basic

/-! Claims C14, C15, C16 and C46: drawdowns, dispersion, effective number of assets, entropic measures. The specification is in `Spec.lean`. -/
set_option autoImplicit false

namespace Skfolio.Measures

section
variable {K : Type} [Field K] [LinearOrder K] [IsStrictOrderedRing K]

/-! ### C14 -/

omit [IsStrictOrderedRing K] in
/-- **C14.** There is one drawdown per observation and it is the shortfall of the wealth from its running maximum (relative if
compounded). -/
theorem C14_shortfall (r : List K) (compounded : Bool) :
    (drawdowns r compounded).length = r.length ∧
    ∀ t, t < r.length → (drawdowns r compounded)[t]? = some (shortfall r compounded t) :=
  ⟨length_drawdowns r compounded, fun t ht => drawdowns_get r compounded t ht⟩

/-- **C14.** Drawdowns are never positive and the first is 0 (compounded: for returns above -1). -/
theorem C14_nonpositive (r : List K) (compounded : Bool) (h : compounded = true → ∀ x ∈ r, -1 < x) :
    (∀ d ∈ drawdowns r compounded, d ≤ 0) ∧ (r ≠ [] → (drawdowns r compounded).head? = some 0) := by
  constructor
  · intro d hd
    obtain ⟨t, ht, hdt⟩ := mem_getElem? _ d hd
    rw [length_drawdowns] at ht
    rw [drawdowns_get r compounded t ht, Option.some.injEq] at hdt
    rw [← hdt]
    have hle := wealth_le_peak r compounded t
    unfold shortfall
    cases compounded
    · simpa using hle
    · have hp := wealth_pos r (h rfl) t
      simp only [if_true]
      have : wealth r true t / peak r true t ≤ 1 := (div_le_one (lt_of_lt_of_le hp hle)).2 hle
      linarith
  · intro hr
    have h0 := drawdowns_get r compounded 0 (List.length_pos_iff.2 hr)
    rw [List.head?_eq_getElem?, h0]
    have hpk : peak r compounded 0 = wealth r compounded 0 := by
      unfold peak; simp
    unfold shortfall
    rw [hpk]
    cases compounded
    · simp
    · have hp := wealth_pos r (h rfl) 0
      simp [div_self hp.ne']

/-- **C14.** The maximum drawdown is the largest shortfall, the average drawdown is their mean. -/
theorem C14_max_and_average [FloorSemiring K] (P : Partition K) (d : List K) (hd : d ≠ []) :
    (∃ m, maxDrawdown P d = some m ∧ IsLargestLoss d m) ∧ averageDrawdown P d = some (-(d.sum / (d.length : K))) := by
  refine ⟨?_, C12_cvar_zero P d hd⟩
  obtain ⟨-, -, w, hw⟩ := C12_defined P d hd 0 le_rfl zero_lt_one
  refine ⟨w, ?_, C12_worst d w hw⟩
  unfold maxDrawdown drawdownAtRisk
  rw [C12_var_one, hw]

/-- **C14.** Average drawdown <= CDaR <= maximum drawdown at every level in [0, 1). -/
theorem C14_order [FloorSemiring K] (P : Partition K) (d : List K) (hd : d ≠ []) (beta : K) (h0 : 0 ≤ beta) (h1 : beta < 1) (a c m : K)
    (ha : averageDrawdown P d = some a) (hc : cdar P d beta = some c) (hm : maxDrawdown P d = some m) : a ≤ c ∧ c ≤ m := by
  refine ⟨C12_cvar_monotone_in_beta P d hd 0 beta le_rfl h0 h1 a c ha hc, ?_⟩
  obtain ⟨⟨v, hv⟩, -, -⟩ := C12_defined P d hd beta h0 h1
  unfold maxDrawdown drawdownAtRisk at hm
  rw [C12_var_one] at hm
  exact (C12_order P d hd beta h0 h1 v c m hv hc hm).2

/-- **C14.** In squared form: average² <= ulcer² <= max², for non-positive drawdowns. -/
theorem C14_ulcer_squared [FloorSemiring K] (P : Partition K) (d : List K) (hd : d ≠ []) (hneg : ∀ x ∈ d, x ≤ 0) (a m : K)
    (ha : averageDrawdown P d = some a) (hm : maxDrawdown P d = some m) : a ^ 2 ≤ ulcerSquared d ∧ ulcerSquared d ≤ m ^ 2 := by
  obtain ⟨⟨m', hm', hl⟩, ha'⟩ := C14_max_and_average P d hd
  rw [ha, Option.some.injEq] at ha'
  rw [hm, Option.some.injEq] at hm'
  subst ha' hm'
  have hn : (0 : K) < (d.length : K) := by exact_mod_cast List.length_pos_iff.2 hd
  unfold ulcerSquared
  constructor
  · rw [le_div_iff₀ hn, neg_sq, div_pow]
    have := cauchy d
    have e : d.sum ^ 2 / (d.length : K) ^ 2 * (d.length : K) = d.sum ^ 2 / (d.length : K) := by field_simp
    rw [e, div_le_iff₀ hn]
    linarith
  · rw [div_le_iff₀ hn]
    have h1 : (d.map fun x => x ^ 2).sum ≤ (d.map fun _ => m ^ 2).sum := by
      apply sum_le_map
      intro x hx
      have h2 := hl.2 x hx
      have h3 := hneg x hx
      nlinarith
    rw [List.map_const', List.sum_replicate, nsmul_eq_mul] at h1
    linarith

/-- Six returns, uncompounded: the drawdowns and their measures. -/
example : drawdowns [(1 : ℚ), -3, 2, -1, 4, -2] false = [0, -3, -1, -2, 0, -2] ∧
    maxDrawdown (sortPartition ℚ) (drawdowns [(1 : ℚ), -3, 2, -1, 4, -2] false) = some 3 ∧
    averageDrawdown (sortPartition ℚ) (drawdowns [(1 : ℚ), -3, 2, -1, 4, -2] false) = some (4 / 3) ∧
    cdar (sortPartition ℚ) (drawdowns [(1 : ℚ), -3, 2, -1, 4, -2] false) (1 / 2) = some (7 / 3) := by
  decide +kernel

/-- Returns above -1, compounded. -/
example : (∀ x ∈ [(1 / 2 : ℚ), -1 / 2, 1], -1 < x) ∧ drawdowns [(1 / 2 : ℚ), -1 / 2, 1] true = [0, -1 / 2, 0] := by
  decide +kernel

/-! ### C15 -/

omit [LinearOrder K] [IsStrictOrderedRing K] in
theorem mean_add [CharZero K] (r : List K) (hr : r ≠ []) (t : K) : mean (r.map fun x => x + t) = mean r + t := by
  have hn : (r.length : K) ≠ 0 := by exact_mod_cast (List.length_pos_iff.2 hr).ne'
  unfold mean
  have h := sum_sub_const r (-t)
  simp only [sub_neg_eq_add] at h
  rw [List.length_map, h]
  field_simp
  ring

omit [LinearOrder K] [IsStrictOrderedRing K] in
theorem mean_mul (r : List K) (l : K) : mean (r.map fun x => l * x) = l * mean r := by
  unfold mean
  rw [List.length_map, show (r.map fun x => l * x).sum = l * r.sum by rw [List.sum_map_mul_left]; simp]
  ring

/-- **C15.** The variance does not change when a constant is added to all returns. -/
theorem C15_variance_translation (r : List K) (hr : r ≠ []) (t : K) : variance (r.map fun x => x + t) = variance r := by
  unfold variance
  rw [mean_add r hr, List.length_map, List.map_map]
  congr 3
  funext x
  simp only [Function.comp]
  ring

omit [LinearOrder K] [IsStrictOrderedRing K] in
/-- **C15.** The variance is quadratic-homogeneous. -/
theorem C15_variance_homogeneous (r : List K) (l : K) : variance (r.map fun x => l * x) = l ^ 2 * variance r := by
  unfold variance
  rw [mean_mul, List.length_map, List.map_map]
  have : ((fun x => (x - l * mean r) ^ 2) ∘ fun x => l * x) = fun x => l ^ 2 * (x - mean r) ^ 2 := by
    funext x; simp only [Function.comp]; ring
  rw [this, List.sum_map_mul_left]
  ring

/-- **C15.** The variance is non-negative, and zero only for a constant series. -/
theorem C15_variance_zero_iff (r : List K) (hn : 2 ≤ r.length) :
    0 ≤ variance r ∧ (variance r = 0 ↔ ∀ x ∈ r, ∀ y ∈ r, x = y) := by
  have hn1 : (0 : K) < (r.length : K) - 1 := by
    have : (2 : K) ≤ (r.length : K) := by exact_mod_cast hn
    linarith
  have hnK : (r.length : K) ≠ 0 := by intro h; rw [h] at hn1; linarith
  refine ⟨div_nonneg (sum_sq_nonneg r _) hn1.le, ?_, ?_⟩
  · intro h
    unfold variance at h
    rw [div_eq_zero_iff] at h
    have h0 := h.resolve_right hn1.ne'
    have hz := sum_eq_zero_map r (fun x => (x - mean r) ^ 2) (fun x _ => by positivity) h0
    intro x hx y hy
    have e1 : x - mean r = 0 := by simpa using hz x hx
    have e2 : y - mean r = 0 := by simpa using hz y hy
    linarith
  · intro h
    have hm : ∀ x ∈ r, x - mean r = 0 := by
      intro x hx
      have hs : r.sum = (r.length : K) * x := by
        rw [List.sum_eq_card_nsmul r x (fun y hy => h y hy x hx), nsmul_eq_mul]
      unfold mean
      rw [hs, mul_div_cancel_left₀ _ hnK, sub_self]
    unfold variance
    have : (r.map fun x => (x - mean r) ^ 2).sum = 0 := by
      apply List.sum_eq_zero
      intro y hy
      obtain ⟨x, hx, rfl⟩ := List.mem_map.1 hy
      simp [hm x hx]
    rw [this, zero_div]

/-- **C15.** The semi-variance about the mean of the returns plus that of the opposite returns is the variance. -/
theorem C15_semi_variance_split (r : List K) : semiVariance r none + semiVariance (r.map fun x => -x) none = variance r := by
  have hmean : mean (r.map fun x => -x) = -mean r := by
    have := mean_mul r (-1 : K)
    simpa using this
  unfold semiVariance variance
  simp only [mar, hmean, List.length_map, List.map_map]
  rw [← add_div, ← sum_map_add']
  congr 2
  apply List.map_congr_left
  intro x _
  simp only [Function.comp]
  rcases le_total (x - mean r) 0 with h | h
  · rw [min_eq_right h, min_eq_left (by linarith)]; ring
  · rw [min_eq_left h, min_eq_right (by linarith)]; ring

/-- **C15.** The semi-variance about the mean is between 0 and the variance. -/
theorem C15_semi_variance_le (r : List K) (hn : 2 ≤ r.length) : 0 ≤ semiVariance r none ∧ semiVariance r none ≤ variance r := by
  have hn1 : (0 : K) < (r.length : K) - 1 := by
    have : (2 : K) ≤ (r.length : K) := by exact_mod_cast hn
    linarith
  have h1 : 0 ≤ semiVariance r none := div_nonneg (sum_sq_nonneg r _) hn1.le
  have h2 : 0 ≤ semiVariance (r.map fun x => -x) none := by
    apply div_nonneg (sum_sq_nonneg _ _)
    rw [List.length_map]; exact hn1.le
  exact ⟨h1, by linarith [C15_semi_variance_split r]⟩

/-- **C15.** The mean absolute deviation is twice the first lower partial moment at the mean. -/
theorem C15_mad_flpm (r : List K) (hr : r ≠ []) : meanAbsoluteDeviation r none = 2 * firstLowerPartialMoment r none := by
  have hn : (r.length : K) ≠ 0 := by exact_mod_cast (List.length_pos_iff.2 hr).ne'
  unfold meanAbsoluteDeviation firstLowerPartialMoment
  simp only [mar]
  have h0 : (r.map fun x => x - mean r).sum = 0 := by
    rw [sum_sub_const]; unfold mean; field_simp; ring
  have h1 : (r.map fun x => |x - mean r|).sum = (r.map fun x => x - mean r).sum + -2 * (r.map fun x => min 0 (x - mean r)).sum := by
    rw [← List.sum_map_mul_left, ← sum_map_add']
    congr 1
    apply List.map_congr_left
    intro x _
    rcases le_total (x - mean r) 0 with h | h
    · rw [abs_of_nonpos h, min_eq_right h]; ring
    · rw [abs_of_nonneg h, min_eq_left h]; ring
  show (r.map fun x => |x - mean r|).sum / ((r.map fun x => |x - mean r|).length : K) = _
  rw [h1, h0, List.length_map]
  ring

/-- **C15.** The Gini mean difference is the mean absolute difference over ordered pairs of distinct observations. -/
theorem C15_gini (r : List K) : giniMeanDifference r = meanAbsDifference r := by
  have hp := List.perm_insertionSort (· ≤ ·) r
  have hs := List.pairwise_insertionSort (· ≤ ·) r
  unfold giniMeanDifference meanAbsDifference
  rw [pairSum_getD, ← pairSum_perm _ _ hp, pairSum_sorted _ hs, hp.length_eq]
  unfold owaGmdWeight
  rw [dotFrom_scale (fun i => 4 * ((i : K) + 1) - 2 * ((r.length : K) + 1)) ((r.length : K) * ((r.length : K) - 1))]

/-- **C15.** The Gini mean difference does not depend on the order of the observations. -/
theorem C15_gini_permutation (r r' : List K) (h : r.Perm r') : giniMeanDifference r = giniMeanDifference r' := by
  rw [C15_gini, C15_gini]
  unfold meanAbsDifference
  rw [pairSum_getD, pairSum_getD, pairSum_perm r r' h, h.length_eq]

/-- **C15.** The mean absolute deviation is at most the Gini mean difference. -/
theorem C15_mad_le_gini (r : List K) (hn : 2 ≤ r.length) : meanAbsoluteDeviation r none ≤ giniMeanDifference r := by
  have hn2 : (2 : K) ≤ (r.length : K) := by exact_mod_cast hn
  have hn0 : (0 : K) < (r.length : K) := by linarith
  have hn1 : (0 : K) < (r.length : K) - 1 := by linarith
  rw [C15_gini]
  unfold meanAbsDifference
  rw [pairSum_getD]
  have hpos : 0 ≤ pairSum r := sum_nonneg_map r _ fun x _ => sum_nonneg_map r _ fun y _ => abs_nonneg _
  have key : ∀ x ∈ r, |x - mean r| ≤ (r.map fun y => |x - y|).sum / (r.length : K) := by
    intro x _
    rw [le_div_iff₀ hn0]
    have e : (x - mean r) * (r.length : K) = (r.map fun y => x - y).sum := by
      have h1 := sum_sub_const r x
      have h2 : (r.map fun y => x - y).sum = -(r.map fun y => y - x).sum := by
        rw [← neg_one_mul, ← List.sum_map_mul_left]
        congr 1
        apply List.map_congr_left
        intro y _; ring
      rw [h2, h1]
      unfold mean
      field_simp
      ring
    calc |x - mean r| * (r.length : K) = |(x - mean r) * (r.length : K)| := by rw [abs_mul, abs_of_pos hn0]
      _ = |(r.map fun y => x - y).sum| := by rw [e]
      _ ≤ _ := abs_sum_le r _
  unfold meanAbsoluteDeviation
  simp only [mar]
  show (r.map fun x => |x - mean r|).sum / ((r.map fun x => |x - mean r|).length : K) ≤ _
  rw [List.length_map]
  have h1 := sum_le_map r _ _ key
  have h2 : (r.map fun x => (r.map fun y => |x - y|).sum / (r.length : K)).sum = pairSum r / (r.length : K) := by
    unfold pairSum
    rw [div_eq_mul_inv, mul_comm, ← List.sum_map_mul_left]
    congr 1
    apply List.map_congr_left
    intro y _
    rw [div_eq_mul_inv, mul_comm]
  rw [h2] at h1
  rw [div_le_iff₀ hn0]
  refine h1.trans ?_
  rw [div_mul_eq_mul_div, div_le_div_iff₀ hn0 (mul_pos hn0 hn1)]
  nlinarith [mul_nonneg hpos hn0.le]

/-- A sample: variance 5/3, MAD 1, GMD 5/3, semi-variance 5/6. -/
example : 2 ≤ [(1 : ℚ), 3, 2, 4].length ∧ variance [(1 : ℚ), 3, 2, 4] = 5 / 3 ∧ meanAbsoluteDeviation [(1 : ℚ), 3, 2, 4] none = 1 ∧
    giniMeanDifference [(1 : ℚ), 3, 2, 4] = 5 / 3 ∧ semiVariance [(1 : ℚ), 3, 2, 4] none = 5 / 6 := by
  decide +kernel

/-! ### C16 -/

/-- **C16.** For weights that sum to one the effective number of assets is at most `n`, with equality only for equal weights. -/
theorem C16_upper (w : List K) (hsum : w.sum = 1) :
    effectiveNumberAssets w ≤ (w.length : K) ∧
    (effectiveNumberAssets w = (w.length : K) ↔ ∀ x ∈ w, x = 1 / (w.length : K)) := by
  have hne : w ≠ [] := by rintro rfl; simp at hsum
  have hn : (0 : K) < (w.length : K) := by exact_mod_cast List.length_pos_iff.2 hne
  have hdev := sum_sq_dev w (1 / (w.length : K))
  have hdev' : (w.map fun x => (x - 1 / (w.length : K)) ^ 2).sum = (w.map fun x => x ^ 2).sum - 1 / (w.length : K) := by
    rw [hdev, hsum]; field_simp; ring
  have hnn := sum_sq_nonneg w (fun x => x - 1 / (w.length : K))
  rw [hdev'] at hnn
  have hpos : 0 < (w.map fun x => x ^ 2).sum := by
    have : 0 < 1 / (w.length : K) := by positivity
    linarith
  unfold effectiveNumberAssets
  constructor
  · rw [div_le_iff₀ hpos]
    have : (w.length : K) * (1 / (w.length : K)) ≤ (w.length : K) * (w.map fun x => x ^ 2).sum :=
      mul_le_mul_of_nonneg_left (by linarith) hn.le
    rwa [mul_one_div_cancel hn.ne'] at this
  · constructor
    · intro h
      have hs : (w.map fun x => x ^ 2).sum = 1 / (w.length : K) := by rw [← h]; field_simp
      have hz : (w.map fun x => (x - 1 / (w.length : K)) ^ 2).sum = 0 := by rw [hdev', hs, sub_self]
      intro x hx
      have := sum_eq_zero_map w (fun x => (x - 1 / (w.length : K)) ^ 2) (fun x _ => by positivity) hz x hx
      have e : x - 1 / (w.length : K) = 0 := by simpa using this
      linarith
    · intro h
      have hz : (w.map fun x => (x - 1 / (w.length : K)) ^ 2).sum = 0 := by
        apply List.sum_eq_zero
        intro y hy
        obtain ⟨x, hx, rfl⟩ := List.mem_map.1 hy
        rw [h x hx]; simp
      rw [hdev'] at hz
      have hs : (w.map fun x => x ^ 2).sum = 1 / (w.length : K) := by linarith
      rw [hs]; field_simp

/-- **C16.** For non-negative weights that sum to one it is at least 1, with equality only if all the weight is on one asset. -/
theorem C16_lower (w : List K) (hsum : w.sum = 1) (hnn : ∀ x ∈ w, 0 ≤ x) :
    1 ≤ effectiveNumberAssets w ∧ (effectiveNumberAssets w = 1 ↔ ∀ x ∈ w, x = 0 ∨ x = 1) := by
  have hne : w ≠ [] := by rintro rfl; simp at hsum
  have hn : (0 : K) < (w.length : K) := by exact_mod_cast List.length_pos_iff.2 hne
  have hle1 : ∀ x ∈ w, x ≤ 1 := by
    intro x hx
    rw [← hsum]
    exact List.single_le_sum hnn x hx
  have hdiff : (w.map fun x => x * (1 - x)).sum = 1 - (w.map fun x => x ^ 2).sum := by
    have := sum_map_add' w (fun x => x * (1 - x)) (fun x => x ^ 2)
    have e : (w.map fun x => x * (1 - x) + x ^ 2) = w := by
      conv_rhs => rw [← List.map_id w]
      apply List.map_congr_left
      intro x _; simp; ring
    rw [e, hsum] at this
    linarith
  have hd : 0 ≤ (w.map fun x => x * (1 - x)).sum :=
    sum_nonneg_map w _ fun x hx => mul_nonneg (hnn x hx) (by linarith [hle1 x hx])
  have hc := cauchy w
  rw [hsum] at hc
  have hpos : 0 < (w.map fun x => x ^ 2).sum := by
    by_contra hcon
    have : (w.length : K) * (w.map fun x => x ^ 2).sum ≤ 0 := mul_nonpos_of_nonneg_of_nonpos hn.le (not_lt.1 hcon)
    linarith
  unfold effectiveNumberAssets
  constructor
  · rw [le_div_iff₀ hpos]; linarith
  · constructor
    · intro h
      have hs : (w.map fun x => x ^ 2).sum = 1 := by
        rw [div_eq_iff hpos.ne'] at h; linarith
      have hz : (w.map fun x => x * (1 - x)).sum = 0 := by rw [hdiff, hs, sub_self]
      intro x hx
      have := sum_eq_zero_map w _ (fun x hx => mul_nonneg (hnn x hx) (by linarith [hle1 x hx])) hz x hx
      rcases mul_eq_zero.1 this with h | h
      · exact Or.inl h
      · exact Or.inr (by linarith)
    · intro h
      have hz : (w.map fun x => x * (1 - x)).sum = 0 := by
        apply List.sum_eq_zero
        intro y hy
        obtain ⟨x, hx, rfl⟩ := List.mem_map.1 hy
        rcases h x hx with h | h <;> rw [h] <;> simp
      rw [hdiff] at hz
      have : (w.map fun x => x ^ 2).sum = 1 := by linarith
      rw [this, div_one]

/-- Weights to which C16 applies. -/
example : [(1 / 2 : ℚ), 1 / 4, 1 / 4].sum = 1 ∧ (∀ x ∈ [(1 / 2 : ℚ), 1 / 4, 1 / 4], 0 ≤ x) ∧ effectiveNumberAssets [(1 / 2 : ℚ), 1 / 4, 1 / 4] = 8 / 3 := by
  decide +kernel

end

/-! ### real-valued measures -/

/-- `ulcer_index`, _measures.py L552-565. -/
noncomputable def ulcerIndex (d : List ℝ) : ℝ := Real.sqrt (ulcerSquared d)

/-- **C14.** Average drawdown <= ulcer index <= maximum drawdown. -/
theorem C14_ulcer_between (P : Partition ℝ) (r : List ℝ) (hr : r ≠ []) (compounded : Bool) (h : compounded = true → ∀ x ∈ r, -1 < x)
    (a m : ℝ) (ha : averageDrawdown P (drawdowns r compounded) = some a) (hm : maxDrawdown P (drawdowns r compounded) = some m) :
    a ≤ ulcerIndex (drawdowns r compounded) ∧ ulcerIndex (drawdowns r compounded) ≤ m := by
  have hd : drawdowns r compounded ≠ [] := by
    intro hh
    have := length_drawdowns r compounded
    rw [hh] at this
    exact hr (List.length_eq_zero_iff.1 this.symm)
  have hneg := (C14_nonpositive r compounded h).1
  obtain ⟨h1, h2⟩ := C14_ulcer_squared P _ hd hneg a m ha hm
  obtain ⟨⟨m', hm', hl⟩, -⟩ := C14_max_and_average P _ hd
  rw [hm, Option.some.injEq] at hm'
  subst hm'
  have hm0 : 0 ≤ m := by
    obtain ⟨x, hx, rfl⟩ := hl.1
    linarith [hneg x hx]
  unfold ulcerIndex
  constructor
  · exact Real.le_sqrt_of_sq_le h1
  · exact Real.sqrt_le_iff.2 ⟨hm0, h2⟩

/-- `entropic_risk_measure`, _measures.py L341-366. -/
noncomputable def entropicRiskMeasure (r : List ℝ) (theta beta : ℝ) : ℝ :=
  theta * Real.log (mean (r.map fun x => Real.exp (-x / theta)) / (1 - beta))

/-- The lower bound of the search interval of `evar`, _measures.py L394: `np.max(-returns) / 100`. -/
noncomputable def evarLowerBound (r : List ℝ) : Option ℝ := (worstRealization r).map fun w => w / 100

/-- **C46.** The entropic risk measure at any positive risk aversion is at least the CVaR; so whatever point the solver of `evar` returns, if its risk aversion
is positive then VaR <= CVaR <= EVaR. -/
theorem C46_entropic_bounds_cvar (P : Partition ℝ) (r : List ℝ) (hr : r ≠ []) (beta : ℝ) (h0 : 0 ≤ beta) (h1 : beta < 1) (theta : ℝ)
    (ht : 0 < theta) (v c : ℝ) (hv : valueAtRisk P r beta = some v) (hc : cvar P r beta = some c) :
    v ≤ c ∧ c ≤ entropicRiskMeasure r theta beta := by
  obtain ⟨-, -, w, hw⟩ := C12_defined P r hr beta h0 h1
  refine ⟨(C12_order P r hr beta h0 h1 v c w hv hc hw).1, ?_⟩
  have hle := (C13_rockafellar_uryasev P r hr beta h0 h1 v c hv hc).1
  have hn : (0 : ℝ) < (r.length : ℝ) := by exact_mod_cast List.length_pos_iff.2 hr
  have hk : 0 < (1 - beta) * (r.length : ℝ) := mul_pos (by linarith) hn
  set E := entropicRiskMeasure r theta beta with hE
  set S := (r.map fun x => Real.exp (-x / theta)).sum with hS
  have hSpos : 0 < S := by
    obtain ⟨y, l, rfl⟩ := List.exists_cons_of_ne_nil hr
    rw [hS, List.map_cons, List.sum_cons]
    have h2 : 0 ≤ (l.map fun x => Real.exp (-x / theta)).sum := sum_nonneg_map l _ fun x _ => (Real.exp_pos _).le
    linarith [Real.exp_pos (-y / theta)]
  have hmean : mean (r.map fun x => Real.exp (-x / theta)) / (1 - beta) = S / ((1 - beta) * (r.length : ℝ)) := by
    unfold mean
    rw [List.length_map, div_div, mul_comm]
  have hEexp : Real.exp (E / theta) = S / ((1 - beta) * (r.length : ℝ)) := by
    rw [hE]
    unfold entropicRiskMeasure
    rw [mul_div_cancel_left₀ _ ht.ne', hmean, Real.exp_log (div_pos hSpos hk)]
  have hA := hle (E - theta)
  refine hA.trans ?_
  unfold ruObjective
  have hsum : (r.map fun x => max 0 (-x - (E - theta))).sum ≤ theta * (S * Real.exp (-(E / theta))) := by
    have h2 : (r.map fun x => max 0 (-x - (E - theta))).sum ≤ (r.map fun x => theta * Real.exp (-(E / theta)) * Real.exp (-x / theta)).sum := by
      apply sum_le_map
      intro x _
      have e : theta * Real.exp (-(E / theta)) * Real.exp (-x / theta) = theta * Real.exp ((-x - E) / theta) := by
        rw [mul_assoc, ← Real.exp_add]; congr 2; ring
      rw [e]
      apply max_le
      · exact (mul_pos ht (Real.exp_pos _)).le
      · have h3 := Real.add_one_le_exp ((-x - E) / theta)
        have h4 : theta * ((-x - E) / theta + 1) ≤ theta * Real.exp ((-x - E) / theta) := mul_le_mul_of_nonneg_left h3 ht.le
        have h5 : theta * ((-x - E) / theta + 1) = -x - (E - theta) := by field_simp; ring
        linarith
    rw [List.sum_map_mul_left] at h2
    rw [← hS] at h2
    linarith
  have hdiv : (r.map fun x => max 0 (-x - (E - theta))).sum / ((1 - beta) * (r.length : ℝ)) ≤ theta := by
    rw [div_le_iff₀ hk]
    refine hsum.trans ?_
    rw [Real.exp_neg, hEexp, inv_div]
    have : S * ((1 - beta) * (r.length : ℝ) / S) = (1 - beta) * (r.length : ℝ) := by field_simp
    rw [this]
  linarith

/-- **C46.** If the sample contains a loss, every risk aversion in the search interval of `evar` is positive, so the bound applies. -/
theorem C46_search_interval (r : List ℝ) (hloss : ∃ x ∈ r, x < 0) (lb theta : ℝ) (hlb : evarLowerBound r = some lb) (ht : lb ≤ theta) :
    0 < theta := by
  unfold evarLowerBound at hlb
  cases hw : worstRealization r with
  | none => simp [hw] at hlb
  | some w =>
    rw [hw] at hlb
    simp only [Option.map_some, Option.some.injEq] at hlb
    obtain ⟨x, hx, hx0⟩ := hloss
    have := (C12_worst r w hw).2 x hx
    linarith

/-- **C46, negated.** If all returns are positive, the search interval of `evar` contains negative risk aversions, and at every negative risk aversion the
entropic measure lies strictly below minus the mean, hence strictly below the CVaR of the same level. -/
theorem C46_no_loss_breaks_bound (P : Partition ℝ) (r : List ℝ) (hr : r ≠ []) (hpos : ∀ x ∈ r, 0 < x) (beta : ℝ) (h0 : 0 < beta)
    (h1 : beta < 1) (c : ℝ) (hc : cvar P r beta = some c) :
    (∃ lb, evarLowerBound r = some lb ∧ lb < 0) ∧ ∀ theta, theta < 0 → entropicRiskMeasure r theta beta < c := by
  obtain ⟨⟨v, hv⟩, -, w, hw⟩ := C12_defined P r hr beta h0.le h1
  refine ⟨⟨w / 100, by rw [evarLowerBound, hw]; rfl, ?_⟩, ?_⟩
  · obtain ⟨x, hx, rfl⟩ := (C12_worst r w hw).1
    have := hpos x hx
    linarith
  · intro theta ht
    have hn : (0 : ℝ) < (r.length : ℝ) := by exact_mod_cast List.length_pos_iff.2 hr
    have hc0 := C12_cvar_zero P r hr
    have hmono := C12_cvar_monotone_in_beta P r hr 0 beta le_rfl h0.le h1 _ c hc0 hc
    refine lt_of_lt_of_le ?_ hmono
    -- Jensen: the mean of the exponentials is at least the exponential of the mean
    set m := r.sum / (r.length : ℝ) with hm
    have hjen : Real.exp (-m / theta) ≤ mean (r.map fun x => Real.exp (-x / theta)) := by
      unfold mean
      rw [List.length_map, le_div_iff₀ hn]
      have h2 : (r.map fun x => Real.exp (-m / theta) * (1 + (m - x) / theta)).sum ≤ (r.map fun x => Real.exp (-x / theta)).sum := by
        apply sum_le_map
        intro x _
        have h3 := Real.add_one_le_exp ((m - x) / theta)
        have e : Real.exp (-x / theta) = Real.exp (-m / theta) * Real.exp ((m - x) / theta) := by
          rw [← Real.exp_add]; congr 1; ring
        rw [e]
        exact mul_le_mul_of_nonneg_left (by linarith) (Real.exp_pos _).le
      rw [List.sum_map_mul_left] at h2
      have h4 : (r.map fun x => 1 + (m - x) / theta).sum = (r.length : ℝ) := by
        have h5 := sum_sub_const r m
        have h6 : (r.map fun x => 1 + (m - x) / theta).sum = (r.map fun _ => (1 : ℝ)).sum + (r.map fun x => -(1 / theta) * (x - m)).sum := by
          rw [← sum_map_add']
          congr 1
          apply List.map_congr_left
          intro x _; ring
        rw [h6, List.sum_map_mul_left, h5, List.map_const', List.sum_replicate, nsmul_eq_mul, hm]
        field_simp
        ring
      rw [h4] at h2
      exact h2
    have hlog : -m / theta < Real.log (mean (r.map fun x => Real.exp (-x / theta)) / (1 - beta)) := by
      rw [Real.lt_log_iff_exp_lt (div_pos (lt_of_lt_of_le (Real.exp_pos _) hjen) (by linarith))]
      rw [lt_div_iff₀ (by linarith)]
      have := Real.exp_pos (-m / theta)
      nlinarith
    unfold entropicRiskMeasure
    have h7 := mul_lt_mul_of_neg_left hlog ht
    have h8 : theta * (-m / theta) = -m := by rw [mul_comm]; exact div_mul_cancel₀ _ ht.ne
    linarith

/-- A sample with a loss and a sample without, to which the two cases apply. -/
example : (∃ x ∈ [(1 : ℝ), -1], x < 0) ∧ ∀ x ∈ [(1 : ℝ), 2], 0 < x := by
  refine ⟨⟨-1, by simp, by norm_num⟩, ?_⟩
  intro x hx
  simp only [List.mem_cons, List.not_mem_nil, or_false] at hx
  rcases hx with rfl | rfl <;> norm_num

end Skfolio.Measures
