import Verif.Naive.Model
import Mathlib.Data.Matrix.Mul
import Mathlib.Algebra.BigOperators.Field
import Mathlib.Tactic.FieldSimp
import Mathlib.Tactic.Linarith
import Mathlib.Tactic.NormNum
import Mathlib.Tactic.Ring
import Mathlib.Tactic.Positivity

/-! C45. -/
set_option autoImplicit false

namespace Skfolio.Naive

variable {n : Nat}

/-- Long-only weights that invest the whole budget. -/
def FullyInvested (w : Fin n → ℝ) : Prop := (∀ i, 0 ≤ w i) ∧ ∑ i, w i = 1

theorem normalise_spec {w r : Fin n → ℝ} (h : normalise w = some r) : (∑ i, w i ≠ 0) ∧ ∀ i, r i = w i / ∑ j, w j := by
  unfold normalise at h
  split_ifs at h with h0
  cases h
  exact ⟨h0, fun i => rfl⟩

theorem normalise_full {w : Fin n → ℝ} (hw : ∀ i, 0 ≤ w i) (h0 : ∃ i, 0 < w i) : ∃ r, normalise w = some r ∧ FullyInvested r ∧ (∀ i, r i = w i / ∑ j, w j) ∧ 0 < ∑ j, w j := by
  have hs : 0 < ∑ j, w j := by
    obtain ⟨i, hi⟩ := h0
    exact Finset.sum_pos' (fun j _ => hw j) ⟨i, Finset.mem_univ i, hi⟩
  refine ⟨_, if_neg hs.ne', ⟨fun i => div_nonneg (hw i) hs.le, ?_⟩, fun i => rfl, hs⟩
  simp only
  rw [← Finset.sum_div, div_self hs.ne']

/-- **C45**, equal weights: non-negative weights, summing to one, all the same. -/
theorem C45_equal_weighted (hn : 0 < n) : ∃ w, equalWeighted n = some w ∧ FullyInvested w ∧ ∀ i j, w i = w j := by
  have hn' : (n : ℝ) ≠ 0 := by exact_mod_cast hn.ne'
  refine ⟨_, if_neg hn.ne', ⟨fun i => by positivity, ?_⟩, fun i j => rfl⟩
  simp
  field_simp

/-- **C45**, inverse volatility: for every covariance with positive variances, positive weights, summing to one, and inversely proportional to the volatilities. -/
theorem C45_inverse_volatility (hn : 0 < n) (cov : Matrix (Fin n) (Fin n) ℝ) (hv : ∀ i, 0 < cov i i) :
    ∃ w, inverseVolatility cov = some w ∧ FullyInvested w ∧ (∀ i, 0 < w i) ∧ (∀ i j, w i * √(cov i i) = w j * √(cov j j)) ∧ (∀ i j, cov i i < cov j j ↔ w j < w i) := by
  have hp : ∀ i, 0 < 1 / √(cov i i) := fun i => one_div_pos.2 (Real.sqrt_pos.2 (hv i))
  obtain ⟨w, h1, h2, h3, h4⟩ := normalise_full (w := fun i => 1 / √(cov i i)) (fun i => (hp i).le) ⟨⟨0, hn⟩, hp _⟩
  have e : ∀ i, w i * √(cov i i) = 1 / ∑ j, 1 / √(cov j j) := by
    intro i
    rw [h3 i]
    have := (Real.sqrt_pos.2 (hv i)).ne'
    field_simp
  refine ⟨w, by rw [inverseVolatility, if_pos hv, h1], h2, fun i => by rw [h3]; exact div_pos (hp i) h4, fun i j => by rw [e, e], fun i j => ?_⟩
  rw [h3, h3, div_lt_div_iff_of_pos_right h4, one_div_lt_one_div (Real.sqrt_pos.2 (hv j)) (Real.sqrt_pos.2 (hv i)), Real.sqrt_lt_sqrt_iff (hv i).le]

/-- **C45.** If the assets are uncorrelated then inverse volatility is the equal risk contribution portfolio: every asset contributes the same to the portfolio variance. -/
theorem C45_inverse_volatility_uncorrelated (cov : Matrix (Fin n) (Fin n) ℝ) (w : Fin n → ℝ) (h : inverseVolatility cov = some w) (hd : ∀ i j, i ≠ j → cov i j = 0) (i j : Fin n) :
    w i * (cov.mulVec w) i = w j * (cov.mulVec w) j := by
  unfold inverseVolatility at h
  split_ifs at h with hv
  obtain ⟨h0, h1⟩ := normalise_spec h
  have key : ∀ i, w i * (cov.mulVec w) i = (1 / ∑ j, 1 / √(cov j j)) ^ 2 := by
    intro i
    have : (cov.mulVec w) i = cov i i * w i := by
      rw [Matrix.mulVec, dotProduct]
      exact Finset.sum_eq_single i (fun j _ hj => by rw [hd i j (Ne.symm hj), zero_mul]) (fun hi => absurd (Finset.mem_univ i) hi)
    rw [this, h1]
    have hs := Real.mul_self_sqrt (hv i).le
    have hp := (Real.sqrt_pos.2 (hv i)).ne'
    obtain ⟨s, hs'⟩ : ∃ s, s = √(cov i i) := ⟨_, rfl⟩
    rw [← hs'] at hs hp ⊢
    rw [← hs]
    field_simp
  rw [key, key]

/-- **C45.** A change of unit of the returns (a factor on the covariance) leaves inverse volatility weights unchanged. -/
theorem C45_inverse_volatility_scale (cov : Matrix (Fin n) (Fin n) ℝ) (c : ℝ) (hc : 0 < c) : inverseVolatility (c • cov) = inverseVolatility cov := by
  unfold inverseVolatility
  have e : (∀ i, 0 < (c • cov) i i) ↔ ∀ i, 0 < cov i i := forall_congr' fun i => by
    rw [Matrix.smul_apply, smul_eq_mul]
    exact mul_pos_iff_of_pos_left hc
  by_cases h : ∀ i, 0 < cov i i
  · rw [if_pos h, if_pos (e.2 h)]
    have hsc : √c ≠ 0 := (Real.sqrt_pos.2 hc).ne'
    have hf : ∀ i, 1 / √((c • cov) i i) = 1 / √c * (1 / √(cov i i)) := by
      intro i
      rw [Matrix.smul_apply, smul_eq_mul, Real.sqrt_mul hc.le]
      have := (Real.sqrt_pos.2 (h i)).ne'
      field_simp
    unfold normalise
    simp only [hf, ← Finset.mul_sum]
    have : (1 / √c * ∑ i, 1 / √(cov i i) = 0) ↔ (∑ i, 1 / √(cov i i) = 0) := by
      constructor
      · intro h
        exact (mul_eq_zero.1 h).resolve_left (one_div_ne_zero hsc)
      · intro h
        rw [h, mul_zero]
    by_cases h0 : ∑ i, 1 / √(cov i i) = 0
    · rw [if_pos h0, if_pos (this.2 h0)]
    · rw [if_neg h0, if_neg (fun hh => h0 (this.1 hh))]
      congr 1
      funext i
      rw [mul_div_mul_left _ _ (one_div_ne_zero hsc)]
  · rw [if_neg h, if_neg (fun hh => h (e.1 hh))]

/-- **C45**, random weights: for all non-negative draws that are not all zero (exponential draws are positive with probability one) the weights are long-only and sum to one. -/
theorem C45_random (draws : Fin n → ℝ) (hd : ∀ i, 0 ≤ draws i) (h0 : ∃ i, 0 < draws i) : ∃ w, randWeightsDirichlet draws = some w ∧ FullyInvested w := by
  obtain ⟨r, h1, h2, -, -⟩ := normalise_full hd h0
  exact ⟨r, h1, h2⟩

/-- **C45**, `rand_weights`: if `zeros` is less than the number of assets then, for all positive draws and all choices of `zeros` assets, the weights are long-only, sum to one, and exactly `zeros` of them vanish. -/
theorem C45_rand_weights (draws : Fin n → ℝ) (hd : ∀ i, 0 < draws i) (zeros : Nat) (hz : zeros < n) (chosen : Finset (Fin n)) (hc : chosen.card = zeros) :
    ∃ w, randWeights draws zeros chosen = some w ∧ FullyInvested w ∧ {i | w i = 0} = (chosen : Set (Fin n)) := by
  have hk : (if 0 < zeros then fun i => if i ∈ chosen then 0 else draws i else draws) = fun i => if i ∈ chosen then 0 else draws i := by
    by_cases h : 0 < zeros
    · rw [if_pos h]
    · have : chosen = ∅ := Finset.card_eq_zero.1 (by omega)
      rw [if_neg h, this]
      simp
  have : ∃ i, i ∉ chosen := by
    by_contra hall
    push Not at hall
    have : chosen = Finset.univ := Finset.eq_univ_iff_forall.2 hall
    rw [this, Finset.card_univ, Fintype.card_fin] at hc
    omega
  obtain ⟨i0, hi0⟩ := this
  obtain ⟨r, h1, h2, h3, h4⟩ := normalise_full (w := fun i => if i ∈ chosen then 0 else draws i) (fun i => by by_cases h : i ∈ chosen <;> simp [h, (hd i).le]) ⟨i0, by simp [hi0, hd]⟩
  refine ⟨r, by unfold randWeights; rw [hk, h1], h2, ?_⟩
  ext i
  simp only [Set.mem_ofPred_eq, Finset.mem_coe]
  rw [h3, div_eq_zero_iff]
  by_cases h : i ∈ chosen
  · simp [h]
  · simp only [h, if_false, iff_false, not_or]
    exact ⟨(hd i).ne', h4.ne'⟩

/-- Finding: `rand_weights(n, zeros=n)` has no weights to return. -/
theorem C45_rand_weights_all_zero (draws : Fin n → ℝ) (hn : 0 < n) : randWeights draws n Finset.univ = none := by
  simp [randWeights, normalise, hn]

/-- The hypotheses: two uncorrelated assets with variances 1 and 4 get the weights 2/3 and 1/3. -/
example : inverseVolatility (Matrix.of fun i j : Fin 2 => if i = j then (if i = 0 then 1 else 4) else 0) = some fun i => if i = 0 then 2 / 3 else 1 / 3 := by
  have h2 : √(4 : ℝ) = 2 := by
    rw [show (4 : ℝ) = 2 ^ 2 by norm_num]
    exact Real.sqrt_sq (by norm_num)
  unfold inverseVolatility normalise
  rw [if_pos]
  · simp only [Matrix.of_apply, if_true, Fin.sum_univ_two, Fin.isValue, one_ne_zero, if_false, Real.sqrt_one, h2]
    rw [if_neg (by norm_num)]
    congr 1
    funext i
    by_cases h : i = 0
    · simp [h]
      norm_num
    · simp [h, h2]
      norm_num
  · intro i
    by_cases h : i = 0 <;> simp [h]

end Skfolio.Naive
