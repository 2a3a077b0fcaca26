import Verif.Distance.SampleLemmas
import Mathlib.Tactic.FinCases
import Mathlib.Data.Fin.VecNotation

/-!
C97: the distances from the Pearson, Kendall and Spearman correlations of the returns and from a covariance.
-/
set_option autoImplicit false

namespace Skfolio.Distance

open Skfolio.Moments

variable {T n : Nat}

/-! ### what the correlations are, independently of the code -/

/-- Pearson's correlation of two columns. -/
def IsPearson (x y : Fin T → ℝ) (r : ℝ) : Prop :=
  ∃ mx my : ℝ, ∑ t, x t = T * mx ∧ ∑ t, y t = T * my ∧ 0 < ∑ t, (x t - mx) ^ 2 ∧ 0 < ∑ t, (y t - my) ^ 2 ∧
    ∑ t, (x t - mx) * (y t - my) = r * (Real.sqrt (∑ t, (x t - mx) ^ 2) * Real.sqrt (∑ t, (y t - my) ^ 2))

/-- `r` has the ranks of `x`: it orders the observations as `x` does, and equal values have the mean of the places that they take, from 1. -/
def IsRank (x r : Fin T → ℝ) : Prop :=
  ∀ t, 2 * r t = (Nat.card {s // x s < x t} + 1) + Nat.card {s // x s ≤ x t}

/-- The correlation of each method. -/
def IsCorr : Method → (Fin T → ℝ) → (Fin T → ℝ) → ℝ → Prop
  | .pearson, x, y, r => IsPearson x y r
  | .spearman, x, y, r => ∃ a b, IsRank x a ∧ IsRank y b ∧ IsPearson a b r
  | .kendall, x, y, r => Copula.IsSampleTau (List.ofFn fun t => (x t, y t)) r

/-- When the correlation is 1 (`e = 1`) or -1 (`e = -1`). -/
def Aligned (e : ℝ) : Method → (Fin T → ℝ) → (Fin T → ℝ) → Prop
  | .pearson, x, y => ∃ k > 0, ∃ c, ∀ t, x t = c + e * k * y t
  | _, x, y => ∀ s t, x s < x t ↔ 0 < e * (y t - y s)

/-- A column that is not constant. -/
def Varies (x : Fin T → ℝ) : Prop := ∃ s t, x s ≠ x t

theorem varies_iff {x : Fin T → ℝ} : Varies x ↔ ¬∀ s t, x s = x t := by
  unfold Varies
  push Not
  rfl

/-! ### the correlation as a cosine -/

/-- The correlation of two columns. -/
noncomputable def corrVal : Method → (Fin T → ℝ) → (Fin T → ℝ) → ℝ
  | .pearson, x, y => cosine (centred x) (centred y)
  | .spearman, x, y => cosine (centredRank x) (centredRank y)
  | .kendall, x, y => cosine (signs x) (signs y)

theorem corrVal_comm (m : Method) (x y : Fin T → ℝ) : corrVal m x y = corrVal m y x := by cases m <;> exact cosine_comm _ _

theorem pearson_val (x y : Fin T → ℝ) (hx : Varies x) (hy : Varies y) : pearson x y = some (corrVal .pearson x y) := by
  rw [pearson_eq, if_neg]
  · rfl
  · rw [centred_zero, centred_zero]
    exact not_or.2 ⟨varies_iff.1 hx, varies_iff.1 hy⟩

theorem spearman_val (x y : Fin T → ℝ) (hx : Varies x) (hy : Varies y) : spearman x y = some (corrVal .spearman x y) := by
  rw [spearman_eq, if_neg]
  · rfl
  · rw [centredRank_zero, centredRank_zero]
    exact not_or.2 ⟨varies_iff.1 hx, varies_iff.1 hy⟩

theorem kendall_val (x y : Fin T → ℝ) (hx : Varies x) (hy : Varies y) : kendall x y = some (corrVal .kendall x y) := by
  rw [kendall_eq, if_neg]
  · rfl
  · rw [signs_zero, signs_zero]
    exact not_or.2 ⟨varies_iff.1 hx, varies_iff.1 hy⟩

theorem corrVal_self (m : Method) {x : Fin T → ℝ} (hx : Varies x) : corrVal m x x = 1 := by
  cases m
  · exact cosine_self fun h => varies_iff.1 hx (centred_zero.1 h)
  · exact cosine_self fun h => varies_iff.1 hx (signs_zero.1 h)
  · exact cosine_self fun h => varies_iff.1 hx (centredRank_zero.1 h)

theorem correlations_val (m : Method) (X : Fin T → Fin n → ℝ) (hX : ∀ i, Varies fun t => X t i) (hn : m = .pearson → n ≠ 1) :
    correlations X m = .matrix fun i j => some (corrVal m (fun t => X t i) fun t => X t j) := by
  cases m with
  | pearson =>
    simp only [correlations, dif_neg (hn rfl)]
    congr 1
    funext i j
    exact pearson_val _ _ (hX i) (hX j)
  | kendall =>
    simp only [correlations]
    congr 1
    funext i j
    by_cases h : i = j
    · subst h
      rw [if_pos rfl, corrVal_self .kendall (hX i)]
    · rw [if_neg h, kendall_val _ _ (hX i) (hX j), kendall_val _ _ (hX j) (hX i), corrVal_comm .kendall (fun t => X t j)]
      split_ifs <;> rfl
  | spearman =>
    simp only [correlations]
    congr 1
    funext i j
    rw [spearman_val _ _ (hX i) (hX j), spearman_val _ _ (hX j) (hX i), corrVal_comm .spearman (fun t => X t j)]
    split_ifs <;> rfl

theorem corrVal_correlation (m : Method) (X : Fin T → Fin n → ℝ) (hX : ∀ i, Varies fun t => X t i) : IsCorrelation (Matrix.of fun i j => corrVal m (fun t => X t i) fun t => X t j) := by
  cases m
  · exact cosine_correlation (fun i => centred fun t => X t i) fun i h => varies_iff.1 (hX i) (centred_zero.1 h)
  · exact cosine_correlation (fun i => signs fun t => X t i) fun i h => varies_iff.1 (hX i) (signs_zero.1 h)
  · exact cosine_correlation (fun i => centredRank fun t => X t i) fun i h => varies_iff.1 (hX i) (centredRank_zero.1 h)

/-! ### `_corr_to_distance` without NaN -/

theorem npPower_some {p x : ℝ} (h : 0 ≤ x ∨ ∃ z : ℤ, p = z) : npPower p x = some (x ^ p) := by
  unfold npPower
  rw [if_neg]
  rintro ⟨h1, h2⟩
  rcases h with h | h
  · linarith
  · exact h2 h

theorem pyMin3_some (a b c : ℝ) : pyMin3 (some a) (some b) (some c) = some (min (min a b) c) := by
  unfold pyMin3
  dsimp only
  split_ifs with h <;> dsimp only <;> split_ifs with h1
  · rw [min_eq_right h.le, min_eq_right h1.le]
  · rw [min_eq_right h.le, min_eq_left (not_lt.1 h1)]
  · rw [min_eq_left (not_lt.1 h), min_eq_right h1.le]
  · rw [min_eq_left (not_lt.1 h), min_eq_left (not_lt.1 h1)]

theorem corrToDistanceNan_some (absolute : Bool) (power : ℝ) (hadm : Admissible absolute power) (c : Fin n → Fin n → ℝ) :
    corrToDistanceNan absolute power (fun i j => some (c i j)) = (fun i j => some ((corrToDistance absolute power c).1 i j), fun i j => some ((corrToDistance absolute power c).2 i j)) := by
  have hp : ∀ x : ℝ, npPower power (if absolute then |x| else x) = some ((if absolute then |x| else x) ^ power) := by
    intro x
    apply npPower_some
    cases absolute with
    | true => exact Or.inl (abs_nonneg x)
    | false =>
      rcases hadm with ⟨p, rfl, _⟩ | ⟨h, _⟩
      · exact Or.inr ⟨p, by simp⟩
      · cases h
  unfold corrToDistanceNan corrToDistance
  simp only [hp, pyMin3_some, Option.bind_some, Option.map_some]
  cases absolute <;> rfl

theorem sampleDistance_val (m : Method) (absolute : Bool) (power : ℝ) (hadm : Admissible absolute power) (X : Fin T → Fin n → ℝ) (hX : ∀ i, Varies fun t => X t i) (hn : m = .pearson → n ≠ 1) :
    sampleDistance m absolute power X = .matrix (fun i j => some ((corrToDistance absolute power fun i j => corrVal m (fun t => X t i) fun t => X t j).1 i j))
      (fun i j => some ((corrToDistance absolute power fun i j => corrVal m (fun t => X t i) fun t => X t j).2 i j)) := by
  unfold sampleDistance
  rw [correlations_val m X hX hn]
  simp only [corrToDistanceNan_some absolute power hadm]

/-! ### the correlations are those of the textbook -/

theorem mean_sum (x : Fin T → ℝ) : ∑ t, x t = T * colMean x := by
  unfold colMean
  rcases Nat.eq_zero_or_pos T with h | h
  · subst h; simp
  · have : (T : ℝ) ≠ 0 := by exact_mod_cast h.ne'
    field_simp

theorem isPearson_cosine {x y a b : Fin T → ℝ} {mx my : ℝ} (h1 : ∑ t, x t = T * mx) (h2 : ∑ t, y t = T * my) (ha : a = fun t => x t - mx) (hb : b = fun t => y t - my)
    (na : dot a a ≠ 0) (nb : dot b b ≠ 0) : IsPearson x y (cosine a b) := by
  have ea : dot a a = ∑ t, (x t - mx) ^ 2 := by rw [ha]; exact Finset.sum_congr rfl fun t _ => (sq _).symm
  have eb : dot b b = ∑ t, (y t - my) ^ 2 := by rw [hb]; exact Finset.sum_congr rfl fun t _ => (sq _).symm
  have pa := lt_of_le_of_ne (dot_nonneg a) (Ne.symm na)
  have pb := lt_of_le_of_ne (dot_nonneg b) (Ne.symm nb)
  refine ⟨mx, my, h1, h2, ea ▸ pa, eb ▸ pb, ?_⟩
  rw [← ea, ← eb]
  have e0 : ∑ t, (x t - mx) * (y t - my) = dot a b := by rw [ha, hb]; rfl
  rw [e0]
  unfold cosine
  rw [div_mul_cancel₀ _ (mul_pos (Real.sqrt_pos.2 pa) (Real.sqrt_pos.2 pb)).ne']

theorem rank_isRank (x : Fin T → ℝ) : IsRank x (rank x) := by
  classical
  intro t
  rw [Nat.card_eq_fintype_card, Nat.card_eq_fintype_card, Fintype.card_subtype, Fintype.card_subtype]
  have a1 : (Finset.univ.filter fun s => x s ≤ x t).card = (Finset.univ.filter fun s => x s < x t).card + (Finset.univ.filter fun s => x s = x t).card := by
    rw [← Finset.card_union_of_disjoint]
    · congr 1
      ext s
      simp [le_iff_lt_or_eq]
    · rw [Finset.disjoint_filter]
      intro s _ h1 h2
      linarith
  rw [a1]
  unfold rank
  push_cast
  ring

theorem rank_sum (x : Fin T → ℝ) : ∑ t, rank x t = T * (((T : ℝ) + 1) / 2) := by
  classical
  have h : ∑ t, rank x t = ∑ t, rank (fun s => -x s) t := by
    unfold rank
    rw [Finset.sum_add_distrib, Finset.sum_add_distrib]
    congr 1
    · simp only [neg_lt_neg_iff, Finset.card_filter]
      push_cast
      rw [Finset.sum_comm]
    · refine Finset.sum_congr rfl fun t _ => ?_
      simp only [neg_inj]
  have h2 : ∑ t, rank (fun s => -x s) t = T * ((T : ℝ) + 1) - ∑ t, rank x t := by
    simp only [rank_neg, Finset.sum_sub_distrib, Finset.sum_const, Finset.card_univ, Fintype.card_fin, nsmul_eq_mul]
  linarith

theorem corrVal_isCorr (m : Method) {x y : Fin T → ℝ} (hx : Varies x) (hy : Varies y) : IsCorr m x y (corrVal m x y) := by
  cases m with
  | pearson => exact isPearson_cosine (mean_sum x) (mean_sum y) rfl rfl (fun h => varies_iff.1 hx (centred_zero.1 h)) fun h => varies_iff.1 hy (centred_zero.1 h)
  | spearman =>
    exact ⟨rank x, rank y, rank_isRank x, rank_isRank y, isPearson_cosine (rank_sum x) (rank_sum y) rfl rfl (fun h => varies_iff.1 hx (centredRank_zero.1 h)) fun h => varies_iff.1 hy (centredRank_zero.1 h)⟩
  | kendall =>
    have h := kendall_val x y hx hy
    unfold kendall at h
    refine ((Copula.C90_sample_tau _).2.1 _).1 ?_
    cases e : Copula.kendalltau (List.ofFn fun t => (x t, y t)) with
    | fin r => rw [e] at h; injection h with h; rw [h]
    | nan => rw [e] at h; cases h
    | pinf => rw [e] at h; cases h
    | ninf => rw [e] at h; cases h

/-! ### when the correlation is 1 or -1 -/

theorem centred_affine {x y : Fin T → ℝ} {k c : ℝ} (h : ∀ t, x t = c + k * y t) (t : Fin T) : centred x t = k * centred y t := by
  have hT : (T : ℝ) ≠ 0 := by
    have := t.pos
    exact_mod_cast this.ne'
  unfold centred colMean
  simp only [h, Finset.sum_add_distrib, Finset.sum_const, Finset.card_univ, Fintype.card_fin, nsmul_eq_mul, ← Finset.mul_sum]
  field_simp
  ring

theorem signs_eq {x y : Fin T → ℝ} {e : ℝ} (he : e = 1 ∨ e = -1) (h : ∀ s t, x s < x t ↔ 0 < e * (y t - y s)) (p : Fin T × Fin T) : signs x p = e * signs y p := by
  have h1 := h p.1 p.2
  have h2 := h p.2 p.1
  unfold signs Copula.sgn
  rcases he with rfl | rfl
  · simp only [one_mul, sub_pos] at h1 h2 ⊢
    simp only [h1, h2]
  · have k1 : x p.1 < x p.2 ↔ y p.2 < y p.1 := h1.trans (by constructor <;> intro h <;> linarith)
    have k2 : x p.2 < x p.1 ↔ y p.1 < y p.2 := h2.trans (by constructor <;> intro h <;> linarith)
    simp only [k1, k2]
    rcases lt_trichotomy (y p.1) (y p.2) with h | h | h
    · simp [h, not_lt.2 h.le]
    · simp [h]
    · simp [h, not_lt.2 h.le]

theorem aligned_order {x y : Fin T → ℝ} {e : ℝ} (he : e = 1 ∨ e = -1) (h : ∀ s t, x s < x t ↔ 0 < e * (y t - y s)) (t : Fin T) : centredRank x t = e * centredRank y t := by
  unfold centredRank
  rcases he with rfl | rfl
  · have : SameOrder x y := fun s t => (h s t).trans (by rw [one_mul, sub_pos])
    rw [this.rank, one_mul]
  · have : OppositeOrder x y := fun s t => (h s t).trans (by constructor <;> intro h <;> linarith)
    rw [this.rank]
    ring

theorem corrVal_extreme (m : Method) {x y : Fin T → ℝ} (hx : Varies x) (hy : Varies y) {e : ℝ} (he : e = 1 ∨ e = -1) : corrVal m x y = e ↔ Aligned e m x y := by
  cases m with
  | pearson =>
    refine (cosine_extreme (fun h => varies_iff.1 hx (centred_zero.1 h)) (fun h => varies_iff.1 hy (centred_zero.1 h)) he).trans ?_
    constructor
    · rintro ⟨k, hk, h⟩
      refine ⟨k, hk, colMean x - e * k * colMean y, fun t => ?_⟩
      have := h t
      unfold centred at this
      linarith
    · rintro ⟨k, hk, c, h⟩
      exact ⟨k, hk, centred_affine h⟩
  | spearman =>
    refine (cosine_extreme (fun h => varies_iff.1 hx (centredRank_zero.1 h)) (fun h => varies_iff.1 hy (centredRank_zero.1 h)) he).trans ?_
    constructor
    · rintro ⟨k, hk, h⟩ s t
      have hs := h s
      have ht := h t
      unfold centredRank at hs ht
      rw [← rank_lt x]
      rcases he with rfl | rfl
      · rw [one_mul, sub_pos, ← rank_lt y]
        constructor <;> intro h <;> nlinarith
      · rw [show (0 < -1 * (y t - y s)) ↔ y t < y s by constructor <;> intro h <;> linarith, ← rank_lt y]
        constructor <;> intro h <;> nlinarith
    · intro h
      exact ⟨1, one_pos, fun t => by rw [aligned_order he h, mul_one]⟩
  | kendall =>
    refine (cosine_extreme (fun h => varies_iff.1 hx (signs_zero.1 h)) (fun h => varies_iff.1 hy (signs_zero.1 h)) he).trans ?_
    constructor
    · rintro ⟨k, hk, h⟩ s t
      have hst := h (s, t)
      have hts := h (t, s)
      rw [← sgn_pos (a := x s)]
      rcases he with rfl | rfl
      · rw [one_mul, sub_pos, ← sgn_pos (a := y s)]
        change Copula.sgn _ _ = 1 * k * Copula.sgn _ _ at hst
        rw [hst, one_mul, mul_pos_iff_of_pos_left hk]
      · rw [show (0 < -1 * (y t - y s)) ↔ y t < y s by constructor <;> intro h <;> linarith, ← sgn_pos (a := y t)]
        change Copula.sgn _ _ = -1 * k * Copula.sgn _ _ at hst
        rw [hst, sgn_swap (y t) (y s), show -1 * k * -Copula.sgn (y t) (y s) = k * Copula.sgn (y t) (y s) by ring, mul_pos_iff_of_pos_left hk]
    · intro h
      exact ⟨1, one_pos, fun p => by rw [signs_eq he h, mul_one]⟩

theorem corrVal_bounds (m : Method) {x y : Fin T → ℝ} (hx : Varies x) (hy : Varies y) : -1 ≤ corrVal m x y ∧ corrVal m x y ≤ 1 := by
  cases m
  · exact cosine_bounds (fun h => varies_iff.1 hx (centred_zero.1 h)) fun h => varies_iff.1 hy (centred_zero.1 h)
  · exact cosine_bounds (fun h => varies_iff.1 hx (signs_zero.1 h)) fun h => varies_iff.1 hy (signs_zero.1 h)
  · exact cosine_bounds (fun h => varies_iff.1 hx (centredRank_zero.1 h)) fun h => varies_iff.1 hy (centredRank_zero.1 h)

/-! ### the claims -/

/-- A fitted pair of matrices without NaN. -/
def Fitted.Gives (f : Fitted n) (cod dist : Fin n → Fin n → ℝ) : Prop := f = .matrix (fun i j => some (cod i j)) fun i j => some (dist i j)

/-- Values between 0 and 1, 0 on the diagonal, symmetric, with the triangle inequality. -/
def IsMetric (d : Fin n → Fin n → ℝ) : Prop :=
  (∀ i j, 0 ≤ d i j ∧ d i j ≤ 1) ∧ (∀ i, d i i = 0) ∧ (∀ i j, d i j = d j i) ∧ ∀ i j k, d i k ≤ d i j + d j k

theorem correlation_bounds {c : Matrix (Fin n) (Fin n) ℝ} (h : IsCorrelation c) (i j : Fin n) : -1 ≤ c i j ∧ c i j ≤ 1 := by
  have := h.1.sq_le i j
  rw [h.2, h.2] at this
  exact abs_le.1 ((sq_le_one_iff_abs_le_one _).1 (by linarith))

theorem corrToDistance_metric (c : Matrix (Fin n) (Fin n) ℝ) (h : IsCorrelation c) (absolute : Bool) (p : Nat) (hp : 0 < p) : IsMetric (corrToDistance absolute p c).2 := by
  have hc := correlation_bounds h
  obtain ⟨h1, h2, h3⟩ := C38_distance c absolute p (Or.inl ⟨p, rfl, hp⟩) hc h.2 h.1.1
  exact ⟨h1, h2, h3, fun i j k => C38_triangle c h absolute p hp i j k⟩

theorem corrToDistance_zero (c : Matrix (Fin n) (Fin n) ℝ) (absolute : Bool) (p : Nat) (hp : 0 < p) (i j : Fin n) (hb' : -1 ≤ c i j ∧ c i j ≤ 1) :
    (corrToDistance absolute p c).2 i j = 0 ↔ c i j = 1 ∨ (absolute = true ∨ Even p) ∧ c i j = -1 := by
  have hadm : Admissible absolute p := Or.inl ⟨p, rfl, hp⟩
  rcases distance_cases c absolute p hadm i j hb' with ⟨ha, q, hq, ho, e⟩ | ⟨ha, q, hq, he, hq0, e⟩ | ⟨ha, hq, e⟩
  · rw [Nat.cast_inj] at hq
    subst hq
    rw [e, Real.sqrt_eq_zero']
    have hne : ¬(absolute = true ∨ Even p) := by
      rw [ha]
      simp [Nat.not_even_iff_odd.2 ho]
    simp only [hne, false_and, or_false]
    constructor
    · intro h
      have h1 : (1 : ℝ) ^ p ≤ c i j ^ p := by rw [one_pow]; linarith
      exact le_antisymm hb'.2 (ho.strictMono_pow.le_iff_le.1 h1)
    · intro h
      rw [h, one_pow]
      norm_num
  · rw [Nat.cast_inj] at hq
    subst hq
    rw [e, Real.sqrt_eq_zero']
    simp only [he, or_true, true_and]
    constructor
    · intro h
      have h1 : (1 : ℝ) ^ p ≤ |c i j| ^ p := by rw [one_pow, he.pow_abs]; linarith
      have h2 := (pow_le_pow_iff_left₀ zero_le_one (abs_nonneg _) hq0).1 h1
      rcases le_abs.1 h2 with h3 | h3
      · exact Or.inl (le_antisymm hb'.2 h3)
      · exact Or.inr (by linarith [hb'.1])
    · rintro (h | h)
      · rw [h, one_pow, sub_self]
      · rw [h, he.neg_one_pow, sub_self]
  · rw [e, Real.sqrt_eq_zero']
    simp only [ha, true_or, true_and]
    constructor
    · intro h
      rw [Real.rpow_natCast] at h
      have h1 : (1 : ℝ) ^ p ≤ |c i j| ^ p := by rw [one_pow]; linarith
      have h2 := (pow_le_pow_iff_left₀ zero_le_one (abs_nonneg _) hp.ne').1 h1
      rcases le_abs.1 h2 with h3 | h3
      · exact Or.inl (le_antisymm hb'.2 h3)
      · exact Or.inr (by linarith [hb'.1])
    · rintro (h | h) <;> rw [h] <;> simp

/-- **C97.** For every sample without a constant column, every positive integer power and with or without absolute values, the estimators return the correlation of the method, transformed, and a metric
(Pearson's for one asset excepted). -/
theorem C97_metric (m : Method) (absolute : Bool) (p : Nat) (hp : 0 < p) (X : Fin T → Fin n → ℝ) (hX : ∀ i, Varies fun t => X t i) (hn : m = .pearson → n ≠ 1) :
    ∃ cod dist, (sampleDistance m absolute p X).Gives cod dist ∧ IsMetric dist ∧
      ∀ i j, ∃ r, IsCorr m (fun t => X t i) (fun t => X t j) r ∧ cod i j = (if absolute then |r| else r) ^ p := by
  refine ⟨_, _, sampleDistance_val m absolute p (Or.inl ⟨p, rfl, hp⟩) X hX hn, corrToDistance_metric _ (corrVal_correlation m X hX) absolute p hp, fun i j => ⟨_, corrVal_isCorr m (hX i) (hX j), ?_⟩⟩
  cases absolute <;> simp [corrToDistance]

/-- **C97.** Two assets have the distance 0 exactly if, for Pearson, the returns of one are an increasing affine function of those of the other, or, for Kendall and Spearman, they order the observations in
the same way; with absolute values or an even power also if they are a decreasing function, or order them in opposite ways. -/
theorem C97_zero (m : Method) (absolute : Bool) (p : Nat) (hp : 0 < p) (X : Fin T → Fin n → ℝ) (hX : ∀ i, Varies fun t => X t i) (cod dist : Fin n → Fin n → ℝ)
    (h : (sampleDistance m absolute p X).Gives cod dist) (i j : Fin n) :
    dist i j = 0 ↔ Aligned 1 m (fun t => X t i) (fun t => X t j) ∨ (absolute = true ∨ Even p) ∧ Aligned (-1) m (fun t => X t i) (fun t => X t j) := by
  have hn : m = .pearson → n ≠ 1 := by
    rintro rfl rfl
    unfold sampleDistance correlations at h
    simp only [dif_pos rfl] at h
    cases h
  have hadm : Admissible absolute p := Or.inl ⟨p, rfl, hp⟩
  unfold Fitted.Gives at h
  rw [sampleDistance_val m absolute p hadm X hX hn] at h
  injection h with _ h
  have e := congrFun (congrFun h i) j
  simp only [Option.some.injEq] at e
  have hb := corrVal_bounds m (hX i) (hX j)
  rw [← corrVal_extreme m (hX i) (hX j) (Or.inl rfl), ← corrVal_extreme m (hX i) (hX j) (Or.inr rfl), ← e]
  exact corrToDistance_zero _ absolute p hp i j hb

/-! ### invariance -/

theorem cosine_smul {ι : Type} [Fintype ι] {a b : ι → ℝ} {k l : ℝ} (hk : 0 < k) (hl : 0 < l) : cosine (fun t => k * a t) (fun t => l * b t) = cosine a b := by
  unfold cosine
  rw [dot_smul, dot_smul, Real.sqrt_mul (sq_nonneg k), Real.sqrt_mul (sq_nonneg l), Real.sqrt_sq hk.le, Real.sqrt_sq hl.le]
  have : dot (fun t => k * a t) (fun t => l * b t) = (k * l) * dot a b := by
    unfold dot
    rw [Finset.mul_sum]
    exact Finset.sum_congr rfl fun t _ => by ring
  rw [this, show k * Real.sqrt (dot a a) * (l * Real.sqrt (dot b b)) = (k * l) * (Real.sqrt (dot a a) * Real.sqrt (dot b b)) by ring, mul_div_mul_left _ _ (mul_pos hk hl).ne']

theorem pearson_affine {x y x' y' : Fin T → ℝ} {k l c d : ℝ} (hk : 0 < k) (hl : 0 < l) (hx : ∀ t, x' t = c + k * x t) (hy : ∀ t, y' t = d + l * y t) : pearson x' y' = pearson x y := by
  have ex : centred x' = fun t => k * centred x t := funext fun t => centred_affine hx t
  have ey : centred y' = fun t => l * centred y t := funext fun t => centred_affine hy t
  rw [pearson_eq, pearson_eq, ex, ey, cosine_smul hk hl, dot_smul, dot_smul]
  simp only [mul_eq_zero, (pow_pos hk 2).ne', (pow_pos hl 2).ne', false_or]

theorem spearman_order {x y x' y' : Fin T → ℝ} (hx : SameOrder x' x) (hy : SameOrder y' y) : spearman x' y' = spearman x y := by
  unfold spearman
  rw [hx.rank, hy.rank]

theorem kendall_order {x y x' y' : Fin T → ℝ} (hx : SameOrder x' x) (hy : SameOrder y' y) : kendall x' y' = kendall x y := by
  have e : ∀ {a b : Fin T → ℝ}, SameOrder a b → signs a = signs b := fun {a b} h => funext fun p => by
    rw [signs_eq (Or.inl rfl) (fun s t => (h s t).trans (by rw [one_mul, sub_pos])), one_mul]
  rw [kendall_eq, kendall_eq, e hx, e hy]

/-- **C97.** Pearson's distance does not depend on the units of the returns, nor on constants added to them; Kendall's and Spearman's do not change if the returns of each asset are replaced by any increasing
function of them. -/
theorem C97_invariant (absolute : Bool) (power : ℝ) (X X' : Fin T → Fin n → ℝ) :
    ((∀ i, ∃ k > 0, ∃ c, ∀ t, X' t i = c + k * X t i) → sampleDistance .pearson absolute power X' = sampleDistance .pearson absolute power X) ∧
    ((∀ i, ∃ g : ℝ → ℝ, StrictMono g ∧ ∀ t, X' t i = g (X t i)) →
      sampleDistance .kendall absolute power X' = sampleDistance .kendall absolute power X ∧ sampleDistance .spearman absolute power X' = sampleDistance .spearman absolute power X) := by
  constructor
  · intro h
    have e : correlations X' .pearson = correlations X .pearson := by
      have key : ∀ i j, pearson (fun t => X' t i) (fun t => X' t j) = pearson (fun t => X t i) fun t => X t j := by
        intro i j
        obtain ⟨k, hk, c, h1⟩ := h i
        obtain ⟨l, hl, d, h2⟩ := h j
        exact pearson_affine hk hl h1 h2
      unfold correlations
      simp only [key]
    unfold sampleDistance
    rw [e]
  · intro h
    have ord : ∀ i, SameOrder (fun t => X' t i) fun t => X t i := by
      intro i s t
      obtain ⟨g, hg, e⟩ := h i
      simp only [e]
      exact hg.lt_iff_lt
    have e1 : correlations X' .kendall = correlations X .kendall := by
      unfold correlations
      simp only [fun i j => kendall_order (ord i) (ord j)]
    have e2 : correlations X' .spearman = correlations X .spearman := by
      unfold correlations
      simp only [fun i j => spearman_order (ord i) (ord j)]
    unfold sampleDistance
    rw [e1, e2]
    exact ⟨rfl, rfl⟩

/-! ### covariance -/

/-- **C97.** `CovarianceDistance`: for every positive semidefinite matrix with positive variances a metric; it is 0 exactly if the covariance is the product of the standard deviations (or minus that, with absolute
values or an even power). -/
theorem C97_covariance (cov : Matrix (Fin n) (Fin n) ℝ) (hpsd : PSD cov) (hv : ∀ i, 0 < cov i i) (absolute : Bool) (p : Nat) (hp : 0 < p) :
    ∃ cod dist, (covarianceDistance absolute p cov).Gives cod dist ∧ IsMetric dist ∧
      (∀ i j, cod i j = (if absolute then |cov i j / (Real.sqrt (cov i i) * Real.sqrt (cov j j))| else cov i j / (Real.sqrt (cov i i) * Real.sqrt (cov j j))) ^ p) ∧
      ∀ i j, dist i j = 0 ↔ cov i j = Real.sqrt (cov i i) * Real.sqrt (cov j j) ∨ (absolute = true ∨ Even p) ∧ cov i j = -(Real.sqrt (cov i i) * Real.sqrt (cov j j)) := by
  have hc := ((C37_correlation cov hv).2.2 hpsd).1
  have e : ∀ i j, (covToCorr cov).1 i j = cov i j / (Real.sqrt (cov i i) * Real.sqrt (cov j j)) := by
    intro i j
    simp only [covToCorr]
    rw [div_div, mul_comm (Real.sqrt (cov j j))]
  refine ⟨(corrToDistance absolute p (covToCorr cov).1).1, (corrToDistance absolute p (covToCorr cov).1).2, ?_, corrToDistance_metric _ hc absolute p hp, fun i j => ?_, fun i j => ?_⟩
  · unfold Fitted.Gives covarianceDistance
    simp only [hv, and_self, if_true]
    rw [corrToDistanceNan_some absolute p (Or.inl ⟨p, rfl, hp⟩) fun i j => (covToCorr cov).1 i j]
  · rw [← e]
    cases absolute <;> simp [corrToDistance]
  · have hpos : 0 < Real.sqrt (cov i i) * Real.sqrt (cov j j) := mul_pos (Real.sqrt_pos.2 (hv i)) (Real.sqrt_pos.2 (hv j))
    rw [corrToDistance_zero _ absolute p hp i j (correlation_bounds hc i j), e, div_eq_iff hpos.ne', div_eq_iff hpos.ne', one_mul, neg_one_mul]

/-! ### where the claim fails -/

theorem corrVal_none (X : Fin T → Fin n → ℝ) (m : Method) (hn : m = .pearson → n ≠ 1) :
    ∃ r, correlations X m = .matrix r ∧ ∀ i j, r i j = none ↔ (¬Varies (fun t => X t i) ∨ ¬Varies fun t => X t j) ∧ ¬(m = .kendall ∧ i = j) := by
  have nv : ∀ x : Fin T → ℝ, ¬Varies x ↔ ∀ s t, x s = x t := fun x => by rw [varies_iff, not_not]
  cases m with
  | pearson =>
    refine ⟨fun i j => pearson (fun t => X t i) fun t => X t j, by simp only [correlations, dif_neg (hn rfl)], fun i j => ?_⟩
    beta_reduce
    rw [pearson_eq, nv, nv, ← centred_zero, ← centred_zero]
    split_ifs <;> simp_all
  | kendall =>
    refine ⟨_, rfl, fun i j => ?_⟩
    by_cases h : i = j
    · simp [h]
    · simp only [h, if_false, and_false, not_false_eq_true, and_true]
      rw [kendall_eq, kendall_eq, nv, nv, ← signs_zero, ← signs_zero]
      split_ifs <;> simp_all [or_comm]
  | spearman =>
    refine ⟨_, rfl, fun i j => ?_⟩
    rw [spearman_eq, spearman_eq, nv, nv, ← centredRank_zero, ← centredRank_zero]
    split_ifs <;> simp_all [or_comm]

/-- **C97.** NaN: for positive integer powers, exactly the distances to an asset with constant returns are NaN (Kendall's to itself excepted). -/
theorem C97_nan (m : Method) (absolute : Bool) (p : Nat) (hp : 0 < p) (X : Fin T → Fin n → ℝ) (hn : m = .pearson → n ≠ 1) :
    ∃ cod dist, sampleDistance m absolute p X = .matrix cod dist ∧
      ∀ i j, dist i j = none ↔ (¬Varies (fun t => X t i) ∨ ¬Varies fun t => X t j) ∧ ¬(m = .kendall ∧ i = j) := by
  obtain ⟨r, e, h⟩ := corrVal_none X m hn
  unfold sampleDistance
  rw [e]
  refine ⟨_, _, rfl, fun i j => ?_⟩
  rw [← h i j]
  have hp : ∀ x : ℝ, npPower (p : ℝ) (if absolute then |x| else x) = some ((if absolute then |x| else x) ^ (p : ℝ)) := fun x => npPower_some (Or.inr ⟨p, by simp⟩)
  unfold corrToDistanceNan
  simp only [hp, pyMin3_some, Option.bind_some, Option.map_some]
  cases r i j <;> simp

/-- **C97.** `PearsonDistance` of one asset is a number, not a matrix. -/
theorem C97_one_asset (absolute : Bool) (power : ℝ) (X : Fin T → Fin 1 → ℝ) : ∃ c d, sampleDistance .pearson absolute power X = .scalar c d := by
  unfold sampleDistance correlations
  simp only [dif_pos]
  exact ⟨_, _, rfl⟩

/-- **C97.** Without absolute values and with a power that is not an integer every distance is NaN, whatever the correlations. -/
theorem C97_fractional (m : Method) (power : ℝ) (hp : ¬∃ z : ℤ, power = z) (X : Fin T → Fin n → ℝ) (hn : m = .pearson → n ≠ 1) :
    ∃ cod, sampleDistance m false power X = .matrix cod fun _ _ => none := by
  obtain ⟨r, e, -⟩ := corrVal_none X m hn
  unfold sampleDistance
  rw [e]
  have h1 : npPower power (-1) = none := by
    unfold npPower
    rw [if_pos ⟨by norm_num, hp⟩]
  refine ⟨(corrToDistanceNan false power r).1, ?_⟩
  have h2 : (corrToDistanceNan false power r).2 = fun _ _ => none := by
    unfold corrToDistanceNan
    simp only [Bool.false_eq_true, if_false, h1, pyMin3, Option.map_none, Option.bind_none]
  dsimp only
  rw [h2]

/-- Three assets over four observations: the second is the sum of the others. -/
def sumAsset : Fin 4 → Fin 3 → ℝ := ![![1, 1, 0], ![-1, -1, 0], ![0, 1, 1], ![0, -1, -1]]

theorem sumAsset_varies (i : Fin 3) : Varies fun t => sumAsset t i := by
  fin_cases i
  · exact ⟨0, 1, by simp [sumAsset]; norm_num⟩
  · exact ⟨0, 1, by simp [sumAsset]; norm_num⟩
  · exact ⟨2, 3, by simp [sumAsset]; norm_num⟩

theorem sumAsset_corr : corrVal .pearson (fun t => sumAsset t 0) (fun t => sumAsset t 1) = 1 / Real.sqrt 2 ∧
    corrVal .pearson (fun t => sumAsset t 1) (fun t => sumAsset t 2) = 1 / Real.sqrt 2 ∧ corrVal .pearson (fun t => sumAsset t 0) (fun t => sumAsset t 2) = 0 := by
  have h4 : Real.sqrt 4 = 2 := by rw [show (4 : ℝ) = 2 ^ 2 by norm_num, Real.sqrt_sq (by norm_num)]
  have h2 : Real.sqrt 2 ≠ 0 := (Real.sqrt_pos.2 (by norm_num)).ne'
  refine ⟨?_, ?_, ?_⟩ <;> simp [corrVal, cosine, dot, centred, colMean, sumAsset, Fin.sum_univ_four] <;> norm_num [h4] <;> field_simp

/-- **C97, false of the code for powers below 1**: the square root of absolute correlations is not a metric. -/
theorem C97_half_triangle_false : ∃ cod dist, (sampleDistance .pearson true (1 / 2) sumAsset).Gives cod dist ∧ dist 0 1 + dist 1 2 < dist 0 2 := by
  have hadm : Admissible true (1 / 2) := Or.inr ⟨rfl, by norm_num⟩
  refine ⟨_, _, sampleDistance_val .pearson true (1 / 2) hadm sumAsset sumAsset_varies (by decide), ?_⟩
  obtain ⟨c01, c12, c02⟩ := sumAsset_corr
  set c : Fin 3 → Fin 3 → ℝ := fun i j => corrVal .pearson (fun t => sumAsset t i) fun t => sumAsset t j with hc
  have key : ∀ i j, (corrToDistance true (1 / 2) c).2 i j = Real.sqrt (1 - |c i j| ^ (1 / 2 : ℝ)) := by
    intro i j
    rcases distance_cases c true (1 / 2) hadm i j (corrVal_bounds .pearson (sumAsset_varies i) (sumAsset_varies j)) with ⟨ha, _⟩ | ⟨ha, _⟩ | ⟨_, _, e⟩
    · cases ha
    · cases ha
    · exact e
  have e01 : c 0 1 = 1 / Real.sqrt 2 := c01
  have e12 : c 1 2 = 1 / Real.sqrt 2 := c12
  have e02 : c 0 2 = 0 := c02
  rw [key, key, key, e01, e12, e02, abs_zero, Real.zero_rpow (by norm_num), sub_zero, Real.sqrt_one]
  have hs : 0 < Real.sqrt 2 := Real.sqrt_pos.2 (by norm_num)
  rw [abs_of_pos (by positivity)]
  have hq : (3 / 4 : ℝ) < (1 / Real.sqrt 2) ^ (1 / 2 : ℝ) := by
    rw [← Real.sqrt_eq_rpow]
    apply Real.lt_sqrt_of_sq_lt
    rw [lt_div_iff₀ hs]
    have : Real.sqrt 2 < 3 / 2 := by
      rw [Real.sqrt_lt' (by norm_num)]
      norm_num
    nlinarith
  have : Real.sqrt (1 - (1 / Real.sqrt 2) ^ (1 / 2 : ℝ)) < 1 / 2 := by
    rw [Real.sqrt_lt' (by norm_num)]
    linarith
  linarith

/-! ### the hypotheses can be met -/

/-- Returns without a constant column, with which the distances are not all 0 or 1. -/
example : (∀ i, Varies fun t => sumAsset t i) ∧ ∃ cod dist, (sampleDistance .pearson true (2 : Nat) sumAsset).Gives cod dist ∧ dist 0 2 = 1 ∧ dist 0 1 = Real.sqrt (1 / 2) := by
  have hadm : Admissible true (2 : Nat) := Or.inl ⟨2, rfl, by norm_num⟩
  refine ⟨sumAsset_varies, _, _, sampleDistance_val .pearson true (2 : Nat) hadm sumAsset sumAsset_varies (by decide), ?_⟩
  obtain ⟨c01, c12, c02⟩ := sumAsset_corr
  set c : Fin 3 → Fin 3 → ℝ := fun i j => corrVal .pearson (fun t => sumAsset t i) fun t => sumAsset t j with hc
  have key : ∀ i j, (corrToDistance true (2 : Nat) c).2 i j = Real.sqrt (1 - |c i j| ^ ((2 : Nat) : ℝ)) := by
    intro i j
    rcases distance_cases c true (2 : Nat) hadm i j (corrVal_bounds .pearson (sumAsset_varies i) (sumAsset_varies j)) with ⟨ha, _⟩ | ⟨ha, _⟩ | ⟨_, _, e⟩
    · cases ha
    · cases ha
    · exact e
  have e01 : c 0 1 = 1 / Real.sqrt 2 := c01
  have e02 : c 0 2 = 0 := c02
  rw [key, key, e01, e02, Real.rpow_natCast, Real.rpow_natCast, sq_abs, sq_abs, div_pow, Real.sq_sqrt (by norm_num)]
  norm_num

/-- Two assets that order the observations in the same way without being affine functions of each other. -/
example : Aligned 1 .kendall (![1, 2, 3] : Fin 3 → ℝ) ![1, 2, 4] ∧ Varies (![1, 2, 3] : Fin 3 → ℝ) ∧ ¬Aligned 1 .pearson (![1, 2, 3] : Fin 3 → ℝ) ![1, 2, 4] := by
  refine ⟨?_, ⟨0, 1, by simp⟩, ?_⟩
  · intro s t
    fin_cases s <;> fin_cases t <;> simp <;> norm_num
  · rintro ⟨k, hk, c, h⟩
    have h0 := h 0
    have h1 := h 1
    have h2 := h 2
    simp at h0 h1 h2
    linarith

/-- A column without variation, and a positive semidefinite matrix with positive variances. -/
example : ¬Varies (![2, 2, 2] : Fin 3 → ℝ) ∧ PSD (1 : Matrix (Fin 2) (Fin 2) ℝ) ∧ ∀ i, 0 < (1 : Matrix (Fin 2) (Fin 2) ℝ) i i := by
  refine ⟨?_, ⟨fun i j => by simp only [Matrix.one_apply, eq_comm], fun x => ?_⟩, fun i => by simp⟩
  · rintro ⟨s, t, h⟩
    apply h
    fin_cases s <;> fin_cases t <;> rfl
  · simp [Fin.sum_univ_two, Matrix.one_apply]
    nlinarith [sq_nonneg (x 0), sq_nonneg (x 1)]

/-- A power that is not an integer. -/
example : ¬∃ z : ℤ, (1 / 2 : ℝ) = z := by
  rintro ⟨z, h⟩
  have : (1 : ℝ) = ((2 * z : ℤ) : ℝ) := by push_cast; linarith
  have : (1 : ℤ) = 2 * z := by exact_mod_cast this
  omega

end Skfolio.Distance
