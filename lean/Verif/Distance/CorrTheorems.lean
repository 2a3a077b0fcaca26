import Verif.Distance.CorrModel
import Mathlib.Analysis.InnerProductSpace.Basic
import Mathlib.Data.Finset.Max
import Mathlib.Tactic.Linarith
import Mathlib.Tactic.FieldSimp
import Mathlib.Tactic.Ring
import Mathlib.Algebra.Order.BigOperators.Ring.Finset
import Mathlib.Algebra.BigOperators.Field
import Mathlib.Data.Fin.VecNotation
import Mathlib.Tactic.FinCases

/-!
Claim C85: the distance correlation.
-/
set_option autoImplicit false

namespace Skfolio.Distance

open Finset

variable {N n : Nat}

/-! ### the absolute difference as a sum over thresholds -/

/-- `1` if `a ≤ c`. -/
noncomputable def ind (c a : ℝ) : ℝ := if a ≤ c then 1 else 0

theorem abs_decomposition (S : Finset ℝ) : ∃ (T : Finset ℝ) (w : ℝ → ℝ), (∀ c ∈ T, 0 < w c ∧ ∃ b ∈ S, c < b) ∧ (∀ c ∈ S, (∃ b ∈ S, c < b) → c ∈ T) ∧
    ∀ a ∈ S, ∀ b ∈ S, |a - b| = ∑ c ∈ T, w c * (ind c a - ind c b) ^ 2 := by
  induction S using Finset.induction_on_max with
  | empty => exact ⟨∅, fun _ => 0, by simp, by simp, by simp⟩
  | insert M S hM ih =>
    obtain ⟨T, w, h1, h2, h3⟩ := ih
    by_cases hS : S.Nonempty
    · obtain ⟨m, hm, hmax⟩ := S.exists_max_image id hS
      simp only [id] at hmax
      have hmM := hM m hm
      have hT : ∀ c ∈ T, c < m := by
        intro c hc
        obtain ⟨_, b, hb, hlt⟩ := h1 c hc
        exact lt_of_lt_of_le hlt (hmax b hb)
      have hmT : m ∉ T := fun h => lt_irrefl _ (hT m h)
      have hw : ∀ c ∈ T, Function.update w m (M - m) c = w c := by
        intro c hc
        rw [Function.update_of_ne (hT c hc).ne]
      have hfar : ∀ a ∈ S, |a - M| = ∑ c ∈ insert m T, Function.update w m (M - m) c * (ind c a - ind c M) ^ 2 := by
        intro a ha
        rw [sum_insert hmT, Function.update_self, sum_congr rfl fun c hc => by rw [hw c hc]]
        have e1 : ind m a = 1 := if_pos (hmax a ha)
        have e2 : ind m M = 0 := if_neg (not_le.2 hmM)
        have e3 : ∀ c ∈ T, ind c M = ind c m := fun c hc => by
          unfold ind
          rw [if_neg (not_le.2 (hT c hc)), if_neg (not_le.2 ((hT c hc).trans hmM))]
        rw [e1, e2, sum_congr rfl fun c hc => by rw [e3 c hc], ← h3 a ha m hm, abs_of_nonpos (by linarith [hM a ha]),
          abs_of_nonpos (by linarith [hmax a ha])]
        ring
      refine ⟨insert m T, Function.update w m (M - m), ?_, ?_, ?_⟩
      · intro c hc
        rcases mem_insert.1 hc with rfl | hc'
        · rw [Function.update_self]
          exact ⟨by linarith, M, mem_insert_self _ _, hmM⟩
        · rw [hw c hc']
          obtain ⟨hp, b, hb, hlt⟩ := h1 c hc'
          exact ⟨hp, b, mem_insert_of_mem hb, hlt⟩
      · rintro c hc ⟨b, hb, hlt⟩
        rcases mem_insert.1 hc with rfl | hc'
        · rcases mem_insert.1 hb with rfl | hb'
          · exact absurd hlt (lt_irrefl _)
          · exact absurd (hlt.trans (hM b hb')) (lt_irrefl _)
        · rcases lt_or_eq_of_le (hmax c hc') with h | h
          · exact mem_insert_of_mem (h2 c hc' ⟨m, hm, h⟩)
          · rw [h]; exact mem_insert_self _ _
      · intro a ha b hb
        rcases mem_insert.1 ha with rfl | ha' <;> rcases mem_insert.1 hb with rfl | hb'
        · simp
        · rw [abs_sub_comm, hfar b hb']
          refine sum_congr rfl fun c _ => ?_
          ring
        · exact hfar a ha'
        · rw [sum_insert hmT, Function.update_self, sum_congr rfl fun c hc => by rw [hw c hc], h3 a ha' b hb']
          have e1 : ind m a = 1 := if_pos (hmax a ha')
          have e2 : ind m b = 1 := if_pos (hmax b hb')
          rw [e1, e2]
          ring
    · rw [not_nonempty_iff_eq_empty] at hS
      subst hS
      exact ⟨∅, fun _ => 0, by simp, by simp, by simp⟩

/-! ### centring -/

/-- A function of the observations minus its mean. -/
noncomputable def dev (u : Fin (N + 1) → ℝ) (s : Fin (N + 1)) : ℝ := u s - (∑ i, u i) / (N + 1)

theorem cast_pos' : (0 : ℝ) < (N : ℝ) + 1 := by positivity

theorem centre_sq (u : Fin (N + 1) → ℝ) (s t : Fin (N + 1)) : centre (fun s t => (u s - u t) ^ 2) s t = -2 * (dev u s * dev u t) := by
  have hN : (N : ℝ) + 1 ≠ 0 := cast_pos'.ne'
  have hcard : (∑ _i : Fin (N + 1), (1 : ℝ)) = N + 1 := by simp
  have e1 : ∀ c : ℝ, ∑ i, (u i - c) ^ 2 = (∑ i, u i ^ 2) - 2 * c * (∑ i, u i) + (N + 1) * c ^ 2 := by
    intro c
    rw [← hcard, sum_mul, mul_sum, ← sum_sub_distrib, ← sum_add_distrib]
    exact sum_congr rfl fun i _ => by ring
  have e2 : ∀ c : ℝ, ∑ i, (c - u i) ^ 2 = (∑ i, u i ^ 2) - 2 * c * (∑ i, u i) + (N + 1) * c ^ 2 := by
    intro c
    rw [← e1 c]
    exact sum_congr rfl fun i _ => by ring
  have e3 : ∑ i, ∑ j, (u i - u j) ^ 2 = 2 * (N + 1) * (∑ i, u i ^ 2) - 2 * (∑ i, u i) ^ 2 := by
    rw [sum_congr rfl fun i _ => e2 (u i), sum_add_distrib, sum_sub_distrib, ← mul_sum, ← sum_mul, ← mul_sum]
    rw [sum_const, card_univ, Fintype.card_fin, nsmul_eq_mul]
    push_cast
    ring
  unfold centre dev
  rw [e1, e2, e3]
  field_simp
  ring

theorem centre_sum (T : Finset ℝ) (w : ℝ → ℝ) (f : ℝ → Fin (N + 1) → Fin (N + 1) → ℝ) (s t : Fin (N + 1)) :
    centre (fun s t => ∑ c ∈ T, w c * f c s t) s t = ∑ c ∈ T, w c * centre (f c) s t := by
  unfold centre
  have e1 : ∑ i, ∑ c ∈ T, w c * f c i t = ∑ c ∈ T, w c * ∑ i, f c i t := by
    rw [sum_comm]; exact sum_congr rfl fun c _ => by rw [mul_sum]
  have e2 : ∑ j, ∑ c ∈ T, w c * f c s j = ∑ c ∈ T, w c * ∑ j, f c s j := by
    rw [sum_comm]; exact sum_congr rfl fun c _ => by rw [mul_sum]
  have e3 : ∑ i, ∑ j, ∑ c ∈ T, w c * f c i j = ∑ c ∈ T, w c * ∑ i, ∑ j, f c i j := by
    have : ∀ i, ∑ j, ∑ c ∈ T, w c * f c i j = ∑ c ∈ T, w c * ∑ j, f c i j := fun i => by
      rw [sum_comm]; exact sum_congr rfl fun c _ => by rw [mul_sum]
    rw [sum_congr rfl fun i _ => this i, sum_comm]
    exact sum_congr rfl fun c _ => by rw [mul_sum]
  rw [e1, e2, e3, sum_div, sum_div, sum_div, ← sum_sub_distrib, ← sum_sub_distrib, ← sum_add_distrib]
  exact sum_congr rfl fun c _ => by ring

/-- The indicators of the thresholds of an asset, centred. -/
noncomputable def mark (x : Fin (N + 1) → ℝ) (c : ℝ) : Fin (N + 1) → ℝ := dev fun s => ind c (x s)

theorem centre_marks (x : Fin (N + 1) → ℝ) : ∃ (T : Finset ℝ) (w : ℝ → ℝ), (∀ c ∈ T, 0 < w c) ∧ (∀ i j, x i < x j → x i ∈ T) ∧ (∀ c ∈ T, ∃ i, c < x i) ∧
    ∀ s t, centre (pairDist x) s t = -2 * ∑ c ∈ T, w c * (mark x c s * mark x c t) := by
  obtain ⟨T, w, h1, h2, h3⟩ := abs_decomposition (univ.image x)
  have hmem : ∀ i, x i ∈ univ.image x := fun i => mem_image_of_mem x (mem_univ i)
  refine ⟨T, w, fun c hc => (h1 c hc).1, fun i j hij => h2 _ (hmem i) ⟨_, hmem j, hij⟩, ?_, fun s t => ?_⟩
  · intro c hc
    obtain ⟨_, b, hb, hlt⟩ := h1 c hc
    obtain ⟨i, _, rfl⟩ := mem_image.1 hb
    exact ⟨i, hlt⟩
  have e : pairDist x = fun s t => ∑ c ∈ T, w c * (ind c (x s) - ind c (x t)) ^ 2 := by
    funext s t
    exact h3 _ (hmem s) _ (hmem t)
  rw [e, centre_sum T w (fun c s t => (ind c (x s) - ind c (x t)) ^ 2), mul_sum]
  refine sum_congr rfl fun c _ => ?_
  rw [centre_sq fun s => ind c (x s)]
  unfold mark
  ring

/-- The distance covariance as a sum of squares. -/
theorem sumProd_squares (x y : Fin (N + 1) → ℝ) : ∃ (T U : Finset ℝ) (w v : ℝ → ℝ), (∀ c ∈ T, 0 < w c) ∧ (∀ c ∈ U, 0 < v c) ∧
    (∀ i j, x i < x j → x i ∈ T) ∧ (∀ i j, y i < y j → y i ∈ U) ∧
    sumProd (centre (pairDist x)) (centre (pairDist y)) = 4 * ∑ c ∈ T, ∑ e ∈ U, w c * v e * (∑ s, mark x c s * mark y e s) ^ 2 := by
  obtain ⟨T, w, h1, h2, _, h3⟩ := centre_marks x
  obtain ⟨U, v, k1, k2, _, k3⟩ := centre_marks y
  refine ⟨T, U, w, v, h1, k1, h2, k2, ?_⟩
  unfold sumProd
  have key : ∀ s t, centre (pairDist x) s t * centre (pairDist y) s t =
      ∑ c ∈ T, ∑ e ∈ U, 4 * (w c * v e) * ((mark x c s * mark y e s) * (mark x c t * mark y e t)) := by
    intro s t
    rw [h3, k3]
    have : (-2 * ∑ c ∈ T, w c * (mark x c s * mark x c t)) * (-2 * ∑ e ∈ U, v e * (mark y e s * mark y e t)) =
        4 * ((∑ c ∈ T, w c * (mark x c s * mark x c t)) * ∑ e ∈ U, v e * (mark y e s * mark y e t)) := by ring
    rw [this, sum_mul_sum, mul_sum]
    refine sum_congr rfl fun c _ => ?_
    rw [mul_sum]
    exact sum_congr rfl fun e _ => by ring
  have h4 : ∀ s, ∑ t, centre (pairDist x) s t * centre (pairDist y) s t =
      ∑ c ∈ T, ∑ e ∈ U, 4 * (w c * v e) * ((mark x c s * mark y e s) * ∑ t, mark x c t * mark y e t) := by
    intro s
    rw [sum_congr rfl fun t _ => key s t, sum_comm]
    refine sum_congr rfl fun c _ => ?_
    rw [sum_comm]
    refine sum_congr rfl fun e _ => ?_
    rw [mul_sum, mul_sum]
  rw [sum_congr rfl fun s _ => h4 s, sum_comm, mul_sum]
  refine sum_congr rfl fun c _ => ?_
  rw [sum_comm, mul_sum]
  refine sum_congr rfl fun e _ => ?_
  rw [← mul_sum, ← sum_mul]
  ring

theorem sumProd_nonneg (x y : Fin (N + 1) → ℝ) : 0 ≤ sumProd (centre (pairDist x)) (centre (pairDist y)) := by
  obtain ⟨T, U, w, v, h1, h2, _, _, e⟩ := sumProd_squares x y
  rw [e]
  refine mul_nonneg (by norm_num) (sum_nonneg fun c hc => sum_nonneg fun d hd => ?_)
  exact mul_nonneg (mul_nonneg (h1 c hc).le (h2 d hd).le) (sq_nonneg _)

/-- Recover the distances from the centred ones. -/
theorem centre_recover (x : Fin (N + 1) → ℝ) (s t : Fin (N + 1)) :
    pairDist x s t = centre (pairDist x) s t - (centre (pairDist x) s s + centre (pairDist x) t t) / 2 := by
  have hsym : ∀ s t, pairDist x s t = pairDist x t s := fun s t => abs_sub_comm _ _
  have h0 : ∀ s, pairDist x s s = 0 := fun s => by unfold pairDist; simp
  have hs : ∀ s, ∑ i, pairDist x i s = ∑ j, pairDist x s j := fun s => sum_congr rfl fun i _ => hsym i s
  unfold centre
  rw [h0, h0, hs s, hs t]
  ring

theorem self_eq_zero_iff (x : Fin (N + 1) → ℝ) : sumProd (centre (pairDist x)) (centre (pairDist x)) = 0 ↔ ∀ s t, x s = x t := by
  constructor
  · intro h s t
    have hz : ∀ s t, centre (pairDist x) s t = 0 := by
      intro s t
      unfold sumProd at h
      have h1 := (sum_eq_zero_iff_of_nonneg fun s _ => sum_nonneg fun t _ => mul_self_nonneg (centre (pairDist x) s t)).1 h s (mem_univ s)
      have h2 := (sum_eq_zero_iff_of_nonneg fun t _ => mul_self_nonneg (centre (pairDist x) s t)).1 h1 t (mem_univ t)
      exact mul_self_eq_zero.1 h2
    have e := centre_recover x s t
    rw [hz, hz, hz] at e
    unfold pairDist at e
    have := abs_eq_zero.1 (e.trans (by ring))
    linarith
  · intro h
    have hz : pairDist x = fun _ _ => 0 := by
      funext s t
      unfold pairDist
      rw [h s t, sub_self, abs_zero]
    rw [hz]
    unfold sumProd centre
    simp

theorem self_pos_iff (x : Fin (N + 1) → ℝ) : 0 < sumProd (centre (pairDist x)) (centre (pairDist x)) ↔ ∃ s t, x s ≠ x t := by
  rw [lt_iff_le_and_ne]
  constructor
  · rintro ⟨_, h⟩
    by_contra hc
    push Not at hc
    exact h ((self_eq_zero_iff x).2 hc).symm
  · rintro ⟨s, t, h⟩
    exact ⟨sumProd_nonneg x x, fun h0 => h ((self_eq_zero_iff x).1 h0.symm s t)⟩

theorem sumProd_comm (a b : Fin (N + 1) → Fin (N + 1) → ℝ) : sumProd a b = sumProd b a :=
  sum_congr rfl fun _ _ => sum_congr rfl fun _ _ => mul_comm _ _

theorem sumProd_cauchy (a b : Fin (N + 1) → Fin (N + 1) → ℝ) : sumProd a b ≤ Real.sqrt (sumProd a a) * Real.sqrt (sumProd b b) := by
  have h := Real.sum_mul_le_sqrt_mul_sqrt (univ : Finset (Fin (N + 1) × Fin (N + 1))) (fun p => a p.1 p.2) (fun p => b p.1 p.2)
  simp only [Fintype.sum_prod_type, pow_two] at h
  exact h

theorem sumProd_cauchy_eq {a b : Fin (N + 1) → Fin (N + 1) → ℝ} (hb : 0 < sumProd b b)
    (h : sumProd a b = Real.sqrt (sumProd a a) * Real.sqrt (sumProd b b)) :
    ∀ s t, a s t = Real.sqrt (sumProd a a) / Real.sqrt (sumProd b b) * b s t := by
  have ha : 0 ≤ sumProd a a := sum_nonneg fun s _ => sum_nonneg fun t _ => mul_self_nonneg _
  set A := Real.sqrt (sumProd a a) with hA
  set B := Real.sqrt (sumProd b b) with hB
  have hBpos : 0 < B := Real.sqrt_pos.2 hb
  have eA : sumProd a a = A * A := (Real.mul_self_sqrt ha).symm
  have eB : sumProd b b = B * B := (Real.mul_self_sqrt hb.le).symm
  have key : ∑ s, ∑ t, (a s t - A / B * b s t) * (a s t - A / B * b s t) = 0 := by
    have : ∑ s, ∑ t, (a s t - A / B * b s t) * (a s t - A / B * b s t) = sumProd a a - 2 * (A / B) * sumProd a b + (A / B) * (A / B) * sumProd b b := by
      unfold sumProd
      rw [mul_sum, mul_sum, ← sum_sub_distrib, ← sum_add_distrib]
      refine sum_congr rfl fun s _ => ?_
      rw [mul_sum, mul_sum, ← sum_sub_distrib, ← sum_add_distrib]
      exact sum_congr rfl fun t _ => by ring
    rw [this, h, eA, eB]
    field_simp
    ring
  intro s t
  have h1 := (sum_eq_zero_iff_of_nonneg fun s _ => sum_nonneg fun t _ => mul_self_nonneg (a s t - A / B * b s t)).1 key s (mem_univ s)
  have h2 := (sum_eq_zero_iff_of_nonneg fun t _ => mul_self_nonneg (a s t - A / B * b s t)).1 h1 t (mem_univ t)
  have := mul_self_eq_zero.1 h2
  linarith

/-- What `_dcorr` returns: NaN exactly for an asset with constant returns, otherwise the quotient. -/
theorem dcorr_eq (x y : Fin (N + 1) → ℝ) : dcorr x y =
    if (∃ s t, x s ≠ x t) ∧ ∃ s t, y s ≠ y t then
      some (Real.sqrt (sumProd (centre (pairDist x)) (centre (pairDist y))) /
        Real.sqrt (Real.sqrt (sumProd (centre (pairDist x)) (centre (pairDist x))) * Real.sqrt (sumProd (centre (pairDist y)) (centre (pairDist y)))))
    else none := by
  unfold dcorr npSqrt npDiv
  simp only
  rw [if_neg (not_lt.2 (sumProd_nonneg x y)), if_neg (not_lt.2 (mul_nonneg (Real.sqrt_nonneg _) (Real.sqrt_nonneg _)))]
  simp only [Option.bind_some]
  by_cases h : (∃ s t, x s ≠ x t) ∧ ∃ s t, y s ≠ y t
  · rw [if_pos h, if_neg]
    have h1 := (self_pos_iff x).2 h.1
    have h2 := (self_pos_iff y).2 h.2
    exact (Real.sqrt_pos.2 (mul_pos (Real.sqrt_pos.2 h1) (Real.sqrt_pos.2 h2))).ne'
  · rw [if_neg h, if_pos]
    by_cases hx : ∃ s t, x s ≠ x t
    · have hy : ∀ s t, y s = y t := by
        by_contra hc
        push Not at hc
        exact h ⟨hx, hc⟩
      rw [(self_eq_zero_iff y).2 hy]
      simp
    · push Not at hx
      rw [(self_eq_zero_iff x).2 hx]
      simp

theorem dcorr_comm (x y : Fin (N + 1) → ℝ) : dcorr x y = dcorr y x := by
  rw [dcorr_eq, dcorr_eq, sumProd_comm, mul_comm (Real.sqrt _)]
  congr 1
  exact propext and_comm

/-! ### the claims -/

variable {th : ℝ} {X : Fin n → Fin (N + 1) → ℝ}

theorem fit_corr (i j : Fin n) : (dcorrFit th X).1 i j = if i = j then some 1 else dcorr (X i) (X j) := by
  unfold dcorrFit
  simp only
  by_cases h : i = j
  · subst h; simp
  · rw [if_neg h]
    rcases lt_or_gt_of_ne h with h1 | h1
    · rw [if_pos h1]
    · rw [if_neg h1.asymm, if_pos h1, dcorr_comm]

theorem dcorr_bounds {x y : Fin (N + 1) → ℝ} {c : ℝ} (h : dcorr x y = some c) : 0 ≤ c ∧ c ≤ 1 := by
  rw [dcorr_eq] at h
  by_cases hc : (∃ s t, x s ≠ x t) ∧ ∃ s t, y s ≠ y t
  · rw [if_pos hc] at h
    cases h
    refine ⟨div_nonneg (Real.sqrt_nonneg _) (Real.sqrt_nonneg _), ?_⟩
    exact div_le_one_of_le₀ (Real.sqrt_le_sqrt (sumProd_cauchy _ _)) (Real.sqrt_nonneg _)
  · rw [if_neg hc] at h; cases h

/-- **C85.** Both matrices are symmetric; the codependence is 1 and the distance 0 on the diagonal. -/
theorem C85_symmetric (th : ℝ) (X : Fin n → Fin (N + 1) → ℝ) (i j : Fin n) :
    (dcorrFit th X).1 i j = (dcorrFit th X).1 j i ∧ (dcorrFit th X).2 i j = (dcorrFit th X).2 j i ∧
    (dcorrFit th X).1 i i = some 1 ∧ (dcorrFit th X).2 i i = some 0 := by
  have h : ∀ i j, (dcorrFit th X).1 i j = (dcorrFit th X).1 j i := by
    intro i j
    rw [fit_corr, fit_corr, dcorr_comm]
    by_cases h : i = j
    · subst h; rfl
    · rw [if_neg h, if_neg (Ne.symm h)]
  have hd : ∀ i j, (dcorrFit th X).2 i j = ((dcorrFit th X).1 i j).bind fun c => npSqrt (clip01 (1 - c)) := fun i j => rfl
  refine ⟨h i j, by rw [hd, hd, h i j], by rw [fit_corr, if_pos rfl], ?_⟩
  rw [hd, fit_corr, if_pos rfl]
  simp [npSqrt, clip01]

/-- **C85.** The codependence of two assets is between 0 and 1, and the distance is `sqrt(1 - codependence)`: the clipping changes nothing. -/
theorem C85_bounds (th : ℝ) (X : Fin n → Fin (N + 1) → ℝ) (i j : Fin n) (c : ℝ) (h : (dcorrFit th X).1 i j = some c) :
    0 ≤ c ∧ c ≤ 1 ∧ (dcorrFit th X).2 i j = some (Real.sqrt (1 - c)) := by
  have hb : 0 ≤ c ∧ c ≤ 1 := by
    rw [fit_corr] at h
    by_cases hij : i = j
    · rw [if_pos hij] at h; cases h; norm_num
    · rw [if_neg hij] at h; exact dcorr_bounds h
  refine ⟨hb.1, hb.2, ?_⟩
  have hd : (dcorrFit th X).2 i j = ((dcorrFit th X).1 i j).bind fun c => npSqrt (clip01 (1 - c)) := rfl
  have e : clip01 (1 - c) = 1 - c := by
    unfold clip01
    rw [max_eq_left (by linarith [hb.2]), min_eq_left (by linarith [hb.1])]
  rw [hd, h, Option.bind_some, e]
  unfold npSqrt
  rw [if_neg (not_lt.2 (by linarith [hb.2]))]

/-- **C85.** The codependence of two assets is the documented distance correlation of Szekely, `sqrt(dCov²(X, Y) / sqrt(dVar²(X) dVar²(Y)))`; it is missing (NaN) exactly if
the returns of one of them are constant. -/
theorem C85_formula (th : ℝ) (X : Fin n → Fin (N + 1) → ℝ) (i j : Fin n) (hij : i ≠ j) :
    ((dcorrFit th X).1 i j = none ↔ (∀ s t, X i s = X i t) ∨ ∀ s t, X j s = X j t) ∧
    ((∃ s t, X i s ≠ X i t) → (∃ s t, X j s ≠ X j t) →
      (dcorrFit th X).1 i j = some (Real.sqrt (sumProd (centre (pairDist (X i))) (centre (pairDist (X j))) /
        Real.sqrt (sumProd (centre (pairDist (X i))) (centre (pairDist (X i))) * sumProd (centre (pairDist (X j))) (centre (pairDist (X j))))))) := by
  rw [fit_corr, if_neg hij, dcorr_eq]
  constructor
  · by_cases hc : (∃ s t, X i s ≠ X i t) ∧ ∃ s t, X j s ≠ X j t
    · rw [if_pos hc]
      obtain ⟨⟨s, t, h1⟩, s', t', h2⟩ := hc
      constructor
      · intro h; cases h
      · rintro (h | h)
        · exact absurd (h s t) h1
        · exact absurd (h s' t') h2
    · rw [if_neg hc]
      refine ⟨fun _ => ?_, fun _ => rfl⟩
      by_contra h
      push Not at h
      exact hc h
  · intro h1 h2
    rw [if_pos ⟨h1, h2⟩, Real.sqrt_mul (sumProd_nonneg (X i) (X i)), Real.sqrt_div (sumProd_nonneg (X i) (X j))]

/-! #### independence -/

theorem sum_ind (x : Fin (N + 1) → ℝ) (c : ℝ) : ∑ s, ind c (x s) = (univ.filter fun s => x s ≤ c).card := by
  unfold ind
  rw [sum_ite, sum_const_zero, add_zero, sum_const, nsmul_eq_mul, mul_one]

theorem sum_ind2 (x y : Fin (N + 1) → ℝ) (c e : ℝ) : ∑ s, ind c (x s) * ind e (y s) = (univ.filter fun s => x s ≤ c ∧ y s ≤ e).card := by
  have : ∀ s, ind c (x s) * ind e (y s) = if x s ≤ c ∧ y s ≤ e then 1 else 0 := by
    intro s
    unfold ind
    by_cases h1 : x s ≤ c <;> by_cases h2 : y s ≤ e <;> simp [h1, h2]
  rw [sum_congr rfl fun s _ => this s, sum_ite, sum_const_zero, add_zero, sum_const, nsmul_eq_mul, mul_one]

theorem sum_dev_mul (u v : Fin (N + 1) → ℝ) : ∑ s, dev u s * dev v s = ∑ s, u s * v s - (∑ s, u s) * (∑ s, v s) / (N + 1) := by
  have hN : (N : ℝ) + 1 ≠ 0 := cast_pos'.ne'
  unfold dev
  have : ∀ s, (u s - (∑ i, u i) / (N + 1)) * (v s - (∑ i, v i) / (N + 1)) =
      u s * v s - (∑ i, u i) / (N + 1) * v s - (∑ i, v i) / (N + 1) * u s + (∑ i, u i) / (N + 1) * ((∑ i, v i) / (N + 1)) := fun s => by ring
  rw [sum_congr rfl fun s _ => this s, sum_add_distrib, sum_sub_distrib, sum_sub_distrib, ← mul_sum, ← mul_sum, sum_const, card_univ, Fintype.card_fin, nsmul_eq_mul]
  push_cast
  field_simp
  ring

/-- The returns of two assets are independent in the sample: for all thresholds, the share of the days on which both returns are at most at the thresholds is the product of
the shares for each. -/
def Independent (x y : Fin (N + 1) → ℝ) : Prop :=
  ∀ c e : ℝ, (N + 1) * (univ.filter fun s => x s ≤ c ∧ y s ≤ e).card = (univ.filter fun s => x s ≤ c).card * (univ.filter fun s => y s ≤ e).card

theorem marks_zero_iff (x y : Fin (N + 1) → ℝ) (c e : ℝ) : ∑ s, mark x c s * mark y e s = 0 ↔
    (N + 1) * (univ.filter fun s => x s ≤ c ∧ y s ≤ e).card = (univ.filter fun s => x s ≤ c).card * (univ.filter fun s => y s ≤ e).card := by
  unfold mark
  have hN : (0 : ℝ) < (N : ℝ) + 1 := cast_pos'
  rw [sum_dev_mul, sum_ind2, sum_ind, sum_ind, sub_eq_zero, eq_div_iff hN.ne', mul_comm]
  exact_mod_cast Iff.rfl

/-- A threshold may be replaced by the largest return below it. -/
theorem threshold_value (x : Fin (N + 1) → ℝ) (c : ℝ) : (∀ s, ¬ x s ≤ c) ∨ (∀ s, x s ≤ c) ∨ ∃ i j, x i < x j ∧ ∀ s, x s ≤ c ↔ x s ≤ x i := by
  by_cases h0 : ∀ s, ¬ x s ≤ c
  · exact Or.inl h0
  · push Not at h0
    obtain ⟨s0, hs0⟩ := h0
    by_cases h1 : ∀ s, x s ≤ c
    · exact Or.inr (Or.inl h1)
    · push Not at h1
      obtain ⟨j, hj⟩ := h1
      obtain ⟨i, hi, hmax⟩ := (univ.filter fun s => x s ≤ c).exists_max_image x ⟨s0, by simpa using hs0⟩
      have hi' : x i ≤ c := by simpa using hi
      refine Or.inr (Or.inr ⟨i, j, lt_of_le_of_lt hi' hj, fun s => ⟨fun hs => hmax s (by simpa using hs), fun hs => hs.trans hi'⟩⟩)

theorem sumProd_zero_iff (x y : Fin (N + 1) → ℝ) : sumProd (centre (pairDist x)) (centre (pairDist y)) = 0 ↔ Independent x y := by
  obtain ⟨T, U, w, v, h1, h2, h3, h4, e⟩ := sumProd_squares x y
  have hn : ∀ c ∈ T, ∀ d ∈ U, 0 ≤ w c * v d * (∑ s, mark x c s * mark y d s) ^ 2 := fun c hc d hd =>
    mul_nonneg (mul_nonneg (h1 c hc).le (h2 d hd).le) (sq_nonneg _)
  rw [e]
  constructor
  · intro h
    have hz : ∀ c ∈ T, ∀ d ∈ U, ∑ s, mark x c s * mark y d s = 0 := by
      intro c hc d hd
      have h0 : ∑ c ∈ T, ∑ d ∈ U, w c * v d * (∑ s, mark x c s * mark y d s) ^ 2 = 0 := by linarith
      have h5 := (sum_eq_zero_iff_of_nonneg fun c hc => sum_nonneg fun d hd => hn c hc d hd).1 h0 c hc
      have h6 := (sum_eq_zero_iff_of_nonneg fun d hd => hn c hc d hd).1 h5 d hd
      rcases mul_eq_zero.1 h6 with h7 | h7
      · exact absurd h7 (mul_pos (h1 c hc) (h2 d hd)).ne'
      · exact pow_eq_zero_iff (two_ne_zero) |>.1 h7
    intro c d
    rcases threshold_value x c with hx | hx | ⟨i, j, hij, hx⟩
    · simp [hx]
    · simp [hx]
    · rcases threshold_value y d with hy | hy | ⟨k, l, hkl, hy⟩
      · simp [hy]
      · simp [hy, mul_comm]
      · simp only [hx, hy]
        exact (marks_zero_iff x y _ _).1 (hz _ (h3 i j hij) _ (h4 k l hkl))
  · intro h
    have : ∑ c ∈ T, ∑ d ∈ U, w c * v d * (∑ s, mark x c s * mark y d s) ^ 2 = 0 := by
      refine sum_eq_zero fun c _ => sum_eq_zero fun d _ => ?_
      rw [(marks_zero_iff x y c d).2 (h c d)]
      ring
    rw [this, mul_zero]

/-- **C85.** The distance correlation captures any dependence: it is 0, and the distance 1, exactly for assets whose returns are independent in the sample. -/
theorem C85_zero_iff (th : ℝ) (X : Fin n → Fin (N + 1) → ℝ) (i j : Fin n) (hij : i ≠ j) (hi : ∃ s t, X i s ≠ X i t) (hj : ∃ s t, X j s ≠ X j t) :
    ((dcorrFit th X).1 i j = some 0 ↔ Independent (X i) (X j)) ∧ ((dcorrFit th X).2 i j = some 1 ↔ Independent (X i) (X j)) := by
  have e := (C85_formula th X i j hij).2 hi hj
  have hpos : 0 < Real.sqrt (sumProd (centre (pairDist (X i))) (centre (pairDist (X i))) * sumProd (centre (pairDist (X j))) (centre (pairDist (X j)))) :=
    Real.sqrt_pos.2 (mul_pos ((self_pos_iff _).2 hi) ((self_pos_iff _).2 hj))
  have hz : (dcorrFit th X).1 i j = some 0 ↔ Independent (X i) (X j) := by
    rw [e, Option.some_inj, Real.sqrt_eq_zero (div_nonneg (sumProd_nonneg _ _) hpos.le), div_eq_zero_iff, or_iff_left hpos.ne', sumProd_zero_iff]
  refine ⟨hz, ?_⟩
  rw [← hz]
  obtain ⟨h0, h1, hd⟩ := C85_bounds th X i j _ e
  rw [hd, e, Option.some_inj, Option.some_inj, Real.sqrt_eq_one]
  constructor <;> intro h <;> linarith

/-! #### affine dependence -/

theorem centre_smul (k : ℝ) (d : Fin (N + 1) → Fin (N + 1) → ℝ) (s t : Fin (N + 1)) : centre (fun s t => k * d s t) s t = k * centre d s t := by
  unfold centre
  simp only [← mul_sum]
  ring

theorem line_isometry {x y : Fin (N + 1) → ℝ} {k : ℝ} (hk : 0 < k) (h : ∀ s t, |x s - x t| = k * |y s - y t|) (hx : ∃ s t, y s ≠ y t) :
    ∃ a b : ℝ, a ≠ 0 ∧ ∀ s, x s = a * y s + b := by
  obtain ⟨p, q, hpq⟩ := hx
  have step : ∀ s t, x s - x t = k * (y s - y t) ∨ x s - x t = -(k * (y s - y t)) := by
    intro s t
    have := h s t
    rw [← abs_of_pos hk, ← abs_mul] at this
    exact abs_eq_abs.1 this
  rcases step p q with h0 | h0
  · refine ⟨k, x p - k * y p, hk.ne', fun s => ?_⟩
    rcases step s p with h1 | h1
    · linarith
    · rcases step s q with h2 | h2
      · have : k * (y s - y p) = 0 := by linarith
        linarith
      · have : k * (y p - y q) = 0 := by linarith
        rcases mul_eq_zero.1 this with h3 | h3
        · exact absurd h3 hk.ne'
        · exact absurd (sub_eq_zero.1 h3) hpq
  · refine ⟨-k, x p + k * y p, neg_ne_zero.2 hk.ne', fun s => ?_⟩
    rcases step s p with h1 | h1
    · rcases step s q with h2 | h2
      · have : k * (y p - y q) = 0 := by linarith
        rcases mul_eq_zero.1 this with h3 | h3
        · exact absurd h3 hk.ne'
        · exact absurd (sub_eq_zero.1 h3) hpq
      · have : k * (y s - y p) = 0 := by linarith
        linarith
    · linarith

/-- **C85.** The distance correlation is 1, and the distance 0, exactly for assets whose returns are an affine function of each other. -/
theorem C85_one_iff (th : ℝ) (X : Fin n → Fin (N + 1) → ℝ) (i j : Fin n) (hij : i ≠ j) (hi : ∃ s t, X i s ≠ X i t) (hj : ∃ s t, X j s ≠ X j t) :
    ((dcorrFit th X).1 i j = some 1 ↔ ∃ a b : ℝ, a ≠ 0 ∧ ∀ s, X i s = a * X j s + b) ∧
    ((dcorrFit th X).2 i j = some 0 ↔ ∃ a b : ℝ, a ≠ 0 ∧ ∀ s, X i s = a * X j s + b) := by
  have e := (C85_formula th X i j hij).2 hi hj
  have pi := (self_pos_iff _).2 hi
  have pj := (self_pos_iff _).2 hj
  have hpos : 0 < Real.sqrt (sumProd (centre (pairDist (X i))) (centre (pairDist (X i))) * sumProd (centre (pairDist (X j))) (centre (pairDist (X j)))) :=
    Real.sqrt_pos.2 (mul_pos pi pj)
  have hz : (dcorrFit th X).1 i j = some 1 ↔ ∃ a b : ℝ, a ≠ 0 ∧ ∀ s, X i s = a * X j s + b := by
    rw [e, Option.some_inj, Real.sqrt_eq_one, div_eq_one_iff_eq hpos.ne']
    constructor
    · intro h
      rw [Real.sqrt_mul pi.le] at h
      have hl := sumProd_cauchy_eq pj h
      set k := Real.sqrt (sumProd (centre (pairDist (X i))) (centre (pairDist (X i)))) / Real.sqrt (sumProd (centre (pairDist (X j))) (centre (pairDist (X j)))) with hk
      have hkpos : 0 < k := div_pos (Real.sqrt_pos.2 pi) (Real.sqrt_pos.2 pj)
      refine line_isometry hkpos (fun s t => ?_) hj
      have h1 := centre_recover (X i) s t
      have h2 := centre_recover (X j) s t
      rw [hl, hl, hl] at h1
      have h3 : pairDist (X i) s t = k * pairDist (X j) s t := by rw [h1, h2]; ring
      exact h3
    · rintro ⟨a, b, ha, h⟩
      have hp : pairDist (X i) = fun s t => |a| * pairDist (X j) s t := by
        funext s t
        unfold pairDist
        rw [h s, h t, ← abs_mul]
        congr 1
        ring
      have hc : centre (pairDist (X i)) = fun s t => |a| * centre (pairDist (X j)) s t := by
        funext s t
        rw [hp, centre_smul]
      have s1 : sumProd (centre (pairDist (X i))) (centre (pairDist (X j))) = |a| * sumProd (centre (pairDist (X j))) (centre (pairDist (X j))) := by
        rw [hc]
        unfold sumProd
        rw [mul_sum]
        refine sum_congr rfl fun s _ => ?_
        rw [mul_sum]
        exact sum_congr rfl fun t _ => by ring
      have s2 : sumProd (centre (pairDist (X i))) (centre (pairDist (X i))) = |a| * |a| * sumProd (centre (pairDist (X j))) (centre (pairDist (X j))) := by
        rw [hc]
        unfold sumProd
        rw [mul_sum]
        refine sum_congr rfl fun s _ => ?_
        rw [mul_sum]
        exact sum_congr rfl fun t _ => by ring
      rw [s1, s2]
      generalize sumProd (centre (pairDist (X j))) (centre (pairDist (X j))) = D at pj
      rw [show |a| * |a| * D * D = (|a| * D) * (|a| * D) by ring, Real.sqrt_mul_self (mul_nonneg (abs_nonneg a) pj.le)]
  refine ⟨hz, ?_⟩
  rw [← hz]
  obtain ⟨h0, h1, hd⟩ := C85_bounds th X i j _ e
  rw [hd, e, Option.some_inj, Option.some_inj, Real.sqrt_eq_zero (by linarith)]
  constructor <;> intro h <;> linarith

/-- **C85.** The result does not depend on the units of the returns, nor on their signs: neither matrix changes under affine transformations of the assets. -/
theorem C85_affine (th : ℝ) (X : Fin n → Fin (N + 1) → ℝ) (a b : Fin n → ℝ) (ha : ∀ i, a i ≠ 0) :
    dcorrFit th (fun i s => a i * X i s + b i) = dcorrFit th X := by
  have hc : ∀ i, centre (pairDist fun s => a i * X i s + b i) = fun s t => |a i| * centre (pairDist (X i)) s t := by
    intro i
    have hp : pairDist (fun s => a i * X i s + b i) = fun s t => |a i| * pairDist (X i) s t := by
      funext s t
      unfold pairDist
      rw [← abs_mul]
      congr 1
      ring
    funext s t
    rw [hp, centre_smul]
  have hs : ∀ i j, sumProd (centre (pairDist fun s => a i * X i s + b i)) (centre (pairDist fun s => a j * X j s + b j)) =
      |a i| * |a j| * sumProd (centre (pairDist (X i))) (centre (pairDist (X j))) := by
    intro i j
    rw [hc, hc]
    unfold sumProd
    rw [mul_sum]
    refine sum_congr rfl fun s _ => ?_
    rw [mul_sum]
    exact sum_congr rfl fun t _ => by ring
  have hne : ∀ i s t, (a i * X i s + b i ≠ a i * X i t + b i) ↔ X i s ≠ X i t := by
    intro i s t
    rw [Ne, add_left_inj, mul_right_inj' (ha i)]
  have hd : ∀ i j, dcorr (fun s => a i * X i s + b i) (fun s => a j * X j s + b j) = dcorr (X i) (X j) := by
    intro i j
    rw [dcorr_eq, dcorr_eq, hs, hs, hs]
    simp only [hne]
    congr 2
    have pi : 0 < |a i| := abs_pos.2 (ha i)
    have pj : 0 < |a j| := abs_pos.2 (ha j)
    rw [Real.sqrt_mul (mul_self_nonneg _), Real.sqrt_mul (mul_self_nonneg _), Real.sqrt_mul_self pi.le, Real.sqrt_mul_self pj.le,
      show ∀ u v : ℝ, |a i| * u * (|a j| * v) = |a i| * |a j| * (u * v) from fun u v => by ring,
      Real.sqrt_mul (mul_pos pi pj).le, Real.sqrt_mul (mul_pos pi pj).le, mul_div_mul_left _ _ (Real.sqrt_pos.2 (mul_pos pi pj)).ne']
  unfold dcorrFit
  simp only [hd]

/-! #### the distance is not a metric -/

/-- Two assets independent of each other, and an asset depending on both. -/
def triple : Fin 3 → Fin 4 → ℝ := ![![0, 0, 1, 1], ![0, 1, 2, 3], ![0, 1, 0, 1]]

theorem triple_sums : sumProd (N := 3) (centre (pairDist (triple 0))) (centre (pairDist (triple 0))) = 4 ∧
    sumProd (N := 3) (centre (pairDist (triple 1))) (centre (pairDist (triple 1))) = 13 ∧
    sumProd (N := 3) (centre (pairDist (triple 2))) (centre (pairDist (triple 2))) = 4 ∧
    sumProd (N := 3) (centre (pairDist (triple 0))) (centre (pairDist (triple 1))) = 6 ∧
    sumProd (N := 3) (centre (pairDist (triple 1))) (centre (pairDist (triple 2))) = 2 ∧
    sumProd (N := 3) (centre (pairDist (triple 0))) (centre (pairDist (triple 2))) = 0 := by
  have abs2 : |(-2 : ℝ)| = 2 := by norm_num
  have abs3 : |(-3 : ℝ)| = 3 := by norm_num
  have four : ∀ f : Fin (3 + 1) → ℝ, ∑ i, f i = f 0 + f 1 + f 2 + f 3 := Fin.sum_univ_four
  refine ⟨?_, ?_, ?_, ?_, ?_, ?_⟩ <;>
  · simp only [sumProd, centre, pairDist, triple, four, Matrix.cons_val]
    norm_num [abs2, abs3]

theorem triple_varies (i : Fin 3) : ∃ s t, triple i s ≠ triple i t := by
  refine ⟨0, 3, ?_⟩
  fin_cases i <;> simp [triple]

/-- **C85** (negated). The distance is not a metric: `d(0, 1) + d(1, 2) < d(0, 2)` for these assets. -/
theorem C85_not_metric (th : ℝ) : ∃ d01 d12 d02 : ℝ, (dcorrFit (N := 3) th triple).2 0 1 = some d01 ∧ (dcorrFit (N := 3) th triple).2 1 2 = some d12 ∧
    (dcorrFit (N := 3) th triple).2 0 2 = some d02 ∧ d01 + d12 < d02 := by
  obtain ⟨s0, s1, s2, s01, s12, s02⟩ := triple_sums
  have f01 := (C85_formula (N := 3) th triple 0 1 (by decide)).2 (triple_varies 0) (triple_varies 1)
  have f12 := (C85_formula (N := 3) th triple 1 2 (by decide)).2 (triple_varies 1) (triple_varies 2)
  have f02 := (C85_formula (N := 3) th triple 0 2 (by decide)).2 (triple_varies 0) (triple_varies 2)
  refine ⟨_, _, _, (C85_bounds th triple 0 1 _ f01).2.2, (C85_bounds th triple 1 2 _ f12).2.2, (C85_bounds th triple 0 2 _ f02).2.2, ?_⟩
  rw [s0, s1, s2, s01, s12, s02]
  have r : Real.sqrt (4 * 13) ≤ 7.2112 := by
    rw [Real.sqrt_le_left (by norm_num)]; norm_num
  have rpos : 0 < Real.sqrt (4 * 13) := Real.sqrt_pos.2 (by norm_num)
  have e1 : (91 / 100 : ℝ) ≤ Real.sqrt (6 / Real.sqrt (4 * 13)) := by
    apply Real.le_sqrt_of_sq_le
    rw [le_div_iff₀ rpos]
    nlinarith
  have e2 : (5239 / 10000 : ℝ) ≤ Real.sqrt (2 / Real.sqrt (13 * 4)) := by
    apply Real.le_sqrt_of_sq_le
    rw [mul_comm (13 : ℝ), le_div_iff₀ rpos]
    nlinarith
  have d1 : Real.sqrt (1 - Real.sqrt (6 / Real.sqrt (4 * 13))) ≤ 3 / 10 := by
    rw [Real.sqrt_le_left (by norm_num)]; linarith
  have d2 : Real.sqrt (1 - Real.sqrt (2 / Real.sqrt (13 * 4))) ≤ 69 / 100 := by
    rw [Real.sqrt_le_left (by norm_num)]; linarith
  rw [zero_div, Real.sqrt_zero, sub_zero, Real.sqrt_one]
  linarith

/-- The hypotheses of `C85_zero_iff` and `C85_one_iff` are met, and both sides of the first hold, for the first and the third of these assets. -/
example (th : ℝ) : (dcorrFit (N := 3) th triple).1 0 2 = some 0 ∧ Independent (N := 3) (triple 0) (triple 2) := by
  have h := (sumProd_zero_iff (triple 0) (triple 2)).1 triple_sums.2.2.2.2.2
  exact ⟨(C85_zero_iff (N := 3) th triple 0 2 (by decide) (triple_varies 0) (triple_varies 2)).1.2 h, h⟩

/-- A dependence without correlation: the returns 0, -1, 1 and their squares. -/
example : ¬ Independent (N := 2) ![0, -1, 1] ![0, 1, 1] := by
  intro h
  have := h 0 0
  have e1 : (univ.filter fun s : Fin 3 => (![0, -1, 1] : Fin 3 → ℝ) s ≤ 0 ∧ (![0, 1, 1] : Fin 3 → ℝ) s ≤ 0) = {0} := by
    ext s; fin_cases s <;> simp
  have e2 : (univ.filter fun s : Fin 3 => (![0, -1, 1] : Fin 3 → ℝ) s ≤ 0) = {0, 1} := by
    ext s; fin_cases s <;> simp
  have e3 : (univ.filter fun s : Fin 3 => (![0, 1, 1] : Fin 3 → ℝ) s ≤ 0) = {0} := by
    ext s; fin_cases s <;> simp
  rw [e1, e2, e3] at this
  simp at this

/-- **C85** (negated). `threshold` changes nothing. -/
theorem C85_threshold (th th' : ℝ) (X : Fin n → Fin (N + 1) → ℝ) : dcorrFit th X = dcorrFit th' X := rfl

end Skfolio.Distance
