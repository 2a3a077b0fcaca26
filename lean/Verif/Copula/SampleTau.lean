import Verif.Copula.FitModel
import Verif.Copula.FitSpec
import Mathlib.Algebra.Order.BigOperators.Ring.Finset
import Mathlib.Tactic.ByContra

/-!
Kendall's tau of a sample.
-/
set_option autoImplicit false

namespace Skfolio.Copula

open Skfolio.ModelSelection (Flt)

theorem pairSum_eq {A : Type} (f : A → A → ℝ) (l : List A) : pairSum f l = ∑ p ∈ places l.length, f l[p.1] l[p.2] := by
  unfold places
  rw [Finset.sum_filter, Fintype.sum_prod_type]
  induction l with
  | nil => simp [pairSum]
  | cons a l ih =>
    rw [pairSum, ih]
    simp only [List.length_cons, Fin.sum_univ_succ, lt_self_iff_false, if_false, zero_add, Fin.succ_pos, if_true, Fin.not_lt_zero, Fin.succ_lt_succ_iff]
    congr 1
    rw [← List.sum_ofFn]
    congr 1
    refine List.ext_getElem (by simp) fun i h1 h2 => ?_
    simp

theorem sgn_sq (a b : ℝ) : sgn a b ^ 2 = if a ≠ b then 1 else 0 := by
  unfold sgn
  rcases lt_trichotomy a b with h | h | h
  · simp [h, h.ne]
  · simp [h]
  · simp [h, h.ne', not_lt.2 h.le]

open Classical in
theorem sgn_mul (a b : ℝ × ℝ) : sgn a.1 b.1 * sgn a.2 b.2 = (if Concordant a b then 1 else 0) - (if Discordant a b then 1 else 0) := by
  unfold sgn Concordant Discordant
  rcases lt_trichotomy a.1 b.1 with h | h | h <;> rcases lt_trichotomy a.2 b.2 with k | k | k <;> simp [h, k, not_lt.2 h.le, not_lt.2 k.le]

theorem sgn_neg (a b : ℝ) : sgn (1 - a) (1 - b) = -sgn a b := by
  unfold sgn
  rcases lt_trichotomy a b with h | h | h
  · simp [h, not_lt.2 h.le]
  · simp [h]
  · simp [h, not_lt.2 h.le]

open Classical in
theorem pairSum_count (X : List (ℝ × ℝ)) :
    pairSum (fun a b => sgn a.1 b.1 * sgn a.2 b.2) X = countPairs X Concordant - countPairs X Discordant ∧
    pairSum (fun a b => sgn a.1 b.1 ^ 2) X = countPairs X (fun a b => a.1 ≠ b.1) ∧ pairSum (fun a b => sgn a.2 b.2 ^ 2) X = countPairs X (fun a b => a.2 ≠ b.2) := by
  simp only [pairSum_eq, sgn_mul, sgn_sq, Finset.sum_sub_distrib, countPairs, Finset.sum_boole]
  exact ⟨trivial, trivial, trivial⟩

theorem count_zero_iff (X : List (ℝ × ℝ)) (P : ℝ × ℝ → ℝ × ℝ → Prop) : countPairs X P = 0 ↔ ∀ ⦃p⦄, p ∈ places X.length → ¬P X[p.1] X[p.2] := by
  unfold countPairs
  classical rw [Finset.card_eq_zero, Finset.filter_eq_empty_iff]

theorem count_zero (X : List (ℝ × ℝ)) (f : ℝ × ℝ → ℝ) : countPairs X (fun a b => f a ≠ f b) = 0 ↔ ∀ a ∈ X, ∀ b ∈ X, f a = f b := by
  rw [count_zero_iff]
  constructor
  · intro h a ha b hb
    obtain ⟨i, hi, rfl⟩ := List.mem_iff_getElem.1 ha
    obtain ⟨j, hj, rfl⟩ := List.mem_iff_getElem.1 hb
    rcases lt_trichotomy i j with k | k | k
    · have := h (p := (⟨i, hi⟩, ⟨j, hj⟩)) (by simp [places, k])
      simpa using this
    · subst k; rfl
    · have := h (p := (⟨j, hj⟩, ⟨i, hi⟩)) (by simp [places, k])
      simp only [ne_eq, not_not] at this
      exact this.symm
  · intro h p _
    rw [not_not]
    exact h _ (List.getElem_mem _) _ (List.getElem_mem _)

theorem cauchy (X : List (ℝ × ℝ)) : pairSum (fun a b => sgn a.1 b.1 * sgn a.2 b.2) X ^ 2 ≤ pairSum (fun a b => sgn a.1 b.1 ^ 2) X * pairSum (fun a b => sgn a.2 b.2 ^ 2) X := by
  simp only [pairSum_eq]
  exact Finset.sum_mul_sq_le_sq_mul_sq _ _ _

/-- **C90.** Kendall's tau of the data is NaN exactly if a column is constant, and otherwise the number of concordant less the number of discordant pairs, corrected for ties, between
minus one and one. -/
theorem C90_sample_tau (X : List (ℝ × ℝ)) :
    (kendalltau X = .nan ↔ (∀ a ∈ X, ∀ b ∈ X, a.1 = b.1) ∨ ∀ a ∈ X, ∀ b ∈ X, a.2 = b.2) ∧
    (∀ t, kendalltau X = .fin t ↔ IsSampleTau X t) ∧ (∀ t, IsSampleTau X t → |t| ≤ 1) ∧ (kendalltau X = .nan ∨ ∃ t, kendalltau X = .fin t) := by
  obtain ⟨e1, e2, e3⟩ := pairSum_count X
  have z2 : pairSum (fun a b => sgn a.1 b.1 ^ 2) X = 0 ↔ ∀ a ∈ X, ∀ b ∈ X, a.1 = b.1 := by
    rw [e2, Nat.cast_eq_zero]
    exact count_zero X Prod.fst
  have z3 : pairSum (fun a b => sgn a.2 b.2 ^ 2) X = 0 ↔ ∀ a ∈ X, ∀ b ∈ X, a.2 = b.2 := by
    rw [e3, Nat.cast_eq_zero]
    exact count_zero X Prod.snd
  have hc := cauchy X
  have n2 : 0 ≤ pairSum (fun a b => sgn a.1 b.1 ^ 2) X := by rw [e2]; exact Nat.cast_nonneg _
  have n3 : 0 ≤ pairSum (fun a b => sgn a.2 b.2 ^ 2) X := by rw [e3]; exact Nat.cast_nonneg _
  have spec : ∀ t, IsSampleTau X t ↔ ¬(pairSum (fun a b => sgn a.1 b.1 ^ 2) X = 0 ∨ pairSum (fun a b => sgn a.2 b.2 ^ 2) X = 0) ∧
      t = pairSum (fun a b => sgn a.1 b.1 * sgn a.2 b.2) X / Real.sqrt (pairSum (fun a b => sgn a.1 b.1 ^ 2) X) / Real.sqrt (pairSum (fun a b => sgn a.2 b.2 ^ 2) X) := by
    intro t
    unfold IsSampleTau
    rw [z2, z3, ← e1, ← e2, ← e3, Real.sqrt_mul n2, div_div]
    push Not
    exact ⟨fun ⟨a, b, c⟩ => ⟨⟨a, b⟩, c⟩, fun ⟨⟨a, b⟩, c⟩ => ⟨a, b, c⟩⟩
  unfold kendalltau
  simp only
  generalize pairSum (fun a b => sgn a.1 b.1 ^ 2) X = nx at z2 hc n2 spec ⊢
  generalize pairSum (fun a b => sgn a.2 b.2 ^ 2) X = ny at z3 hc n3 spec ⊢
  generalize pairSum (fun a b => sgn a.1 b.1 * sgn a.2 b.2) X = s at hc spec ⊢
  have bound : ¬(nx = 0 ∨ ny = 0) → |s / Real.sqrt nx / Real.sqrt ny| ≤ 1 := by
    intro hn
    push Not at hn
    have p2 := Real.sqrt_pos.2 (lt_of_le_of_ne n2 hn.1.symm)
    have p3 := Real.sqrt_pos.2 (lt_of_le_of_ne n3 hn.2.symm)
    rw [div_div, abs_div, abs_of_pos (mul_pos p2 p3), div_le_one (mul_pos p2 p3), ← Real.sqrt_mul n2]
    exact Real.abs_le_sqrt hc
  refine ⟨?_, ?_, ?_, ?_⟩
  · rw [← z2, ← z3]
    split_ifs with h <;> simp [h]
  · intro t
    rw [spec]
    split_ifs with h
    · simp [h]
    · have := abs_le.1 (bound h)
      rw [min_eq_right this.2, max_eq_right this.1]
      simp only [Flt.fin.injEq, not_false_eq_true, h, true_and]
      exact eq_comm
  · intro t ht
    obtain ⟨hn, rfl⟩ := (spec t).1 ht
    exact bound hn
  · split_ifs
    · exact Or.inl rfl
    · exact Or.inr ⟨_, rfl⟩

theorem pairSum_map {A B : Type} (f : B → B → ℝ) (k : A → B) (l : List A) : pairSum f (l.map k) = pairSum (fun a b => f (k a) (k b)) l := by
  induction l with
  | nil => rfl
  | cons a l ih => simp [pairSum, ih, Function.comp_def]

theorem pairSum_neg {A : Type} (f : A → A → ℝ) (l : List A) : pairSum (fun a b => -f a b) l = -pairSum f l := by
  induction l with
  | nil => simp [pairSum]
  | cons a l ih =>
    have : ∀ m : List A, (m.map fun b => -f a b).sum = -(m.map (f a)).sum := by
      intro m
      induction m with
      | nil => simp
      | cons b m ih => simp [ih, add_comm]
    simp [pairSum, ih, this, add_comm]

/-- The negative of a float. -/
def negFlt : Flt ℝ → Flt ℝ
  | .nan => .nan
  | .ninf => .pinf
  | .pinf => .ninf
  | .fin x => .fin (-x)

theorem clamp_neg (x : ℝ) : max (-1) (min 1 (-x)) = -max (-1) (min 1 x) := by
  rcases le_total x 1 with h | h <;> rcases le_total (-1) x with k | k
  · rw [min_eq_right h, max_eq_right k, min_eq_right (by linarith), max_eq_right (by linarith)]
  · rw [min_eq_right h, max_eq_left k, min_eq_left (by linarith), max_eq_right (by norm_num)]
    norm_num
  · rw [min_eq_left h, min_eq_right (by linarith : -x ≤ 1), max_eq_left (by linarith : -x ≤ -1), max_eq_right (by norm_num : (-1 : ℝ) ≤ 1)]
  · linarith

/-- **C90.** Strictly increasing transformations of the columns keep the tau; the half turn keeps it and the quarter turns change its sign. -/
theorem C90_sample_invariant (X : List (ℝ × ℝ)) :
    (∀ f k : ℝ → ℝ, StrictMono f → StrictMono k → kendalltau (X.map fun x => (f x.1, k x.2)) = kendalltau X) ∧
    kendalltau (X.map (applyRotation .r180)) = kendalltau X ∧ kendalltau (X.map (applyRotation .r90)) = negFlt (kendalltau X) ∧
    kendalltau (X.map (applyRotation .r270)) = negFlt (kendalltau X) := by
  have s := fun a b : ℝ => show sgn a b = -sgn b a by unfold sgn; rcases lt_trichotomy a b with h | h | h <;> simp [h, not_lt.2 h.le]
  refine ⟨?_, ?_, ?_, ?_⟩
  · intro f k hf hk
    have ef : ∀ a b, sgn (f a) (f b) = sgn a b := fun a b => by simp only [sgn, hf.lt_iff_lt]
    have ek : ∀ a b, sgn (k a) (k b) = sgn a b := fun a b => by simp only [sgn, hk.lt_iff_lt]
    simp only [kendalltau, pairSum_map, ef, ek]
  · simp only [kendalltau, pairSum_map, applyRotation, sgn_neg, neg_mul_neg, neg_sq]
  · simp only [kendalltau, pairSum_map, applyRotation, sgn_neg, neg_sq, mul_neg, pairSum_neg]
    simp only [mul_comm (sgn (_ : ℝ × ℝ).2 _), or_comm (a := pairSum (fun a b => sgn a.2 b.2 ^ 2) X = 0)]
    split_ifs with h
    · rfl
    · simp only [negFlt, neg_div, clamp_neg, Flt.fin.injEq, neg_inj]
      rw [div_right_comm]
  · simp only [kendalltau, pairSum_map, applyRotation, sgn_neg, neg_sq, neg_mul, pairSum_neg]
    simp only [mul_comm (sgn (_ : ℝ × ℝ).2 _), or_comm (a := pairSum (fun a b => sgn a.2 b.2 ^ 2) X = 0)]
    split_ifs with h
    · rfl
    · simp only [negFlt, neg_div, clamp_neg, Flt.fin.injEq, neg_inj]
      rw [div_right_comm]

end Skfolio.Copula
