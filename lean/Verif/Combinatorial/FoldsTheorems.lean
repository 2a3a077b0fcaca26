import Verif.Combinatorial.FoldsModel
import Verif.Combinatorial.Lemmas
import Mathlib.Tactic.Linarith
import Mathlib.Tactic.Positivity
import Mathlib.Tactic.NormNum
import Mathlib.Tactic.Ring
import Mathlib.Tactic.FieldSimp
import Mathlib.Data.Rat.Cast.Order
import Mathlib.Data.Nat.Choose.Sum

/-! **C44**: `optimal_folds_number` returns the best pair, unless the weights are extreme. -/
set_option autoImplicit false

namespace Skfolio.Combinatorial

section
variable {K : Type} [Field K] [LinearOrder K]

omit [Field K] in
theorem firstMin_spec {α : Type} (l : List (K × α)) : (l = [] ∧ firstMin l = none) ∨ ∃ a ∈ l, firstMin l = some a ∧ ∀ b ∈ l, a.1 ≤ b.1 := by
  induction l with
  | nil => exact Or.inl ⟨rfl, rfl⟩
  | cons c l ih =>
    right
    rcases ih with ⟨rfl, h⟩ | ⟨a, ha, h, hm⟩
    · exact ⟨c, by simp, by simp [firstMin], by simp⟩
    · by_cases hc : a.1 < c.1
      · refine ⟨a, by simp [ha], by simp [firstMin, h, hc], ?_⟩
        intro b hb
        rcases List.mem_cons.1 hb with rfl | hb
        · exact hc.le
        · exact hm b hb
      · refine ⟨c, by simp, by simp [firstMin, h, hc], ?_⟩
        intro b hb
        rcases List.mem_cons.1 hb with rfl | hb
        · exact le_refl _
        · exact (not_lt.1 hc).trans (hm b hb)

theorem scan_mem (cost : ℕ → ℕ → K) (x : ℕ) (i : Option ℕ) (ys : List ℕ) : ∀ a ∈ scanRow cost x i ys, ∃ y ∈ ys, a = (cost x y, x, y) := by
  induction ys generalizing i with
  | nil => cases i <;> simp [scanRow]
  | cons y ys ih =>
    intro a ha
    cases i with
    | none =>
      rw [scanRow, List.mem_cons] at ha
      rcases ha with rfl | ha
      · exact ⟨y, by simp, rfl⟩
      · obtain ⟨z, hz, e⟩ := ih _ a ha
        exact ⟨z, by simp [hz], e⟩
    | some i =>
      rw [scanRow] at ha
      split_ifs at ha
      · rw [List.mem_cons] at ha
        rcases ha with rfl | ha
        · exact ⟨y, by simp, rfl⟩
        · obtain ⟨z, hz, e⟩ := ih _ a ha
          exact ⟨z, by simp [hz], e⟩
      · obtain ⟨z, hz, e⟩ := ih _ a ha
        exact ⟨z, by simp [hz], e⟩

theorem scan_skip (cost : ℕ → ℕ → K) (x : ℕ) (i : Option ℕ) (ys : List ℕ) (hs : ys.Pairwise (· < ·)) (hi : ∀ j, i = some j → cost x j > 100000 ∧ ∀ y ∈ ys, j < y) :
    ∀ y ∈ ys, (cost x y, x, y) ∈ scanRow cost x i ys ∨ ∃ j, (j ∈ ys ∨ i = some j) ∧ cost x j > 100000 ∧ j < y ∧ j < x - y := by
  induction ys generalizing i with
  | nil => simp
  | cons z ys ih =>
    rw [List.pairwise_cons] at hs
    intro y hy
    cases i with
    | none =>
      rw [scanRow]
      rcases List.mem_cons.1 hy with rfl | hy
      · exact Or.inl (by simp)
      · rcases ih (if cost x z > 100000 then some z else none) hs.2 (by
          intro j hj
          split_ifs at hj with hc
          · cases hj
            exact ⟨hc, hs.1⟩) y hy with h | ⟨j, hj, h1, h2⟩
        · exact Or.inl (by simp [h])
        · refine Or.inr ⟨j, ?_, h1, h2⟩
          rcases hj with hj | hj
          · exact Or.inl (by simp [hj])
          · split_ifs at hj
            cases hj
            exact Or.inl (by simp)
    | some i =>
      obtain ⟨c, hlt⟩ := hi i rfl
      rw [scanRow]
      rcases List.mem_cons.1 hy with rfl | hy
      · by_cases hc : x - y ≤ i
        · exact Or.inl (by simp [hc])
        · exact Or.inr ⟨i, Or.inr rfl, c, hlt y (by simp), by omega⟩
      · rcases ih (some i) hs.2 (by rintro j hj; cases hj; exact ⟨c, fun w hw => hlt w (by simp [hw])⟩) y hy with h | ⟨j, hj, h1, h2⟩
        · left
          split_ifs
          · simp [h]
          · exact h
        · refine Or.inr ⟨j, ?_, h1, h2⟩
          rcases hj with hj | hj
          · exact Or.inl (by simp [hj])
          · exact Or.inr hj

/-- An admissible pair: what the loops of `optimal_folds_number` range over. -/
def Admissible (n x y : ℕ) : Prop := 3 ≤ x ∧ x ≤ n ∧ 2 ≤ y ∧ y < x

/-- The search is right if every skipped pair is worse than some pair that is not skipped. -/
theorem search_spec (cost : ℕ → ℕ → K) (n : ℕ) (hn : 3 ≤ n) (best : K) (hb : cost 3 2 ≤ best) (hskip : ∀ x j y, Admissible n x y → Admissible n x j → cost x j > 100000 → j < y → j < x - y → best ≤ cost x y) :
    ∃ x y, searchFolds cost n = some (x, y) ∧ Admissible n x y ∧ ∀ x' y', Admissible n x' y' → cost x y ≤ cost x' y' := by
  obtain ⟨L, hL⟩ : ∃ L, L = (List.range' 3 (n + 1 - 3)).flatMap fun x => scanRow cost x none (List.range' 2 (x - 2)) := ⟨_, rfl⟩
  have hmem : ∀ a ∈ L, ∃ x y, Admissible n x y ∧ a = (cost x y, x, y) := by
    intro a ha
    rw [hL, List.mem_flatMap] at ha
    obtain ⟨x, hx, ha⟩ := ha
    obtain ⟨y, hy, rfl⟩ := scan_mem cost x _ _ a ha
    rw [List.mem_range'_1] at hx hy
    exact ⟨x, y, ⟨by omega, by omega, by omega, by omega⟩, rfl⟩
  have hall : ∀ x y, Admissible n x y → (cost x y, x, y) ∈ L ∨ best ≤ cost x y := by
    intro x y h
    have hy : y ∈ List.range' 2 (x - 2) := by
      rw [List.mem_range'_1]
      have := h.1
      have := h.2.2.1
      have := h.2.2.2
      omega
    rcases scan_skip cost x none (List.range' 2 (x - 2)) List.pairwise_lt_range' (by simp) y hy with h1 | ⟨j, hj, h1, h2, h3⟩
    · left
      rw [hL, List.mem_flatMap]
      refine ⟨x, ?_, h1⟩
      rw [List.mem_range'_1]
      have := h.1
      have := h.2.1
      omega
    · right
      have hj' : j ∈ List.range' 2 (x - 2) := by simpa using hj
      rw [List.mem_range'_1] at hj'
      exact hskip x j y h ⟨h.1, h.2.1, by omega, by have := h.1; omega⟩ h1 h2 h3
  have h32 : Admissible n 3 2 := ⟨le_rfl, hn, le_rfl, by omega⟩
  rcases firstMin_spec L with ⟨e, _⟩ | ⟨a, ha, h1, h2⟩
  · exfalso
    rcases scan_skip cost 3 none (List.range' 2 1) List.pairwise_lt_range' (by simp) 2 (by simp) with h | ⟨j, hj, _, h, _⟩
    · have : (cost 3 2, 3, 2) ∈ L := by
        rw [hL, List.mem_flatMap]
        exact ⟨3, by rw [List.mem_range'_1]; omega, h⟩
      rw [e] at this
      simp at this
    · simp at hj
      omega
  · obtain ⟨x, y, hxy, rfl⟩ := hmem a ha
    refine ⟨x, y, by rw [searchFolds, ← hL, h1]; rfl, hxy, ?_⟩
    have h32' : cost x y ≤ cost 3 2 := by
      have : (cost 3 2, 3, 2) ∈ L := by
        rw [hL, List.mem_flatMap]
        refine ⟨3, by rw [List.mem_range'_1]; omega, ?_⟩
        simp [scanRow]
      exact h2 _ this
    intro x' y' h
    rcases hall x' y' h with h | h
    · exact h2 _ h
    · exact h32'.trans (hb.trans h)

end

theorem choose_mono_half {n a b : ℕ} (hab : a ≤ b) (hb : b ≤ n / 2) : n.choose a ≤ n.choose b := by
  induction b, hab using Nat.le_induction with
  | base => exact le_rfl
  | succ b hab ih => exact (ih (by omega)).trans (Nat.choose_le_succ_of_lt_half_left (by omega))

theorem choose_unimodal {n a b : ℕ} (h1 : a ≤ b) (h2 : a ≤ n - b) (hb : b ≤ n) : n.choose a ≤ n.choose b := by
  rcases Nat.lt_or_ge (n / 2) b with h | h
  · rw [← Nat.choose_symm hb]
    exact choose_mono_half h2 (by omega)
  · exact choose_mono_half h1 h

section
variable {K : Type} [Field K] [LinearOrder K] [IsStrictOrderedRing K]

theorem avg_bounds {n x y : ℕ} (h : Admissible n x y) : 0 ≤ (avgTrainSize n x y : K) ∧ (avgTrainSize n x y : K) ≤ n := by
  have hx : (0 : K) < x := by exact_mod_cast (by have := h.1; omega : 0 < x)
  have hy : (0 : K) ≤ (x : K) - y := sub_nonneg.2 (by exact_mod_cast h.2.2.2.le)
  have hy' : (x : K) - y ≤ x := sub_le_self _ (by positivity)
  unfold avgTrainSize
  refine ⟨mul_nonneg (by positivity) hy, ?_⟩
  calc (n : K) / x * ((x : K) - y) ≤ (n : K) / x * x := mul_le_mul_of_nonneg_left hy' (by positivity)
    _ = n := by field_simp

/-- The distance from the target train size is bounded. -/
theorem train_part {n x y : ℕ} (h : Admissible n x y) {F w : K} (hF : 0 < F) (hw : 0 ≤ w) : 0 ≤ w * |avgTrainSize n x y - F| / F ∧ w * |avgTrainSize n x y - F| / F ≤ w * max 1 (n / F) := by
  obtain ⟨h0, h1⟩ := avg_bounds (K := K) h
  refine ⟨by positivity, ?_⟩
  rw [mul_div_assoc]
  refine mul_le_mul_of_nonneg_left ?_ hw
  rw [div_le_iff₀ hF, abs_le]
  have m1 : F ≤ max 1 ((n : K) / F) * F := by
    calc F = 1 * F := (one_mul F).symm
      _ ≤ _ := mul_le_mul_of_nonneg_right (le_max_left _ _) hF.le
  have m2 : (n : K) ≤ max 1 ((n : K) / F) * F := by
    calc (n : K) = n / F * F := by field_simp
      _ ≤ _ := mul_le_mul_of_nonneg_right (le_max_right _ _) hF.le
  constructor <;> linarith

/-- **C44.** If the weights are not extreme — the weight of the number of test paths plus twice the weight of the train size times `max(1, n_observations / target_train_size)` is at most 1e5, the limit above which the search skips — then
`optimal_folds_number` returns a pair of numbers of folds that minimises the documented cost among all admissible pairs. -/
theorem C44_optimal_partial {n : ℕ} (hn : 3 ≤ n) {F t wF wt : K} (hF : 0 < F) (ht : 1 ≤ t) (hwF : 0 ≤ wF) (hwt : 0 ≤ wt) (hw : wt + 2 * (wF * max 1 (n / F)) ≤ 100000) :
    ∃ x y, optimalFoldsNumber n F t wF wt = some (x, y) ∧ Admissible n x y ∧
      ∀ x' y', Admissible n x' y' → foldsCost n F t wF wt x y ≤ wt * |(Nat.choose (x' - 1) (y' - 1) : K) - t| / t + wF * |(n : K) / x' * ((x' : K) - y') - F| / F := by
  have ht0 : 0 < t := by linarith
  have hpaths : ∀ x y, Admissible n x y → nTestPaths x y = Nat.choose (x - 1) (y - 1) := by
    intro x y h
    obtain ⟨k, rfl⟩ : ∃ k, y = k + 1 := ⟨y - 1, by have := h.2.2.1; omega⟩
    rw [nTestPaths_eq (by have := h.1; omega)]
    rfl
  obtain ⟨B, hB⟩ : ∃ B : K, B = wF * max 1 (n / F) := ⟨_, rfl⟩
  rw [← hB] at hw
  have hB0 : 0 ≤ B := by
    rw [hB]
    exact mul_nonneg hwF (le_trans zero_le_one (le_max_left _ _))
  have hcost : ∀ x y, Admissible n x y → foldsCost n F t wF wt x y = wt * |(Nat.choose (x - 1) (y - 1) : K) - t| / t + wF * |avgTrainSize n x y - F| / F := by
    intro x y h
    rw [foldsCost, hpaths x y h]
  have h32 : Admissible n 3 2 := ⟨le_rfl, hn, le_rfl, by omega⟩
  have hbest : foldsCost n F t wF wt 3 2 ≤ wt + B := by
    rw [hcost 3 2 h32]
    have h1 : wt * |(Nat.choose 2 1 : K) - t| / t ≤ wt := by
      rw [mul_div_assoc]
      refine mul_le_of_le_one_right hwt ?_
      rw [div_le_one ht0, abs_le]
      have : ((Nat.choose 2 1 : ℕ) : K) = 2 := by norm_num
      rw [this]
      constructor <;> linarith
    have h2 := (train_part h32 hF hwF (K := K)).2
    rw [← hB] at h2
    exact add_le_add h1 h2
  obtain ⟨x, y, e, h1, h2⟩ := search_spec (foldsCost n F t wF wt) n hn (wt + B) hbest (by
    intro x j y hy hj hc hjy hxy
    rw [hcost x j hj] at hc
    rw [hcost x y hy]
    have tj := (train_part hj hF hwF (K := K)).2
    rw [← hB] at tj
    have ty := (train_part hy hF hwF (K := K)).1
    have hmono : (Nat.choose (x - 1) (j - 1) : K) ≤ (Nat.choose (x - 1) (y - 1) : K) := by
      have := hy.2.2.2
      exact_mod_cast choose_unimodal (n := x - 1) (a := j - 1) (b := y - 1) (by omega) (by omega) (by omega)
    have hgt : wt * |(Nat.choose (x - 1) (j - 1) : K) - t| / t > wt + B := by linarith
    have hlarge : t ≤ (Nat.choose (x - 1) (j - 1) : K) := by
      by_contra hlt
      push Not at hlt
      rw [abs_of_neg (by linarith)] at hgt
      have hc0 : (0 : K) ≤ (Nat.choose (x - 1) (j - 1) : K) := by positivity
      have : wt * (-((Nat.choose (x - 1) (j - 1) : K) - t)) / t ≤ wt := by
        rw [mul_div_assoc]
        refine mul_le_of_le_one_right hwt ?_
        rw [div_le_one ht0]
        linarith
      linarith
    rw [abs_of_nonneg (by linarith)] at hgt
    rw [abs_of_nonneg (by linarith)]
    have : wt * ((Nat.choose (x - 1) (j - 1) : K) - t) / t ≤ wt * ((Nat.choose (x - 1) (y - 1) : K) - t) / t := by
      apply div_le_div_of_nonneg_right _ ht0.le
      exact mul_le_mul_of_nonneg_left (by linarith) hwt
    linarith)
  refine ⟨x, y, e, h1, fun x' y' h => ?_⟩
  have := h2 x' y' h
  rw [hcost x' y' h] at this
  exact this

/-- **C44.** With the default weights the search is right whenever there are fewer than 49 999 times as many observations as the target train size, which must be positive. -/
theorem C44_default_weights {n : ℕ} (hn : 3 ≤ n) {F t : ℕ} (hF : 1 ≤ F) (ht : 1 ≤ t) (h : n ≤ 49999 * F) :
    ∃ x y, optimalFoldsNumber n (F : K) t 1 1 = some (x, y) ∧ Admissible n x y ∧
      ∀ x' y', Admissible n x' y' → foldsCost n (F : K) t 1 1 x y ≤ 1 * |(Nat.choose (x' - 1) (y' - 1) : K) - t| / t + 1 * |(n : K) / x' * ((x' : K) - y') - F| / F := by
  have hF' : (0 : K) < F := by exact_mod_cast hF
  refine C44_optimal_partial hn hF' (by exact_mod_cast ht) zero_le_one zero_le_one ?_
  have h1 : (n : K) / F ≤ 49999 := by
    rw [div_le_iff₀ hF']
    exact_mod_cast h
  have h2 : max 1 ((n : K) / F) ≤ 49999 := max_le (by norm_num) h1
  linarith

end

/-- A typical call meets the hypotheses. -/
example : (3 : ℕ) ≤ 1000 ∧ (1 : ℕ) ≤ 252 ∧ (1 : ℕ) ≤ 50 ∧ 1000 ≤ 49999 * 252 := by decide

theorem some_pair {o : Option (ℕ × ℕ)} {f : ℕ → ℕ → ℚ} (h : o.isSome = true ∧ ∀ p, o = some p → 0 < f p.1 p.2) : ∃ x y, o = some (x, y) ∧ 0 < f x y := by
  obtain ⟨⟨x, y⟩, e⟩ := Option.isSome_iff_exists.1 h.1
  exact ⟨x, y, e, h.2 _ e⟩

/-- **C44 fails for extreme weights.** With ten observations, a target of five observations to train, 126 test paths and weight 1e6 on their number, the pair (10, 5) meets both targets exactly, with cost 0; the search skips it, because the cost of (10, 2)
exceeds 1e5, and returns a pair with positive cost. -/
theorem C44_weights_counterexample :
    Admissible 10 10 5 ∧ foldsCost 10 (5 : ℚ) 126 1 1000000 10 5 = 0 ∧ ∃ x y, optimalFoldsNumber 10 (5 : ℚ) 126 1 1000000 = some (x, y) ∧ 0 < foldsCost 10 (5 : ℚ) 126 1 1000000 x y := by
  refine ⟨by unfold Admissible; decide, by decide +kernel, ?_⟩
  exact some_pair (by decide +kernel)

/-- With fewer than three observations there is nothing to search and the code raises. -/
theorem C44_too_few {K : Type} [Field K] [LinearOrder K] (n : ℕ) (hn : n < 3) (F t wF wt : K) : optimalFoldsNumber n F t wF wt = none := by
  have : n + 1 - 3 = 0 := by omega
  simp [optimalFoldsNumber, searchFolds, this, firstMin]

end Skfolio.Combinatorial
