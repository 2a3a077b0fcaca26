import Verif.WalkForward.Model
import Mathlib.Data.List.Basic
import Mathlib.Data.List.Range
import Mathlib.Tactic.Linarith
import Mathlib.Tactic.Ring
import Mathlib.Tactic.SplitIfs

set_option autoImplicit false

namespace Skfolio.WalkForward

theorem drop_range_eq (n a : Nat) : (List.range n).drop a = List.range' a (n - a) := by
  apply List.ext_getElem
  · simp
  · intro i h1 h2; simp

theorem slice_range_eq (n a b : Nat) : slice (List.range n) a b = List.range' a (min b n - a) := by
  unfold slice
  rw [List.take_range, drop_range_eq]

/-- The split whose test set starts at `s`. -/
def mk (p : Params) (n s : Nat) : List Nat × List Nat :=
  let e := s - p.purgedSize
  let a := if p.expendTrain then 0 else e - p.trainSize
  (List.range' a (e - a), List.range' s (min (s + p.testSize) n - s))

/-- Number of splits yielded from `s` on. -/
def num (p : Params) (n s : Nat) : Nat :=
  if p.reduceTest then (n - s + p.testSize - 1) / p.testSize else (n - s) / p.testSize

theorem num_stop (p : Params) (n s : Nat) (hp : 1 ≤ p.testSize)
    (h : s ≥ n ∨ (s + p.testSize > n ∧ p.reduceTest = false)) : num p n s = 0 := by
  unfold num
  split_ifs with hr
  · rcases h with h | h
    · rw [Nat.sub_eq_zero_of_le h]
      exact Nat.div_eq_of_lt (by omega)
    · rw [hr] at h; exact absurd h.2 (by simp)
  · exact Nat.div_eq_of_lt (by omega)

theorem num_step (p : Params) (n s : Nat) (hp : 1 ≤ p.testSize) (h1 : s < n)
    (h2 : ¬ (s + p.testSize > n ∧ p.reduceTest = false)) : num p n s = num p n (s + p.testSize) + 1 := by
  unfold num
  split_ifs with hr
  · by_cases hle : s + p.testSize ≤ n
    · have : n - s + p.testSize - 1 = (n - (s + p.testSize) + p.testSize - 1) + p.testSize := by omega
      rw [this, Nat.add_div_right _ (by omega)]
    · have e1 : n - (s + p.testSize) = 0 := by omega
      rw [e1]
      have e2 : (0 + p.testSize - 1) / p.testSize = 0 := Nat.div_eq_of_lt (by omega)
      rw [e2]
      have : n - s + p.testSize - 1 = (n - s - 1) + p.testSize := by omega
      rw [this, Nat.add_div_right _ (by omega), Nat.div_eq_of_lt (by omega)]
  · have hle : s + p.testSize ≤ n := by
      by_contra h; exact h2 ⟨by omega, by simpa using hr⟩
    have : n - s = (n - (s + p.testSize)) + p.testSize := by omega
    rw [this, Nat.add_div_right _ (by omega)]

theorem loop_eq (p : Params) (n fuel s : Nat) (hp : 1 ≤ p.testSize) (hfuel : n ≤ s + fuel) (hs : p.purgedSize ≤ s) :
    loop p n fuel s = some ((List.range (num p n s)).map (fun k => mk p n (s + k * p.testSize))) := by
  induction fuel generalizing s with
  | zero =>
    unfold loop
    rw [if_pos (by omega), num_stop p n s hp (Or.inl (by omega))]
    simp
  | succ fuel ih =>
    unfold loop
    by_cases h1 : s ≥ n
    · rw [if_pos h1, num_stop p n s hp (Or.inl h1)]; simp
    · rw [if_neg h1]
      simp only
      by_cases h2 : s + p.testSize > n ∧ p.reduceTest = false
      · rw [if_pos h2, num_stop p n s hp (Or.inr h2)]; simp
      · rw [if_neg h2, ih _ (by omega) (by omega), num_step p n s hp (by omega) h2]
        rw [List.range_succ_eq_map]
        simp only [Option.map_some, List.map_cons, List.map_map, Option.some.injEq, List.cons.injEq]
        refine ⟨?_, ?_⟩
        · unfold mk
          simp only [Nat.zero_mul, Nat.add_zero, slice_range_eq, drop_range_eq]
          congr 1
          · congr 1; omega
          · split_ifs with h3
            · rw [min_eq_right (by omega)]
            · rw [min_eq_left (by omega)]
        · apply List.map_congr_left
          intro k _
          simp only [Function.comp]
          congr 1
          rw [Nat.succ_mul]; omega

theorem num_lt (p : Params) (n s k : Nat) (hp : 1 ≤ p.testSize) (hk : k < num p n s) :
    s + k * p.testSize < n ∧ (s + (k + 1) * p.testSize ≤ n ∨ (p.reduceTest = true ∧ k + 1 = num p n s)) := by
  have e1 : (k + 1) * p.testSize = k * p.testSize + p.testSize := Nat.succ_mul _ _
  by_cases hr : p.reduceTest = true
  · have hk' : num p n s = (n - s + p.testSize - 1) / p.testSize := by simp [num, hr]
    have h1 := hk
    rw [hk', Nat.lt_iff_add_one_le, Nat.le_div_iff_mul_le (by omega)] at h1
    refine ⟨by omega, ?_⟩
    by_cases hlast : k + 1 = num p n s
    · exact Or.inr ⟨hr, hlast⟩
    · left
      have h2 : k + 1 + 1 ≤ num p n s := by omega
      rw [hk', Nat.le_div_iff_mul_le (by omega)] at h2
      have e2 : (k + 1 + 1) * p.testSize = (k + 1) * p.testSize + p.testSize := Nat.succ_mul _ _
      omega
  · have hk' : num p n s = (n - s) / p.testSize := by simp [num, hr]
    rw [hk', Nat.lt_iff_add_one_le, Nat.le_div_iff_mul_le (by omega)] at hk
    refine ⟨by omega, Or.inl (by omega)⟩

theorem range'_append_range' (a b c : Nat) (h1 : a ≤ b) (h2 : b ≤ c) :
    List.range' a (b - a) ++ List.range' b (c - b) = List.range' a (c - a) := by
  have := List.range'_append_1 (s := a) (m := b - a) (n := c - b)
  rw [show a + (b - a) = b by omega, show b - a + (c - b) = c - a by omega] at this
  exact this

/-- End of the last test window. -/
def lastEnd (p : Params) (n s : Nat) : Nat :=
  if p.reduceTest then max s n else s + (n - s) / p.testSize * p.testSize

theorem tests_flatten (p : Params) (n s k : Nat) (hp : 1 ≤ p.testSize) (hk : k ≤ num p n s) :
    ((List.range k).map (fun j => (mk p n (s + j * p.testSize)).2)).flatten =
      List.range' s (min (s + k * p.testSize) n - s) := by
  induction k with
  | zero => simp
  | succ k ih =>
    have hlt := num_lt p n s k hp (by omega)
    rw [List.range_succ, List.map_append, List.flatten_append, ih (by omega)]
    simp only [List.map_cons, List.map_nil, List.flatten_cons, List.flatten_nil, List.append_nil]
    unfold mk
    simp only
    have e1 : (k + 1) * p.testSize = k * p.testSize + p.testSize := Nat.succ_mul _ _
    rw [min_eq_left (by omega)]
    rw [range'_append_range' _ _ _ (by omega) (by omega)]
    congr 2
    omega

/-! ### Period mode -/

theorem mem_arange (a b x : Int) : x ∈ arange a b ↔ a ≤ x ∧ x < b := by
  unfold arange
  rw [List.mem_map]
  constructor
  · rintro ⟨k, hk, rfl⟩
    rw [List.mem_range] at hk
    omega
  · rintro ⟨h1, h2⟩
    exact ⟨(x - a).toNat, by rw [List.mem_range]; omega, by omega⟩

theorem countP_mono {α : Type} (l : List α) (f g : α → Bool) (h : ∀ x, f x = true → g x = true) :
    l.countP f ≤ l.countP g := by
  apply List.countP_mono_left
  intro x _ hx; exact h x hx

theorem ffill_mono (ts : List Int) {d e : Int} (h : d ≤ e) : ffill ts d ≤ ffill ts e := by
  unfold ffill
  have := countP_mono ts (fun t => decide (t ≤ d)) (fun t => decide (t ≤ e)) (by intro x hx; simp at hx ⊢; omega)
  omega

theorem ffill_lt (ts : List Int) (d : Int) : ffill ts d < ts.length := by
  unfold ffill
  have := List.countP_le_length (l := ts) (p := fun t => decide (t ≤ d))
  omega

theorem bfill_lt (ts : List Int) (h : ts ≠ []) (d : Int) : bfill ts d < ts.length := by
  have := List.length_pos_iff.2 h
  unfold bfill
  split <;> omega

end Skfolio.WalkForward
