import Verif.Portfolio.MultiTheorems
import Verif.Portfolio.PopulationTheorems

/-!
# Positions in populations and multi-period portfolios: negative and out-of-range keys
-/

set_option autoImplicit false

namespace Skfolio.Portfolio

/-! ### Specification -/

/-- A bound of a slice of `n` items addresses the position `k` between them: from the start, from the end, or beyond either end. -/
def Addresses (n : ℕ) (key : ℤ) (k : ℕ) : Prop :=
  (k ≤ n ∧ key = k) ∨ (k < n ∧ key = (k : ℤ) - n) ∨ (key < -(n : ℤ) ∧ k = 0) ∨ ((n : ℤ) < key ∧ k = n)

/-- A key outside `-n, …, n - 1` addresses no item. -/
def OutOfRange (n : ℕ) (key : ℤ) : Prop := key < -(n : ℤ) ∨ (n : ℤ) ≤ key

/-- Every bound addresses one position. -/
theorem addresses_unique (n : ℕ) (key : ℤ) : ∃! k, Addresses n key k := by
  have hex : ∃ k, Addresses n key k := by
    by_cases h1 : key < -(n : ℤ)
    · exact ⟨0, by unfold Addresses; omega⟩
    · by_cases h2 : (n : ℤ) < key
      · exact ⟨n, by unfold Addresses; omega⟩
      · by_cases h3 : key < 0
        · exact ⟨(key + n).toNat, by unfold Addresses; omega⟩
        · exact ⟨key.toNat, by unfold Addresses; omega⟩
  obtain ⟨k, hk⟩ := hex
  refine ⟨k, hk, fun j hj => ?_⟩
  unfold Addresses at hk hj
  omega

namespace Pop

theorem clamp_addresses {n k : ℕ} {key : ℤ} (h : Addresses n key k) : clamp n key = k := by
  unfold Addresses at h
  unfold clamp
  split <;> omega

theorem init_portfolios (L : List Item) (hL : ∀ y ∈ L, IsPortfolio y) : init L = .ok L := by
  unfold init
  rw [validPrefix_eq]
  have h1 : L.all valid = true := List.all_eq_true.mpr fun y hy => (valid_iff y).mpr (hL y hy)
  have h2 : L.takeWhile valid = L := by
    clear h1
    induction L with
    | nil => rfl
    | cons y L ih => rw [List.takeWhile_cons_of_pos ((valid_iff y).mpr (hL y (by simp))), ih fun z hz => hL z (by simp [hz])]
  simp [h1, h2]

/-- C27: on a population made of three parts, bounds that address the ends of the middle part, counted from the start, from the end or beyond an end, select, delete or replace exactly the middle part. -/
theorem C27_slices (w : List (List Item)) (i : ℕ) (pre mid post : List Item) (hl : w[i]? = some (pre ++ mid ++ post)) (hv : ∀ y ∈ mid, IsPortfolio y) (a b : ℤ)
    (ha : Addresses (pre ++ mid ++ post).length a pre.length) (hb : Addresses (pre ++ mid ++ post).length b (pre ++ mid).length) (id : ℕ) (inner : List Elem) :
    step w (.getSlice i a b) = (w ++ [mid], none) ∧
    step w (.delSlice i a b) = (w.set i (pre ++ post), none) ∧
    step w (.setSlice i a b (.multi id inner)) = (w.set i (pre ++ inner.map Elem.item ++ post), none) := by
  have e1 := clamp_addresses ha
  have e2 := clamp_addresses hb
  have hs : slice (pre ++ mid ++ post) a b = mid := by
    unfold slice
    rw [e1, e2, List.append_assoc, List.drop_left, List.length_append, Nat.add_sub_cancel_left, List.take_left]
  have hp : ∀ new, spliceAt (pre ++ mid ++ post) a b new = pre ++ new ++ post := by
    intro new
    unfold spliceAt
    simp only [e1, e2]
    rw [max_eq_right (by simp), List.drop_left, List.append_assoc pre mid post, List.take_left]
  refine ⟨?_, ?_, ?_⟩
  · simp only [step, Op.target, hl, stepAt, hs, init_portfolios mid hv]
  · simp only [step, Op.target, hl, stepAt, hp, put, List.append_nil]
  · simp only [step, Op.target, hl, stepAt, hp, put]

/-- C27: bounds in the wrong order select nothing and delete nothing. -/
theorem C27_crossed (w : List (List Item)) (i : ℕ) (l : List Item) (hl : w[i]? = some l) (a b : ℤ) (k j : ℕ) (ha : Addresses l.length a k) (hb : Addresses l.length b j) (hkj : j ≤ k) :
    step w (.getSlice i a b) = (w ++ [[]], none) ∧ step w (.delSlice i a b) = (w, none) := by
  have e1 := clamp_addresses ha
  have e2 := clamp_addresses hb
  have hs : slice l a b = [] := by
    unfold slice
    rw [e1, e2, Nat.sub_eq_zero_of_le hkj, List.take_zero]
  have hp : spliceAt l a b [] = l := by
    unfold spliceAt
    simp only [e1, e2]
    rw [max_eq_left hkj, List.append_nil, List.take_append_drop]
  refine ⟨?_, ?_⟩
  · simp only [step, Op.target, hl, stepAt, hs, init_portfolios [] (by simp)]
  · simp only [step, Op.target, hl, stepAt, hp, put]
    obtain ⟨hi, he⟩ := List.getElem?_eq_some_iff.1 hl
    rw [← he, List.set_getElem_self]

/-- C27: `insert` puts the portfolio at the addressed position. -/
theorem C27_insert (w : List (List Item)) (i : ℕ) (pre post : List Item) (hl : w[i]? = some (pre ++ post)) (x : Item) (hx : IsPortfolio x) (key : ℤ) (hk : Addresses (pre ++ post).length key pre.length) :
    step w (.insert i key x) = (w.set i (pre ++ x :: post), none) := by
  have e1 := clamp_addresses hk
  have hp : spliceAt (pre ++ post) key key [x] = pre ++ x :: post := by
    unfold spliceAt
    simp only [e1, max_self]
    rw [List.take_left, List.drop_left, List.append_assoc, List.singleton_append]
  simp only [step, Op.target, hl, stepAt, (valid_iff x).mpr hx, if_true, hp, put]

/-- C27: assigning or deleting an item out of range raises `IndexError` and changes nothing. -/
theorem C27_out_of_range (w : List (List Item)) (i : ℕ) (l : List Item) (hl : w[i]? = some l) (x : Item) (hx : IsPortfolio x) (key : ℤ) (hk : OutOfRange l.length key) :
    step w (.setItem i key x) = (w, some .indexError) ∧ step w (.delItem i key) = (w, some .indexError) := by
  have hidx : index l.length key = none := by
    unfold OutOfRange at hk
    unfold index
    simp only
    split <;> rw [if_neg (by omega)]
  refine ⟨?_, ?_⟩
  · simp only [step, Op.target, hl, stepAt, (valid_iff x).mpr hx, if_true, hidx]
  · simp only [step, Op.target, hl, stepAt, hidx]

/-- C27: deleting item `k`, from the start or from the end, removes it alone. -/
theorem C27_delete (w : List (List Item)) (i : ℕ) (pre post : List Item) (x : Item) (hl : w[i]? = some (pre ++ x :: post)) (key : ℤ) (hk : key = pre.length ∨ key = -(post.length : ℤ) - 1) :
    step w (.delItem i key) = (w.set i (pre ++ post), none) := by
  have hlen : (pre ++ x :: post).length = pre.length + (post.length + 1) := by simp
  have hidx : index (pre ++ x :: post).length key = some pre.length := by
    rw [hlen]
    unfold index
    simp only
    split
    · rw [if_pos (by omega)]
      congr 1
      omega
    · rw [if_pos (by omega)]
      congr 1
      omega
  simp only [step, Op.target, hl, stepAt, hidx, put]
  rw [List.eraseIdx_append_of_length_le (le_refl _), Nat.sub_self, List.eraseIdx_cons_zero]

/-- Positions counted from the end, and beyond it. -/
example : step [[.single 0, .single 1, .single 2, .single 3]] (.getSlice 0 (-3) (-1)) = ([[.single 0, .single 1, .single 2, .single 3], [.single 1, .single 2]], none) :=
  (C27_slices [[.single 0, .single 1, .single 2, .single 3]] 0 [.single 0] [.single 1, .single 2] [.single 3] rfl (by simp [IsPortfolio]) (-3) (-1)
    (Or.inr (Or.inl (by decide))) (Or.inr (Or.inl (by decide))) 0 []).1

example : step [[.single 0, .single 1]] (.insert 0 (-9) (.single 5)) = ([[.single 5, .single 0, .single 1]], none) :=
  C27_insert [[.single 0, .single 1]] 0 [] [.single 0, .single 1] rfl _ (Or.inl ⟨5, rfl⟩) (-9) (Or.inr (Or.inr (Or.inl (by decide))))

end Pop

namespace Multi

variable {D K : Type} [LinearOrder D]

/-- C26: assigning or deleting an item out of range raises `IndexError` and changes nothing. -/
theorem C26_out_of_range (w : World D K) (i : ℕ) (o : Mpp D K) (hi : w.objs[i]? = some o) (p : Ptf D K) (key : ℤ) (hk : OutOfRange (w.items o).length key) :
    step w (.setItem i key (.ptf p)) = (w, some .indexError) ∧ step w (.delItem i key) = (w, some .indexError) := by
  have hidx : pyIndex (w.heap.getD o.ref []).length key = none := by
    have hk' : OutOfRange (w.heap.getD o.ref []).length key := hk
    unfold OutOfRange at hk'
    unfold pyIndex
    simp only
    split <;> rw [if_neg (by omega)]
  refine ⟨?_, ?_⟩
  · simp only [step, hi, hidx]
  · simp only [step, hi, hidx]

example : (step (run [.construct (.fresh [day 0, day 2]) true]) (.delItem 0 (-3))).2 = some .indexError := by decide

end Multi

end Skfolio.Portfolio
