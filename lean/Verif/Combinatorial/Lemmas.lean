import Verif.Combinatorial.Model
import Mathlib.Data.List.Nodup
import Mathlib.Data.List.GetD
import Mathlib.Data.List.Range
import Mathlib.Data.List.Sublists
import Mathlib.Data.List.Sort
import Mathlib.Algebra.BigOperators.Group.List.Basic
import Mathlib.Tactic.Linarith
import Mathlib.Tactic.Ring
import Mathlib.Tactic.SplitIfs
import Mathlib.Tactic.Tauto

set_option autoImplicit false

namespace Skfolio.Combinatorial

/-! ### combinations -/

section
variable {α : Type}

theorem combos_length (xs : List α) (k : Nat) : (combos xs k).length = Nat.choose xs.length k := by
  induction xs generalizing k with
  | nil => cases k <;> simp [combos]
  | cons x xs ih =>
    cases k with
    | zero => simp [combos]
    | succ k => simp [combos, ih, Nat.choose_succ_succ]

theorem mem_combos (xs : List α) (k : Nat) (c : List α) : c ∈ combos xs k ↔ (c.Sublist xs ∧ c.length = k) := by
  induction xs generalizing k c with
  | nil =>
    cases k with
    | zero =>
      simp [combos]
    | succ k =>
      simp [combos]
      rintro rfl; simp
  | cons x xs ih =>
    cases k with
    | zero =>
      simp only [combos, List.mem_singleton]
      constructor
      · rintro rfl; simp
      · rintro ⟨_, h⟩; exact List.length_eq_zero_iff.1 h
    | succ k =>
      simp only [combos, List.mem_append, List.mem_map, ih]
      constructor
      · rintro (⟨d, ⟨h1, h2⟩, rfl⟩ | ⟨h1, h2⟩)
        · exact ⟨h1.cons_cons x, by simp [h2]⟩
        · exact ⟨h1.cons x, h2⟩
      · rintro ⟨h1, h2⟩
        cases h1 with
        | cons _ h => exact Or.inr ⟨h, h2⟩
        | cons_cons _ h => exact Or.inl ⟨_, ⟨h, by simpa using h2⟩, rfl⟩

theorem combos_nodup (xs : List α) (hx : xs.Nodup) (k : Nat) : (combos xs k).Nodup := by
  induction xs generalizing k with
  | nil => cases k <;> simp [combos]
  | cons x xs ih =>
    cases k with
    | zero => simp [combos]
    | succ k =>
      rw [List.nodup_cons] at hx
      simp only [combos]
      rw [List.nodup_append]
      refine ⟨(ih hx.2 k).map (fun a b h => by simpa using h), ih hx.2 _, ?_⟩
      rintro a ha b hb rfl
      obtain ⟨d, _, rfl⟩ := List.mem_map.1 ha
      have := ((mem_combos _ _ _).1 hb).1.subset (List.mem_cons_self)
      exact hx.1 this

variable [DecidableEq α]

/-- Number of combinations that contain a given element. -/
theorem combos_count (xs : List α) (hx : xs.Nodup) (f : α) (hf : f ∈ xs) (k : Nat) :
    (combos xs (k + 1)).countP (fun c => c.contains f) = Nat.choose (xs.length - 1) k := by
  induction xs generalizing k with
  | nil => simp at hf
  | cons x xs ih =>
    rw [List.nodup_cons] at hx
    simp only [combos, List.countP_append, List.countP_map, List.length_cons, Nat.add_sub_cancel]
    by_cases hxf : f = x
    · subst hxf
      have h1 : (combos xs k).countP ((fun c => c.contains f) ∘ (f :: ·)) = (combos xs k).length := by
        rw [List.countP_eq_length]; intro c _; simp
      have h2 : (combos xs (k + 1)).countP (fun c => c.contains f) = 0 := by
        rw [List.countP_eq_zero]
        intro c hc
        have := ((mem_combos _ _ _).1 hc).1.subset
        simp only [List.contains_iff_mem]
        intro hfc; exact hx.1 (this hfc)
      rw [h1, h2, combos_length]; simp
    · have hf' : f ∈ xs := by
        rcases List.mem_cons.1 hf with h | h
        · exact absurd h hxf
        · exact h
      have hpos : 0 < xs.length := List.length_pos_of_mem hf'
      have h1 : (combos xs k).countP ((fun c => c.contains f) ∘ (x :: ·)) =
          (combos xs k).countP (fun c => c.contains f) := by
        apply List.countP_congr
        intro c _
        simp [hxf]
      rw [h1, ih hx.2 hf' k]
      cases k with
      | zero => simp [combos]
      | succ k =>
        rw [ih hx.2 hf' k]
        obtain ⟨m, hm⟩ : ∃ m, xs.length = m + 1 := ⟨xs.length - 1, by omega⟩
        rw [hm, Nat.add_sub_cancel, Nat.choose_succ_succ]

/-- In every prefix of the list of combinations an earlier element occurs at least as often as a later one. -/
theorem combos_prefix (xs : List α) (hx : xs.Nodup) (f g : α) (hfg : [f, g].Sublist xs) (k m : Nat) :
    ((combos xs k).take m).countP (fun c => c.contains g) ≤ ((combos xs k).take m).countP (fun c => c.contains f) := by
  induction xs generalizing k m with
  | nil => simp at hfg
  | cons x xs ih =>
    cases k with
    | zero =>
      cases m <;> simp [combos]
    | succ k =>
      have hx' := hx
      rw [List.nodup_cons] at hx
      have hne : f ≠ g := by
        have := hfg.nodup hx'
        simpa using this
      simp only [combos, List.take_append, List.countP_append]
      cases hfg with
      | cons _ h =>
        -- both in the tail
        have hf : f ∈ xs := h.subset (by simp)
        have hg : g ∈ xs := h.subset (by simp)
        have hfx : f ≠ x := by rintro rfl; exact hx.1 hf
        have hgx : g ≠ x := by rintro rfl; exact hx.1 hg
        apply Nat.add_le_add
        · rw [← List.map_take, List.countP_map, List.countP_map]
          have e : ∀ z, z ≠ x → ((combos xs k).take m).countP ((fun c => c.contains z) ∘ (x :: ·)) =
              ((combos xs k).take m).countP (fun c => c.contains z) := by
            intro z hz
            apply List.countP_congr
            intro c _; simp [hz]
          rw [e f hfx, e g hgx]
          exact ih hx.2 h k m
        · exact ih hx.2 h (k + 1) _
      | cons_cons _ h =>
        -- `f` is the head
        have hg : g ∈ xs := h.subset (by simp)
        have hA : ((combos xs k).map (f :: ·)).length = (combos xs k).length := List.length_map _
        rw [hA]
        have h1 : (((combos xs k).map (f :: ·)).take m).countP (fun c => c.contains f) =
            min m (combos xs k).length := by
          rw [List.countP_eq_length.2]
          · simp
          · intro c hc
            obtain ⟨d, _, rfl⟩ := List.mem_map.1 (List.mem_of_mem_take hc)
            simp
        rw [h1]
        rcases Nat.le_total m (combos xs k).length with hm | hm
        · rw [Nat.sub_eq_zero_of_le hm]
          simp only [List.take_zero, List.countP_nil, Nat.add_zero]
          refine (List.countP_le_length).trans ?_
          rw [List.length_take]; simp
        · have h2 : (((combos xs k).map (f :: ·)).take m).countP (fun c => c.contains g) +
              ((combos xs (k + 1)).take (m - (combos xs k).length)).countP (fun c => c.contains g) ≤
              (combos (f :: xs) (k + 1)).countP (fun c => c.contains g) := by
            simp only [combos, List.countP_append]
            apply Nat.add_le_add
            · exact (List.take_sublist _ _).countP_le
            · exact (List.take_sublist _ _).countP_le
          have h3 := combos_count (f :: xs) hx' g (by simp [hg]) k
          rw [h3] at h2
          refine h2.trans ?_
          rw [min_eq_right hm, combos_length]
          simp

end

theorem testSet_props {n k : Nat} {c : List Nat} (hc : c ∈ testSetIndex n k) :
    c.Pairwise (· < ·) ∧ c.length = k ∧ ∀ x ∈ c, x < n := by
  unfold testSetIndex at hc
  rw [mem_combos] at hc
  refine ⟨?_, hc.2, ?_⟩
  · exact List.Pairwise.sublist hc.1 List.pairwise_lt_range
  · intro x hx; exact List.mem_range.1 (hc.1.subset hx)

theorem testSetIndex_length (n k : Nat) : (testSetIndex n k).length = nSplits n k := by
  unfold testSetIndex nSplits; rw [combos_length, List.length_range]

/-! ### rows of `recombined_paths` -/

/-- The splits in which fold `f` is tested. -/
def splitsOf (n k f : Nat) : List Nat := (List.range (nSplits n k)).filter fun s => binary n k f s

theorem range_filter_countP {β : Type} (l : List β) (q : β → Bool) (d : β) :
    ((List.range l.length).filter fun s => q (l.getD s d)).length = l.countP q := by
  rw [← List.countP_eq_length_filter]
  have : l.countP q = ((List.range l.length).map fun s => l.getD s d).countP q := by
    congr 1
    apply List.ext_getElem
    · simp
    · intro i h1 h2; simp [List.getElem?_eq_getElem h1]
  rw [this, List.countP_map]
  rfl

theorem splitsOf_length {n k f : Nat} (hf : f < n) : (splitsOf n (k + 1) f).length = Nat.choose (n - 1) k := by
  unfold splitsOf binary
  rw [← testSetIndex_length]
  rw [range_filter_countP (testSetIndex n (k + 1)) (fun c => c.contains f) []]
  unfold testSetIndex
  rw [combos_count _ List.nodup_range f (by simpa using hf)]
  simp

theorem drop_take_flatMap {β γ : Type} (l : List β) (g : β → List γ) (c : Nat) (hg : ∀ x ∈ l, (g x).length = c) (r : Nat)
    (hr : r < l.length) : ((l.flatMap g).drop (r * c)).take c = g l[r] := by
  induction l generalizing r with
  | nil => simp at hr
  | cons x l ih =>
    have hx : (g x).length = c := hg x (by simp)
    cases r with
    | zero => simp [hx]
    | succ r =>
      rw [List.flatMap_cons, Nat.succ_mul, Nat.add_comm, ← List.drop_drop, List.drop_left' hx]
      simpa using ih (fun y hy => hg y (by simp [hy])) r (by simpa using hr)

theorem length_flatMap_const {β γ : Type} (l : List β) (g : β → List γ) (c : Nat) (hg : ∀ x ∈ l, (g x).length = c) :
    (l.flatMap g).length = l.length * c := by
  induction l with
  | nil => simp
  | cons x l ih =>
    rw [List.flatMap_cons, List.length_append, ih (fun y hy => hg y (by simp [hy])), hg x (by simp), List.length_cons,
      Nat.succ_mul]
    omega

theorem argwhereCol_length (n k : Nat) : (argwhereCol n (k + 1)).length = n * Nat.choose (n - 1) k := by
  unfold argwhereCol
  rw [length_flatMap_const _ _ (Nat.choose (n - 1) k)]
  · simp
  · intro f hf; exact splitsOf_length (List.mem_range.1 hf)

theorem recombinedPaths_eq (n k : Nat) :
    recombinedPaths n (k + 1) = (List.range n).map fun f => splitsOf n (k + 1) f := by
  unfold recombinedPaths reshape
  apply List.map_congr_left
  intro f hf
  have hf' := List.mem_range.1 hf
  have hlen : (argwhereCol n (k + 1)).length / n = Nat.choose (n - 1) k := by
    rw [argwhereCol_length, Nat.mul_div_cancel_left _ (by omega)]
  rw [hlen]
  unfold argwhereCol
  have := drop_take_flatMap (List.range n)
    (fun f => (List.range (nSplits n (k + 1))).filter fun s => binary n (k + 1) f s) (Nat.choose (n - 1) k)
    (fun f hf => splitsOf_length (List.mem_range.1 hf)) f (by simpa using hf')
  rw [this]
  simp [splitsOf]

/-- Number of splits before `i` that test fold `f`: the path id of fold `f` in split `i`. -/
def rank (n k f i : Nat) : Nat := ((testSetIndex n k).take i).countP fun c => c.contains f

theorem getD_mem {β : Type} (l : List β) (i : Nat) (d : β) (h : i < l.length) : l.getD i d ∈ l := by
  rw [List.getD_eq_getElem _ _ h]; exact List.getElem_mem h

theorem getD_map_range {β : Type} (N : Nat) (g : Nat → β) (i : Nat) (d : β) (h : i < N) :
    ((List.range N).map g).getD i d = g i := by
  rw [List.getD_eq_getElem _ _ (by simpa using h)]; simp

theorem binary_iff {n k f s : Nat} : binary n k f s = true ↔ f ∈ (testSetIndex n k).getD s [] := by
  unfold binary; rw [List.contains_iff_mem]

/-- Positions of `i` in a filtered range. -/
theorem filter_range_pos (N : Nat) (q : Nat → Bool) (i : Nat) :
    ((List.range ((List.range N).filter q).length).filter fun p => decide (((List.range N).filter q).getD p 0 = i)) =
      if i < N ∧ q i = true then [((List.range i).filter q).length] else [] := by
  induction N with
  | zero => simp
  | succ N ih =>
    rw [List.range_succ, List.filter_append]
    by_cases hq : q N = true
    · simp only [List.filter_cons, List.filter_nil, hq, if_true, List.length_append, List.length_singleton]
      rw [List.range_succ, List.filter_append]
      set L := (List.range N).filter q with hL
      have e1 : (List.range L.length).filter (fun p => decide ((L ++ [N]).getD p 0 = i)) =
          (List.range L.length).filter (fun p => decide (L.getD p 0 = i)) := by
        apply List.filter_congr
        intro p hp
        rw [List.getD_append _ _ _ _ (List.mem_range.1 hp)]
      rw [e1, ih]
      have e2 : (L ++ [N]).getD L.length 0 = N := by
        rw [List.getD_append_right _ _ _ _ (le_refl _)]; simp
      simp only [List.filter_cons, List.filter_nil, e2]
      by_cases hi : N = i
      · subst hi
        simp [hq, hL]
      · have hd : decide (N = i) = false := by simpa using hi
        simp only [hd, Bool.false_eq_true, if_false, List.append_nil]
        have : (i < N + 1 ∧ q i = true) ↔ (i < N ∧ q i = true) := by
          constructor
          · rintro ⟨a, b⟩; exact ⟨by omega, b⟩
          · rintro ⟨a, b⟩; exact ⟨by omega, b⟩
        simp only [this]
    · have hq' : q N = false := by simpa using hq
      simp only [List.filter_cons, List.filter_nil, hq', Bool.false_eq_true, if_false, List.append_nil]
      rw [ih]
      have : (i < N + 1 ∧ q i = true) ↔ (i < N ∧ q i = true) := by
        constructor
        · rintro ⟨a, b⟩
          refine ⟨?_, b⟩
          rcases Nat.lt_or_ge i N with h | h
          · exact h
          · have : i = N := by omega
            subst this; rw [b] at hq'; exact absurd hq' (by simp)
        · rintro ⟨a, b⟩; exact ⟨by omega, b⟩
      simp only [this]

theorem filter_range_rank {n k f i : Nat} (hi : i < nSplits n k) :
    ((List.range i).filter fun s => binary n k f s).length = rank n k f i := by
  unfold rank
  have hlen : ((testSetIndex n k).take i).length = i := by
    rw [List.length_take, testSetIndex_length]; omega
  have := range_filter_countP ((testSetIndex n k).take i) (fun c => c.contains f) []
  rw [hlen] at this
  rw [← this]
  congr 1
  apply List.filter_congr
  intro s hs
  have hs' := List.mem_range.1 hs
  unfold binary
  have : ((testSetIndex n k).take i).getD s [] = (testSetIndex n k).getD s [] := by
    rw [List.getD_eq_getElem _ _ (by omega), List.getD_eq_getElem _ _ (by rw [testSetIndex_length]; omega)]
    simp
  rw [this]

/-- The sorted list of elements of a strictly increasing list below `n` is found by filtering the range. -/
theorem filter_range_contains (n : Nat) (c : List Nat) (hc : c.Pairwise (· < ·)) (hn : ∀ x ∈ c, x < n) :
    ((List.range n).filter fun f => c.contains f) = c := by
  apply List.Perm.eq_of_pairwise (le := (· < ·))
  · intro a b _ _ h1 h2; omega
  · exact List.Pairwise.filter _ List.pairwise_lt_range
  · exact hc
  · rw [List.perm_ext_iff_of_nodup]
    · intro x
      rw [List.mem_filter, List.mem_range, List.contains_iff_mem]
      exact ⟨fun h => h.2, fun h => ⟨hn x h, h⟩⟩
    · exact List.nodup_range.filter _
    · exact hc.imp (fun h => Nat.ne_of_lt h)

theorem flatMap_if {β γ : Type} (l : List β) (q : β → Bool) (g : β → γ) :
    (l.flatMap fun x => if q x then [g x] else []) = (l.filter q).map g := by
  induction l with
  | nil => simp
  | cons x l ih =>
    rw [List.flatMap_cons, ih, List.filter_cons]
    split_ifs <;> simp

/-- `np.argwhere(recombine_paths == i)`: the test folds of split `i` in order, each with its path. -/
theorem argwhereEq_eq {n k i : Nat} (hi : i < nSplits n (k + 1)) :
    argwhereEq (recombinedPaths n (k + 1)) i =
      ((testSetIndex n (k + 1)).getD i []).map fun f => (f, rank n (k + 1) f i) := by
  have hT : (testSetIndex n (k + 1)).getD i [] ∈ testSetIndex n (k + 1) :=
    getD_mem _ _ _ (by rw [testSetIndex_length]; exact hi)
  obtain ⟨h1, h2, h3⟩ := testSet_props hT
  unfold argwhereEq
  rw [recombinedPaths_eq]
  simp only [List.length_map, List.length_range]
  have step : ∀ f ∈ List.range n, (((List.range (((List.range n).map fun f => splitsOf n (k + 1) f).getD f []).length).filter
      fun p => decide ((((List.range n).map fun f => splitsOf n (k + 1) f).getD f []).getD p 0 = i)).map fun p => (f, p)) =
      (if ((testSetIndex n (k + 1)).getD i []).contains f then [(f, rank n (k + 1) f i)] else []) := by
    intro f hf
    have hf' := List.mem_range.1 hf
    have e : ((List.range n).map fun f => splitsOf n (k + 1) f).getD f [] = splitsOf n (k + 1) f := by
      rw [List.getD_eq_getElem _ _ (by simpa using hf')]; simp
    rw [e]
    unfold splitsOf
    rw [filter_range_pos, filter_range_rank hi]
    by_cases hm : binary n (k + 1) f i = true
    · rw [if_pos ⟨hi, hm⟩]
      rw [binary] at hm
      rw [if_pos hm]; simp
    · rw [if_neg (by tauto)]
      rw [binary] at hm
      rw [if_neg hm]; simp
  rw [List.flatMap_congr step, flatMap_if, filter_range_contains n _ h1 h3]

theorem pathIds_getD {n k i j : Nat} (hi : i < nSplits n (k + 1)) (hj : j < k + 1) :
    ((pathIds n (k + 1)).getD i []).getD j 0 =
      rank n (k + 1) (((testSetIndex n (k + 1)).getD i []).getD j 0) i := by
  have hT : (testSetIndex n (k + 1)).getD i [] ∈ testSetIndex n (k + 1) :=
    getD_mem _ _ _ (by rw [testSetIndex_length]; exact hi)
  obtain ⟨h1, h2, h3⟩ := testSet_props hT
  unfold pathIds
  have e1 : ∀ (g : Nat → List Nat), ((List.range (nSplits n (k + 1))).map g).getD i [] = g i := by
    intro g
    rw [List.getD_eq_getElem _ _ (by simpa using hi)]; simp
  rw [e1]
  have e2 : ∀ (g : Nat → Nat), ((List.range (k + 1)).map g).getD j 0 = g j := by
    intro g
    rw [List.getD_eq_getElem _ _ (by simpa using hj)]; simp
  rw [e2]
  rw [argwhereEq_eq hi, List.getD_eq_getElem _ _ (by rw [List.length_map, h2]; exact hj)]
  simp only [List.getElem_map]
  have e3 : ((testSetIndex n (k + 1)).getD i []).getD j 0 = ((testSetIndex n (k + 1)).getD i [])[j]'(lt_of_lt_of_eq hj h2.symm) :=
    List.getD_eq_getElem _ _ _
  rw [e3]

theorem rank_succ {n k f i : Nat} (hi : i < nSplits n k) :
    rank n k f (i + 1) = rank n k f i + if binary n k f i then 1 else 0 := by
  unfold rank binary
  have hi' : i < (testSetIndex n k).length := by rw [testSetIndex_length]; exact hi
  rw [List.take_add_one, List.getElem?_eq_getElem hi', List.countP_append, List.getD_eq_getElem _ _ hi']
  congr 1
  simp [List.countP_cons]

theorem rank_mono {n k f i j : Nat} (h : i ≤ j) : rank n k f i ≤ rank n k f j := by
  unfold rank
  exact (List.take_sublist_take_left h).countP_le

theorem rank_total {n k f : Nat} (hf : f < n) : rank n (k + 1) f (nSplits n (k + 1)) = Nat.choose (n - 1) k := by
  unfold rank
  rw [List.take_of_length_le (by rw [testSetIndex_length])]
  unfold testSetIndex
  rw [combos_count _ List.nodup_range f (by simpa using hf)]
  simp

/-- An earlier fold never lags behind a later one. -/
theorem rank_dominance {n k f g i : Nat} (hfg : f < g) (hg : g < n) : rank n k g i ≤ rank n k f i := by
  unfold rank testSetIndex
  apply combos_prefix _ List.nodup_range
  have h1 : ([f, g] : List Nat) = (List.range n).filter (fun x => decide (x = f ∨ x = g)) := by
    have := filter_range_contains n [f, g] (by simp [hfg]) (by intro x hx; simp at hx; omega)
    conv_lhs => rw [← this]
    apply List.filter_congr
    intro x _
    simp
  rw [h1]
  exact List.filter_sublist

/-- Every path id below the number of paths is reached by every fold. -/
theorem rank_exists {n k f p : Nat} (hf : f < n) (hp : p < Nat.choose (n - 1) k) :
    ∃ i, i < nSplits n (k + 1) ∧ f ∈ (testSetIndex n (k + 1)).getD i [] ∧ rank n (k + 1) f i = p := by
  have key : ∀ m, m ≤ nSplits n (k + 1) → p < rank n (k + 1) f m →
      ∃ i, i < m ∧ f ∈ (testSetIndex n (k + 1)).getD i [] ∧ rank n (k + 1) f i = p := by
    intro m
    induction m with
    | zero => intro _ h; simp [rank] at h
    | succ m ih =>
      intro hm h
      rw [rank_succ (by omega)] at h
      by_cases h' : p < rank n (k + 1) f m
      · obtain ⟨i, a, b, c⟩ := ih (by omega) h'
        exact ⟨i, by omega, b, c⟩
      · split_ifs at h with hb
        · exact ⟨m, by omega, binary_iff.1 hb, by omega⟩
        · omega
  exact key _ (le_refl _) (by rw [rank_total hf]; exact hp)

theorem rank_unique {n k f i i' : Nat} (hi : i < nSplits n k) (hi' : i' < nSplits n k)
    (h1 : f ∈ (testSetIndex n k).getD i []) (h2 : f ∈ (testSetIndex n k).getD i' [])
    (h : rank n k f i = rank n k f i') : i = i' := by
  have aux : ∀ a b, a < nSplits n k → b < nSplits n k → f ∈ (testSetIndex n k).getD a [] → a < b →
      rank n k f a < rank n k f b := by
    intro a b ha hb hfa hab
    have := rank_succ (f := f) ha
    rw [if_pos (binary_iff.2 hfa)] at this
    have hm := rank_mono (n := n) (k := k) (f := f) (show a + 1 ≤ b by omega)
    omega
  rcases Nat.lt_trichotomy i i' with hlt | heq | hgt
  · have := aux i i' hi hi' h1 hlt; omega
  · exact heq
  · have := aux i' i hi' hi h2 hgt; omega

theorem rank_lt {n k f i : Nat} (hi : i < nSplits n (k + 1)) (hf : f ∈ (testSetIndex n (k + 1)).getD i []) :
    rank n (k + 1) f i < Nat.choose (n - 1) k := by
  have hT : (testSetIndex n (k + 1)).getD i [] ∈ testSetIndex n (k + 1) :=
    getD_mem _ _ _ (by rw [testSetIndex_length]; exact hi)
  have hfn := (testSet_props hT).2.2 f hf
  have h1 := rank_succ (f := f) hi
  rw [if_pos (binary_iff.2 hf)] at h1
  have h2 := rank_mono (n := n) (k := k + 1) (f := f) (show i + 1 ≤ nSplits n (k + 1) by omega)
  rw [rank_total hfn] at h2
  omega

theorem nTestPaths_eq {n k : Nat} (hn : 0 < n) : nTestPaths n (k + 1) = Nat.choose (n - 1) k := by
  unfold nTestPaths nSplits
  obtain ⟨m, rfl⟩ : ∃ m, n = m + 1 := ⟨n - 1, by omega⟩
  have := Nat.add_one_mul_choose_eq m k
  rw [← this, Nat.mul_div_cancel_left _ (by omega)]
  simp

/-! ### marking loops -/

@[simp] theorem upd_same (c : Nat → Int) (i : Nat) (v : Int) : upd c i v i = v := by simp [upd]

theorem mark_fold (l : List Nat) (g : Nat → Nat) (c : Nat → Int) (t : Nat) :
    l.foldl (fun c r => upd c (g r) (-1)) c t = if ∃ r ∈ l, g r = t then -1 else c t := by
  induction l generalizing c with
  | nil => simp
  | cons r l ih =>
    rw [List.foldl_cons, ih]
    by_cases h1 : ∃ r ∈ l, g r = t
    · rw [if_pos h1, if_pos (by obtain ⟨a, b, c⟩ := h1; exact ⟨a, by simp [b], c⟩)]
    · rw [if_neg h1]
      by_cases h2 : t = g r
      · rw [if_pos ⟨r, by simp, h2.symm⟩, h2]; simp
      · rw [if_neg (by
          rintro ⟨a, b, c⟩
          rcases List.mem_cons.1 b with rfl | b
          · exact h2 c.symm
          · exact h1 ⟨a, b, c⟩)]
        simp [upd, h2]

theorem mark_fold2 (ks l : List Nat) (g : Nat → Nat → Nat) (c : Nat → Int) (t : Nat) :
    ks.foldl (fun c k => l.foldl (fun c r => upd c (g k r) (-1)) c) c t =
      if ∃ k ∈ ks, ∃ r ∈ l, g k r = t then -1 else c t := by
  induction ks generalizing c with
  | nil => simp
  | cons k ks ih =>
    rw [List.foldl_cons, ih]
    by_cases h1 : ∃ k ∈ ks, ∃ r ∈ l, g k r = t
    · rw [if_pos h1, if_pos (by obtain ⟨a, b, c⟩ := h1; exact ⟨a, by simp [b], c⟩)]
    · rw [if_neg h1, mark_fold]
      by_cases h2 : ∃ r ∈ l, g k r = t
      · rw [if_pos h2, if_pos ⟨k, by simp, h2⟩]
      · rw [if_neg h2, if_neg (by
          rintro ⟨a, b, c⟩
          rcases List.mem_cons.1 b with rfl | b
          · exact h2 c
          · exact h1 ⟨a, b, c⟩)]

/-- first up-crossing between a non-test row and a later test row -/
theorem exists_up (c : Nat → Bool) (t u : Nat) (htu : t < u) (ht : c t = false) (hu : c u = true) :
    ∃ r, t ≤ r ∧ r < u ∧ c r = false ∧ c (r + 1) = true := by
  induction u with
  | zero => omega
  | succ u ih =>
    by_cases h : c u = true
    · have : t < u := by
        rcases Nat.lt_or_ge t u with h' | h'
        · exact h'
        · have : t = u := by omega
          subst this; rw [ht] at h; exact absurd h (by simp)
      obtain ⟨r, a, b, d, e⟩ := ih this h
      exact ⟨r, a, by omega, d, e⟩
    · exact ⟨u, by omega, by omega, by simpa using h, hu⟩

/-- last down-crossing between a test row and a later non-test row -/
theorem exists_down (c : Nat → Bool) (u t : Nat) (hut : u < t) (hu : c u = true) (ht : c t = false) :
    ∃ r, u ≤ r ∧ r < t ∧ c r = true ∧ c (r + 1) = false := by
  obtain ⟨r, a, b, d, e⟩ := exists_up (fun x => !c x) u t hut (by simp [hu]) (by simp [ht])
  exact ⟨r, a, b, by simpa using d, by simpa using e⟩

end Skfolio.Combinatorial
