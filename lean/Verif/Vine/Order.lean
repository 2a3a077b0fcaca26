import Verif.Vine.Sampling
import Verif.Vine.Structure
import Mathlib.Data.List.Basic
import Mathlib.Combinatorics.Enumerative.DoubleCounting

/-! The sampling order is an elimination order of the variables. -/
set_option autoImplicit false

namespace Skfolio.Vine

/-- Every entry brings a new variable, seen from the end of the list, and its other variables are brought by later entries. -/
def Elim : List (Node × Bool) → Prop
  | [] => True
  | e :: rest => Good e.1 ∧ own e.1 e.2 ∉ rest.map (fun e => own e.1 e.2) ∧ (∀ i ∈ vars e.1, i ≠ own e.1 e.2 → i ∈ rest.map (fun e => own e.1 e.2)) ∧ Elim rest

theorem elim_good {order : List (Node × Bool)} (h : Elim order) : ∀ e ∈ order, Good e.1 := by
  induction order with
  | nil => simp
  | cons a as ih =>
    intro e he
    rcases List.mem_cons.1 he with rfl | he
    · exact h.1
    · exact ih h.2.2.2 e he

theorem elim_nodup {order : List (Node × Bool)} (h : Elim order) : (order.map fun e => own e.1 e.2).Nodup := by
  induction order with
  | nil => simp
  | cons a as ih => exact List.nodup_cons.2 ⟨h.2.1, ih h.2.2.2⟩

/-! ### Peeling -/

theorem peel_spec (listing : Finset ℕ → List ℕ) (hl : ∀ s, (listing s).Nodup ∧ ∀ a, a ∈ listing s ↔ a ∈ s) (cond : ℕ → Bool) (counts : ℕ → ℕ → ℕ) {n : Node} (g : Good n) (k : ℕ) :
    ∃ P, peel listing cond counts k n = some P ∧ Elim P ∧ ∀ i, i ∈ P.map (fun e => own e.1 e.2) ↔ i ∈ vars n := by
  induction g generalizing k with
  | root i =>
    refine ⟨_, rfl, ⟨.root i, by simp, by simp [vars, own], trivial⟩, ?_⟩
    simp [own, vars]
  | edge l r d gl gr hd a1 a2 b1 b2 ihl ihr =>
    have g : Good (.edge l r) := .edge l r d gl gr hd a1 a2 b1 b2
    obtain ⟨⟨s1, s2⟩, s3, s4⟩ := good_sides g
    rw [peel, good_condSets listing hl g l r rfl]
    simp only [Option.bind_some]
    obtain ⟨b, hb⟩ : ∃ b, b = isLeftBranch (own (.edge l r) true, own (.edge l r) false) cond (counts k) := ⟨_, rfl⟩
    rw [← hb]
    cases b
    · obtain ⟨P, e, h1, h2⟩ := ihl (k + 1)
      refine ⟨(.edge l r, false) :: P, by simp [e], ⟨g, by rw [h2]; exact s1, ?_, h1⟩, ?_⟩
      · intro i hi hne
        rw [h2]
        exact s2 (by simp [hi, hne])
      · intro i
        rw [List.map_cons, List.mem_cons, h2]
        constructor
        · rintro (rfl | h)
          · exact own_mem g false
          · exact vars_left l r h
        · intro h
          by_cases hne : i = own (.edge l r) false
          · exact Or.inl hne
          · exact Or.inr (s2 (by simp [h, hne]))
    · obtain ⟨P, e, h1, h2⟩ := ihr (k + 1)
      refine ⟨(.edge l r, true) :: P, by simp [e], ⟨g, by rw [h2]; exact s3, ?_, h1⟩, ?_⟩
      · intro i hi hne
        rw [h2]
        exact s4 (by simp [hi, hne])
      · intro i
        rw [List.map_cons, List.mem_cons, h2]
        constructor
        · rintro (rfl | h)
          · exact own_mem g true
          · exact vars_right l r h
        · intro h
          by_cases hne : i = own (.edge l r) true
          · exact Or.inl hne
          · exact Or.inr (s4 (by simp [h, hne]))

/-! ### Conditioned variables -/

/-- The entry after the replacement. -/
def replaced (cond : ℕ → Bool) (e : Node × Bool) : Node × Bool := if cond (own e.1 e.2) then (.root (own e.1 e.2), true) else e

theorem own_replaced (cond : ℕ → Bool) (e : Node × Bool) : own (replaced cond e).1 (replaced cond e).2 = own e.1 e.2 := by
  unfold replaced
  split_ifs
  · rfl
  · rfl

theorem mapM_replace (listing : Finset ℕ → List ℕ) (hl : ∀ s, (listing s).Nodup ∧ ∀ a, a ∈ listing s ↔ a ∈ s) (cond : ℕ → Bool) (order : List (Node × Bool)) (hg : ∀ e ∈ order, Good e.1) :
    order.mapM (replaceConditioned listing cond) = some (order.map (replaced cond)) := by
  induction order with
  | nil => rfl
  | cons a as ih =>
    rw [List.mapM_cons, ih (fun e he => hg e (by simp [he]))]
    have : replaceConditioned listing cond a = some (replaced cond a) := by
      unfold replaceConditioned replaced
      rw [good_getVar listing hl (hg a (by simp))]
      rfl
    rw [this]
    rfl

theorem map_own_replaced (cond : ℕ → Bool) (order : List (Node × Bool)) : (order.map (replaced cond)).map (fun e => own e.1 e.2) = order.map (fun e => own e.1 e.2) := by
  rw [List.map_map]
  exact List.map_congr_left fun e _ => own_replaced cond e

theorem elim_replaced (cond : ℕ → Bool) {order : List (Node × Bool)} (h : Elim order) : Elim (order.map (replaced cond)) := by
  induction order with
  | nil => trivial
  | cons a as ih =>
    obtain ⟨h1, h2, h3, h4⟩ := h
    refine ⟨?_, ?_, ?_, ih h4⟩
    · unfold replaced
      split_ifs
      · exact .root _
      · exact h1
    · rw [map_own_replaced, own_replaced]
      exact h2
    · rw [map_own_replaced, own_replaced]
      intro i hi hne
      unfold replaced at hi
      split_ifs at hi
      · simp only [vars, Finset.mem_singleton] at hi
        exact absurd hi hne
      · exact h3 i hi hne

/-! ### From the end to the beginning -/

/-- The variables of the entries that are not root nodes. -/
def edgeVars : List (Node × Bool) → Finset ℕ
  | [] => ∅
  | (.root _, _) :: rest => edgeVars rest
  | (.edge l r, b) :: rest => insert (own (.edge l r) b) (edgeVars rest)

theorem edgeVars_append (A B : List (Node × Bool)) : edgeVars (A ++ B) = edgeVars A ∪ edgeVars B := by
  induction A with
  | nil => simp [edgeVars]
  | cons a as ih =>
    obtain ⟨n, b⟩ := a
    cases n <;> simp [edgeVars, ih]

theorem rootVars_append (A B : List (Node × Bool)) : rootVars (A ++ B) = rootVars A ∪ rootVars B := by
  induction A with
  | nil => simp [rootVars]
  | cons a as ih =>
    obtain ⟨n, b⟩ := a
    cases n <;> simp [rootVars, ih]

theorem mem_own_iff (A : List (Node × Bool)) (i : ℕ) : i ∈ A.map (fun e => own e.1 e.2) ↔ i ∈ rootVars A ∨ i ∈ edgeVars A := by
  induction A with
  | nil => simp [rootVars, edgeVars]
  | cons a as ih =>
    obtain ⟨n, b⟩ := a
    cases n <;> simp only [List.map_cons, List.mem_cons, ih, rootVars, edgeVars, Finset.mem_insert, own] <;> tauto

theorem sequential_append (A B : List (Node × Bool)) (known : Finset ℕ) (hA : Sequential known A) (hB : Sequential (known ∪ edgeVars A) B) : Sequential known (A ++ B) := by
  induction A generalizing known with
  | nil => simpa [edgeVars] using hB
  | cons a as ih =>
    obtain ⟨n, b⟩ := a
    cases n with
    | root i => exact ih known hA hB
    | edge l r =>
      refine ⟨hA.1, hA.2.1, ih _ hA.2.2 ?_⟩
      rw [edgeVars, Finset.union_insert] at hB
      rwa [Finset.insert_union]

theorem elim_sequential {order : List (Node × Bool)} (h : Elim order) (known : Finset ℕ) (h1 : rootVars order ⊆ known) (h2 : ∀ i ∈ edgeVars order, i ∉ known) : Sequential known order.reverse := by
  induction order with
  | nil => trivial
  | cons a as ih =>
    obtain ⟨n, b⟩ := a
    rw [List.reverse_cons]
    have hrev : ∀ i, i ∈ edgeVars as.reverse ↔ i ∈ edgeVars as := by
      have : ∀ L : List (Node × Bool), ∀ i, i ∈ edgeVars L.reverse ↔ i ∈ edgeVars L := by
        intro L
        induction L with
        | nil => simp
        | cons c cs ihc =>
          intro i
          obtain ⟨m, d⟩ := c
          rw [List.reverse_cons, edgeVars_append]
          cases m <;> simp [edgeVars, ihc, or_comm]
      exact this as
    cases n with
    | root j =>
      refine sequential_append _ _ _ (ih h.2.2.2 (fun i hi => h1 (by simp [rootVars, hi])) h2) trivial
    | edge l r =>
      refine sequential_append _ _ _ (ih h.2.2.2 h1 (fun i hi => h2 i (by simp [edgeVars, hi]))) ⟨?_, ?_, trivial⟩
      · rw [Finset.mem_union, hrev]
        rintro (hk | hk)
        · exact h2 _ (by simp [edgeVars]) hk
        · exact h.2.1 ((mem_own_iff as _).2 (Or.inr hk))
      · intro i hi
        rw [Finset.mem_sdiff, Finset.mem_singleton] at hi
        rw [Finset.mem_union, hrev]
        rcases (mem_own_iff as i).1 (h.2.2.1 i hi.1 hi.2) with hk | hk
        · exact Or.inl (h1 hk)
        · exact Or.inr hk

theorem rootVars_reverse (order : List (Node × Bool)) (i : ℕ) : i ∈ rootVars order.reverse ↔ i ∈ rootVars order := by
  induction order with
  | nil => simp
  | cons c cs ih =>
    obtain ⟨m, d⟩ := c
    rw [List.reverse_cons, rootVars_append]
    cases m <;> simp [rootVars, ih]

theorem rootsOnce_of_nodup {order : List (Node × Bool)} (h : (order.map fun e => own e.1 e.2).Nodup) : RootsOnce order := by
  induction order with
  | nil => trivial
  | cons a as ih =>
    obtain ⟨n, b⟩ := a
    rw [List.map_cons, List.nodup_cons] at h
    cases n with
    | root i => exact ⟨fun hi => h.1 ((mem_own_iff as i).2 (Or.inl hi)), ih h.2⟩
    | edge l r => exact ih h.2

theorem root_edge_disjoint {order : List (Node × Bool)} (h : (order.map fun e => own e.1 e.2).Nodup) (i : ℕ) (hi : i ∈ edgeVars order) : i ∉ rootVars order := by
  induction order with
  | nil => simp [rootVars]
  | cons a as ih =>
    obtain ⟨n, b⟩ := a
    rw [List.map_cons, List.nodup_cons] at h
    cases n with
    | root j =>
      simp only [edgeVars] at hi
      simp only [rootVars, Finset.mem_insert, not_or]
      refine ⟨?_, ih h.2 hi⟩
      rintro rfl
      exact h.1 ((mem_own_iff as i).2 (Or.inr hi))
    | edge l r =>
      simp only [edgeVars, Finset.mem_insert] at hi
      simp only [rootVars]
      rcases hi with rfl | hi
      · intro hk
        exact h.1 ((mem_own_iff as _).2 (Or.inl hk))
      · exact ih h.2 hi

/-- An elimination order with replaced entries, reversed, is a sequential order. -/
theorem elim_order (cond : ℕ → Bool) {order : List (Node × Bool)} (h : Elim order) :
    RootsOnce (order.map (replaced cond)).reverse ∧ Sequential (rootVars (order.map (replaced cond)).reverse) (order.map (replaced cond)).reverse := by
  have hE := elim_replaced cond h
  have hn := elim_nodup hE
  constructor
  · apply rootsOnce_of_nodup
    rw [List.map_reverse]
    exact List.nodup_reverse.2 hn
  · refine elim_sequential hE _ (fun i hi => (rootVars_reverse _ i).2 hi) (fun i hi hk => root_edge_disjoint hn i hi ((rootVars_reverse _ i).1 hk))

end Skfolio.Vine
