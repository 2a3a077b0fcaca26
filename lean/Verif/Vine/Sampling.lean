import Verif.Vine.Values

/-! Propagation of samples in a given order. -/
set_option autoImplicit false

namespace Skfolio.Vine
open Skfolio.Copula (Inside IsInverse)

/-- The variables that get their value at the start. -/
def rootVars : List (Node × Bool) → Finset ℕ
  | [] => ∅
  | (.root i, _) :: rest => insert i (rootVars rest)
  | (.edge _ _, _) :: rest => rootVars rest

/-- Each node of the order that is not a root node adds one variable to those known before, and its other variables are known. -/
def Sequential : Finset ℕ → List (Node × Bool) → Prop
  | _, [] => True
  | known, (.root _, _) :: rest => Sequential known rest
  | known, (.edge l r, b) :: rest => own (.edge l r) b ∉ known ∧ vars (.edge l r) \ {own (.edge l r) b} ⊆ known ∧ Sequential (insert (own (.edge l r) b) known) rest

/-- The variables of all entries. -/
def orderVars (order : List (Node × Bool)) : Finset ℕ := (order.map fun e => own e.1 e.2).toFinset

/-- No root node occurs twice. -/
def RootsOnce : List (Node × Bool) → Prop
  | [] => True
  | (.root i, _) :: rest => i ∉ rootVars rest ∧ RootsOnce rest
  | (.edge _ _, _) :: rest => RootsOnce rest

theorem mem_rootVars {order : List (Node × Bool)} {i : ℕ} {b : Bool} (h : (Node.root i, b) ∈ order) : i ∈ rootVars order := by
  induction order with
  | nil => simp at h
  | cons a as ih =>
    obtain ⟨m, c⟩ := a
    rcases List.mem_cons.1 h with e | h'
    · cases e
      simp [rootVars]
    · cases m with
      | root k => exact Finset.mem_insert_of_mem (ih h')
      | edge l r => exact ih h'

theorem exists_roots (order : List (Node × Bool × ℝ)) (h : RootsOnce (order.map fun e => (e.1, e.2.1))) (ht : ∀ e ∈ order, Inside e.2.2) :
    ∃ x : ℕ → ℝ, (∀ i, Inside (x i)) ∧ ∀ e ∈ order, ∀ i, e.1 = .root i → x i = e.2.2 := by
  induction order with
  | nil => exact ⟨fun _ => 1 / 2, fun i => ⟨by norm_num, by norm_num⟩, by simp⟩
  | cons e rest ih =>
    obtain ⟨n, b, t⟩ := e
    match n with
    | .edge l r =>
      obtain ⟨x, h1, h2⟩ := ih h (fun e he => ht e (by simp [he]))
      refine ⟨x, h1, ?_⟩
      intro e he i hi
      rcases List.mem_cons.1 he with rfl | he
      · cases hi
      · exact h2 e he i hi
    | .root j =>
      obtain ⟨x, h1, h2⟩ := ih h.2 (fun e he => ht e (by simp [he]))
      refine ⟨Function.update x j t, ?_, ?_⟩
      · intro i
        by_cases hij : i = j
        · subst hij
          rw [Function.update_self]
          exact ht (.root i, b, t) (by simp)
        · rw [Function.update_of_ne hij]
          exact h1 i
      · intro e he i hi
        rcases List.mem_cons.1 he with rfl | he'
        · cases hi
          rw [Function.update_self]
        · have : i ≠ j := by
            rintro rfl
            refine h.1 (mem_rootVars (b := e.2.1) ?_)
            rw [← hi]
            exact List.mem_map_of_mem (f := fun e : Node × Bool × ℝ => (e.1, e.2.1)) he'
          rw [Function.update_of_ne this]
          exact h2 e he' i hi

/-- A point with the given values of the conditional distribution functions, found entry by entry. -/
theorem exists_point {cop : Node → Cop ℝ} (hc : ∀ n, IsInverse (cop n).partialDerivative (cop n).inversePartialDerivative) (order : List (Node × Bool × ℝ)) (known : Finset ℕ) (x : ℕ → ℝ)
    (hx : ∀ i, Inside (x i)) (hg : ∀ e ∈ order, Good e.1) (h : Sequential known (order.map fun e => (e.1, e.2.1))) (ht : ∀ e ∈ order, Inside e.2.2) :
    ∃ y : ℕ → ℝ, (∀ i, Inside (y i)) ∧ (∀ i ∈ known, y i = x i) ∧ ∀ e ∈ order, (∀ i, e.1 ≠ .root i) → condCdf cop y e.1 (own e.1 e.2.1) = e.2.2 := by
  induction order generalizing known x with
  | nil => exact ⟨x, hx, fun _ _ => rfl, by simp⟩
  | cons e rest ih =>
    obtain ⟨n, b, t⟩ := e
    match n with
    | .root j =>
      obtain ⟨y, h1, h2, h3⟩ := ih known x hx (fun e he => hg e (by simp [he])) h (fun e he => ht e (by simp [he]))
      refine ⟨y, h1, h2, ?_⟩
      intro e he hi
      rcases List.mem_cons.1 he with rfl | he
      · exact absurd rfl (hi j)
      · exact h3 e he hi
    | .edge l r =>
      obtain ⟨k1, k2, k3⟩ := h
      have g : Good (.edge l r) := hg (.edge l r, b, t) (by simp)
      obtain ⟨z, hz, ez⟩ := condCdf_solve hc g b x (fun i _ _ => hx i) (t := t) (ht (.edge l r, b, t) (by simp))
      have hx' : ∀ i, Inside (Function.update x (own (.edge l r) b) z i) := by
        intro i
        by_cases hij : i = own (.edge l r) b
        · subst hij
          rwa [Function.update_self]
        · rw [Function.update_of_ne hij]
          exact hx i
      obtain ⟨y, h1, h2, h3⟩ := ih (insert (own (.edge l r) b) known) (Function.update x (own (.edge l r) b) z) hx' (fun e he => hg e (by simp [he])) k3 (fun e he => ht e (by simp [he]))
      refine ⟨y, h1, ?_, ?_⟩
      · intro i hi
        rw [h2 i (Finset.mem_insert_of_mem hi), Function.update_of_ne]
        rintro rfl
        exact k1 hi
      · intro e he hi
        rcases List.mem_cons.1 he with rfl | he
        · simp only
          rw [← ez]
          refine condCdf_congr cop _ _ g (fun i hi => h2 i ?_) b
          by_cases hij : i = own (.edge l r) b
          · simp [hij]
          · exact Finset.mem_insert_of_mem (k2 (by simp [hi, hij]))
        · exact h3 e he hi

theorem stored_of_stored_assign {s : State ℝ} {n m : Node} {b c : Bool} (t : ℝ) (h : Stored s n b) : Stored (s.assign m c t) n b := by
  cases n with
  | root i =>
    cases m with
    | root j =>
      simp only [Stored, State.assign]
      split_ifs
      · simp
      · exact h
    | edge l r => exact h
  | edge l r =>
    cases m with
    | root j => exact h
    | edge a b =>
      simp only [Stored, State.assign]
      split_ifs
      · simp
      · exact h

theorem init_spec {cop : Node → Cop ℝ} {x : ℕ → ℝ} (order : List (Node × Bool × ℝ)) (hv : ∀ e ∈ order, e.2.2 = condCdf cop x e.1 (own e.1 e.2.1)) (s : State ℝ) (hs : Sound cop x s) :
    Sound cop x (order.foldl (fun s e => s.assign e.1 e.2.1 e.2.2) s) ∧ (∀ n b, Stored s n b → Stored (order.foldl (fun s e => s.assign e.1 e.2.1 e.2.2) s) n b) ∧
      ∀ e ∈ order, Stored (order.foldl (fun s e => s.assign e.1 e.2.1 e.2.2) s) e.1 e.2.1 := by
  induction order generalizing s with
  | nil => exact ⟨hs, fun _ _ h => h, by simp⟩
  | cons e rest ih =>
    obtain ⟨h1, h2, h3⟩ := ih (fun e he => hv e (by simp [he])) (s.assign e.1 e.2.1 e.2.2) (assign_sound hs (hv e (by simp)))
    refine ⟨h1, fun n b h => h2 n b (stored_of_stored_assign _ h), ?_⟩
    intro e' he
    rcases List.mem_cons.1 he with rfl | he
    · exact h2 _ _ (stored_assign _ _ _ _)
    · exact h3 e' he

theorem fold_spec {cop : Node → Cop ℝ} (hc : ∀ n, IsInverse (cop n).partialDerivative (cop n).inversePartialDerivative) {x : ℕ → ℝ} (hx : ∀ i, Inside (x i)) (order : List (Node × Bool × ℝ))
    (he : ∀ e ∈ order, ∀ m ∈ rightEdges e.1 e.2.1, Exchangeable (cop m)) (hg : ∀ e ∈ order, Good e.1) (known : Finset ℕ) (h : Sequential known (order.map fun e => (e.1, e.2.1))) (s : State ℝ) (hs : Sound cop x s)
    (hk : ∀ i ∈ known, s.pseudo i ≠ none) (hst : ∀ e ∈ order, Stored s e.1 e.2.1) :
    ∃ s', order.foldlM (fun s e => descend cop e.1 e.2.1 s) s = some s' ∧ Sound cop x s' ∧ Extends s s' ∧ ∀ e ∈ order, s'.pseudo (own e.1 e.2.1) ≠ none := by
  induction order generalizing known s with
  | nil => exact ⟨s, rfl, hs, Extends.refl s, by simp⟩
  | cons e rest ih =>
    obtain ⟨n, b, t⟩ := e
    have g := hg (n, b, t) (by simp)
    have st := hst (n, b, t) (by simp)
    have ex := he (n, b, t) (by simp)
    match n with
    | .root j =>
      obtain ⟨s', e', h1, h2, h3⟩ := ih (fun e h => he e (by simp [h])) (fun e h => hg e (by simp [h])) known h s hs hk (fun e h => hst e (by simp [h]))
      refine ⟨s', ?_, h1, h2, ?_⟩
      · rw [List.foldlM_cons]
        exact e'
      · intro e he
        rcases List.mem_cons.1 he with rfl | he
        · exact h2.known st
        · exact h3 e he
    | .edge l r =>
      obtain ⟨k1, k2, k3⟩ := h
      obtain ⟨s1, e1, hs1, x1, kn⟩ := descend_spec hc g b ex (fun i _ => hx i) hs (fun i hi hne => hk i (k2 (by simp [hi, hne]))) st
      have hk1 : ∀ i ∈ insert (own (.edge l r) b) known, s1.pseudo i ≠ none := by
        intro i hi
        rcases Finset.mem_insert.1 hi with rfl | hi
        · exact kn
        · exact x1.known (hk i hi)
      obtain ⟨s', e', h1, h2, h3⟩ := ih (fun e h => he e (by simp [h])) (fun e h => hg e (by simp [h])) _ k3 s1 hs1 hk1 (fun e h => x1.stored (hst e (by simp [h])))
      refine ⟨s', ?_, h1, x1.trans h2, ?_⟩
      · rw [List.foldlM_cons]
        show (descend cop (.edge l r) b s).bind _ = _
        rw [e1]
        exact e'
      · intro e he
        rcases List.mem_cons.1 he with rfl | he
        · exact h2.known kn
        · exact h3 e he

theorem mem_rootVars_stored {order : List (Node × Bool × ℝ)} {i : ℕ} (h : i ∈ rootVars (order.map fun e => (e.1, e.2.1))) : ∃ b t, (Node.root i, b, t) ∈ order := by
  induction order with
  | nil => simp [rootVars] at h
  | cons a as ih =>
    obtain ⟨m, c, u⟩ := a
    cases m with
    | root k =>
      simp only [List.map_cons, rootVars, Finset.mem_insert] at h
      rcases h with rfl | h
      · exact ⟨c, u, by simp⟩
      · obtain ⟨b, t, h⟩ := ih h
        exact ⟨b, t, by simp [h]⟩
    | edge l r =>
      obtain ⟨b, t, h⟩ := ih h
      exact ⟨b, t, by simp [h]⟩

/-- Propagation in a sequential order gives the point whose conditional distribution functions are the initial samples. -/
theorem propagate_spec {cop : Node → Cop ℝ} (hc : ∀ n, IsInverse (cop n).partialDerivative (cop n).inversePartialDerivative) (order : List (Node × Bool × ℝ))
    (he : ∀ e ∈ order, ∀ m ∈ rightEdges e.1 e.2.1, Exchangeable (cop m)) (hg : ∀ e ∈ order, Good e.1) (ht : ∀ e ∈ order, Inside e.2.2)
    (hr : RootsOnce (order.map fun e => (e.1, e.2.1))) (h : Sequential (rootVars (order.map fun e => (e.1, e.2.1))) (order.map fun e => (e.1, e.2.1))) :
    ∃ (s : State ℝ) (x : ℕ → ℝ), propagate cop order = some s ∧ (∀ i, Inside (x i)) ∧ ∀ e ∈ order, s.pseudo (own e.1 e.2.1) = some (x (own e.1 e.2.1)) ∧ condCdf cop x e.1 (own e.1 e.2.1) = e.2.2 := by
  obtain ⟨x0, h01, h02⟩ := exists_roots order hr ht
  obtain ⟨x, h1, h2, h3⟩ := exists_point hc order _ x0 h01 hg h ht
  have hv : ∀ e ∈ order, e.2.2 = condCdf cop x e.1 (own e.1 e.2.1) := by
    rintro ⟨n, b, t⟩ hm
    match n with
    | .root i =>
      show t = x i
      rw [h2 i (mem_rootVars (b := b) (List.mem_map_of_mem (f := fun e : Node × Bool × ℝ => (e.1, e.2.1)) hm))]
      exact (h02 _ hm i rfl).symm
    | .edge l r => exact (h3 _ hm (fun i h => by cases h)).symm
  obtain ⟨i1, i2, i3⟩ := init_spec order hv State.empty (cop := cop) ⟨by simp [State.empty], by simp [State.empty]⟩
  obtain ⟨s, e, k1, k2, k3⟩ := fold_spec hc h1 order he hg _ h _ i1 (fun i hi => by obtain ⟨b, t, hm⟩ := mem_rootVars_stored hi; exact i3 _ hm) i3
  refine ⟨s, x, e, h1, ?_⟩
  intro a ha
  refine ⟨?_, (hv a ha).symm⟩
  obtain ⟨t, ht⟩ := Option.ne_none_iff_exists'.1 (k3 a ha)
  rw [ht, k1.pseudo _ t ht]

end Skfolio.Vine
