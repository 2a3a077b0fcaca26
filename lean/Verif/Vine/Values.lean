import Verif.Vine.Lemmas
import Verif.Copula.Spec
import Mathlib.Logic.Function.Basic

/-! The values stored in the nodes of a vine. -/
set_option autoImplicit false

namespace Skfolio.Vine
open Skfolio.Copula (Inside IsInverse)

section
variable {K : Type}

/-- Stored values are those of the point `x`. -/
structure Sound (cop : Node → Cop K) (x : ℕ → K) (s : State K) : Prop where
  pseudo : ∀ i t, s.pseudo i = some t → t = x i
  cache : ∀ n b t, Good n → s.cache n b = some t → t = condCdf cop x n (own n b)

/-- `s'` keeps all that `s` has. -/
structure Extends (s s' : State K) : Prop where
  pseudo : ∀ i t, s.pseudo i = some t → s'.pseudo i = some t
  cache : ∀ n b t, s.cache n b = some t → ∃ t', s'.cache n b = some t'

theorem Extends.refl (s : State K) : Extends s s := ⟨fun _ _ h => h, fun _ _ t h => ⟨t, h⟩⟩

theorem Extends.trans {s s' s'' : State K} (h : Extends s s') (h' : Extends s' s'') : Extends s s'' :=
  ⟨fun i t e => h'.pseudo i t (h.pseudo i t e), fun n b t e => by obtain ⟨t', e'⟩ := h.cache n b t e; exact h'.cache n b t' e'⟩

theorem Extends.known {s s' : State K} (h : Extends s s') {i : ℕ} (e : s.pseudo i ≠ none) : s'.pseudo i ≠ none := by
  obtain ⟨t, ht⟩ := Option.ne_none_iff_exists'.1 e
  rw [h.pseudo i t ht]
  simp

theorem condCdf_left (cop : Node → Cop K) (x : ℕ → K) {l r : Node} {d : Bool × Bool} (g : Good (.edge l r)) (hd : sides l r = some d) (b : Bool) :
    condCdf cop x (.edge l r) (own (.edge l r) b) = (cop (.edge l r)).partialDerivative (!b) (condCdf cop x l (own l (!d.1)), condCdf cop x r (own r (!d.2))) := by
  obtain ⟨e1, e2⟩ := good_ownVar g hd
  rw [condCdf, e1, e2]
  congr 1
  cases b
  · simp [own_right hd]
  · have := own_ne g
    rw [own_left hd, own_right hd] at this
    simp [own_left hd, this]

/-- The value of a node depends only on its variables. -/
theorem condCdf_congr (cop : Node → Cop K) (x y : ℕ → K) {n : Node} (g : Good n) (h : ∀ i ∈ vars n, x i = y i) (b : Bool) : condCdf cop x n (own n b) = condCdf cop y n (own n b) := by
  induction g generalizing b with
  | root i => simpa [condCdf, vars] using h
  | edge l r d gl gr hd a1 a2 b1 b2 ihl ihr =>
    have g : Good (.edge l r) := .edge l r d gl gr hd a1 a2 b1 b2
    rw [condCdf_left cop x g hd, condCdf_left cop y g hd, ihl (fun i hi => h i (by simp [vars, hi])), ihr (fun i hi => h i (by simp [vars, hi]))]

theorem assign_sound {cop : Node → Cop K} {x : ℕ → K} {s : State K} (hs : Sound cop x s) {n : Node} {b : Bool} {t : K} (ht : t = condCdf cop x n (own n b)) : Sound cop x (s.assign n b t) := by
  match n with
  | .root i =>
    refine ⟨?_, hs.cache⟩
    intro j u h
    simp only [State.assign] at h
    split_ifs at h with e
    · cases h
      subst e
      exact ht
    · exact hs.pseudo j u h
  | .edge l r =>
    refine ⟨hs.pseudo, ?_⟩
    intro m c u g h
    simp only [State.assign] at h
    split_ifs at h with e
    · cases h
      obtain ⟨rfl, rfl⟩ := e
      exact ht
    · exact hs.cache m c u g h

theorem assign_edge_extends (s : State K) (l r : Node) (b : Bool) (t : K) : Extends s (s.assign (.edge l r) b t) := by
  refine ⟨fun _ _ h => h, ?_⟩
  intro m c u h
  simp only [State.assign]
  split_ifs
  · exact ⟨_, rfl⟩
  · exact ⟨u, h⟩

theorem assign_extends {cop : Node → Cop K} {x : ℕ → K} {s : State K} (hs : Sound cop x s) {n : Node} {b : Bool} {t : K} (ht : t = condCdf cop x n (own n b)) : Extends s (s.assign n b t) := by
  match n with
  | .edge l r => exact assign_edge_extends s l r b t
  | .root i =>
    refine ⟨?_, fun n b t h => ⟨t, h⟩⟩
    intro j u h
    simp only [State.assign]
    split_ifs with e
    · subst e
      rw [ht, hs.pseudo j u h]
      rfl
    · exact h

/-- A getter returns the conditional distribution function, if the values of its variables are there. -/
theorem read_spec {cop : Node → Cop K} {x : ℕ → K} {n : Node} (g : Good n) (b : Bool) {s : State K} (hs : Sound cop x s) (hk : ∀ i ∈ vars n, s.pseudo i ≠ none) :
    ∃ s', read cop n b s = some (condCdf cop x n (own n b), s') ∧ Sound cop x s' ∧ Extends s s' := by
  induction g generalizing b s with
  | root i =>
    obtain ⟨t, ht⟩ := Option.ne_none_iff_exists'.1 (hk i (by simp [vars]))
    refine ⟨s, ?_, hs, Extends.refl s⟩
    simp only [read, ht, Option.map_some, condCdf]
    rw [hs.pseudo i t ht]
  | edge l r d gl gr hd a1 a2 b1 b2 ihl ihr =>
    have g : Good (.edge l r) := .edge l r d gl gr hd a1 a2 b1 b2
    rw [read]
    rcases hc : s.cache (.edge l r) b with _ | t
    · obtain ⟨s1, e1, hs1, x1⟩ := ihl (!d.1) hs (fun i hi => hk i (by simp [vars, hi]))
      obtain ⟨s2, e2, hs2, x2⟩ := ihr (!d.2) hs1 (fun i hi => x1.known (hk i (by simp [vars, hi])))
      have hv := condCdf_left cop x g hd b
      refine ⟨s2.assign (.edge l r) b (condCdf cop x (.edge l r) (own (.edge l r) b)), ?_, assign_sound hs2 rfl, (x1.trans x2).trans (assign_edge_extends _ _ _ _ _)⟩
      simp only [hd, Option.bind_some, e1, e2, ← hv]
    · refine ⟨s, ?_, hs, Extends.refl s⟩
      simp only
      rw [hs.cache _ b t g hc]

end

/-- The values of a point inside the unit cube are inside the unit interval. -/
theorem condCdf_inside {cop : Node → Cop ℝ} (hc : ∀ n, IsInverse (cop n).partialDerivative (cop n).inversePartialDerivative) {x : ℕ → ℝ} {n : Node} (g : Good n) (hx : ∀ i ∈ vars n, Inside (x i)) (b : Bool) :
    Inside (condCdf cop x n (own n b)) := by
  induction g generalizing b with
  | root i => exact hx i (by simp [vars])
  | edge l r d gl gr hd a1 a2 b1 b2 ihl ihr =>
    have g : Good (.edge l r) := .edge l r d gl gr hd a1 a2 b1 b2
    rw [condCdf_left cop x g hd]
    have il := ihl (fun i hi => hx i (by simp [vars, hi])) (!d.1)
    have ir := ihr (fun i hi => hx i (by simp [vars, hi])) (!d.2)
    cases b
    · exact ((hc _).2.2.2 _ _ il ir).1
    · exact ((hc _).2.2.1 _ _ il ir).1

/-- The value of the own variable of a node can be chosen such that the conditional distribution function takes a given value. -/
theorem condCdf_solve {cop : Node → Cop ℝ} (hc : ∀ n, IsInverse (cop n).partialDerivative (cop n).inversePartialDerivative) {n : Node} (g : Good n) (b : Bool) (x : ℕ → ℝ) (hx : ∀ i ∈ vars n, i ≠ own n b → Inside (x i))
    {t : ℝ} (ht : Inside t) : ∃ y, Inside y ∧ condCdf cop (Function.update x (own n b) y) n (own n b) = t := by
  induction g generalizing b t with
  | root i => exact ⟨t, ht, by simp [condCdf, own]⟩
  | edge l r d gl gr hd a1 a2 b1 b2 ihl ihr =>
    have g : Good (.edge l r) := .edge l r d gl gr hd a1 a2 b1 b2
    cases b
    · rw [own_right hd] at hx ⊢
      have hl : ∀ i ∈ vars l, Inside (x i) := fun i hi => hx i (by simp [vars, hi]) (fun e => b1 (e ▸ hi))
      have il := condCdf_inside hc gl hl (!d.1)
      obtain ⟨y, hy, e⟩ := ihr (!d.2) (fun i hi hne => hx i (by simp [vars, hi]) hne) ((hc (.edge l r)).2.1 _ _ il ht).1
      refine ⟨y, hy, ?_⟩
      have := condCdf_left cop (Function.update x (own r (!d.2)) y) g hd false
      rw [own_right hd] at this
      rw [this, e, condCdf_congr cop (Function.update x (own r (!d.2)) y) x gl (fun i hi => Function.update_of_ne (fun e : i = own r (!d.2) => b1 (e ▸ hi)) _ _)]
      exact ((hc (.edge l r)).2.1 _ _ il ht).2
    · rw [own_left hd] at hx ⊢
      have hr : ∀ i ∈ vars r, Inside (x i) := fun i hi => hx i (by simp [vars, hi]) (fun e => a1 (e ▸ hi))
      have ir := condCdf_inside hc gr hr (!d.2)
      obtain ⟨y, hy, e⟩ := ihl (!d.1) (fun i hi hne => hx i (by simp [vars, hi]) hne) ((hc (.edge l r)).1 _ _ ht ir).1
      refine ⟨y, hy, ?_⟩
      have := condCdf_left cop (Function.update x (own l (!d.1)) y) g hd true
      rw [own_left hd] at this
      rw [this, e, condCdf_congr cop (Function.update x (own l (!d.1)) y) x gr (fun i hi => Function.update_of_ne (fun e : i = own l (!d.1) => a1 (e ▸ hi)) _ _)]
      exact ((hc (.edge l r)).1 _ _ ht ir).2

/-- A copula that is symmetric in its two arguments, as seen by its partial derivatives. -/
def Exchangeable (c : Cop ℝ) : Prop := ∀ u v, Inside u → Inside v → c.partialDerivative true (u, v) = c.partialDerivative false (v, u)

/-- The inverse used on the right side is right for a symmetric copula. -/
theorem right_inverse {c : Cop ℝ} (hc : IsInverse c.partialDerivative c.inversePartialDerivative) (he : Exchangeable c) {u v : ℝ} (hu : Inside u) (hv : Inside v) :
    c.inversePartialDerivative false (c.partialDerivative true (u, v), u) = v := by
  rw [he u v hu hv]
  exact (hc.2.2.1 v u hv hu).2

/-- The edges that an entry of the queue leaves to the right on its way down: there the code calls the inverse for the wrong margin. -/
def rightEdges : Node → Bool → List Node
  | .root _, _ => []
  | .edge l r, b => match sides l r with
    | none => []
    | some d => if b then rightEdges l (!d.1) else .edge l r :: rightEdges r (!d.2)

/-- The value of a node is stored in it. -/
def Stored (s : State ℝ) : Node → Bool → Prop
  | .root i, _ => s.pseudo i ≠ none
  | .edge l r, b => s.cache (.edge l r) b ≠ none

theorem stored_assign (s : State ℝ) (n : Node) (b : Bool) (t : ℝ) : Stored (s.assign n b t) n b := by
  cases n <;> simp [Stored, State.assign]

theorem Extends.stored {s s' : State ℝ} (h : Extends s s') {n : Node} {b : Bool} (e : Stored s n b) : Stored s' n b := by
  cases n with
  | root i => exact h.known e
  | edge l r =>
    obtain ⟨t, ht⟩ := Option.ne_none_iff_exists'.1 e
    obtain ⟨t', ht'⟩ := h.cache _ _ _ ht
    simp [Stored, ht']

/-- Working off one entry of the queue brings the value of its variable into the root node. -/
theorem descend_spec {cop : Node → Cop ℝ} (hc : ∀ n, IsInverse (cop n).partialDerivative (cop n).inversePartialDerivative) {x : ℕ → ℝ} {n : Node} (g : Good n) (b : Bool)
    (he : ∀ m ∈ rightEdges n b, Exchangeable (cop m))
    (hx : ∀ i ∈ vars n, Inside (x i)) {s : State ℝ} (hs : Sound cop x s) (hk : ∀ i ∈ vars n, i ≠ own n b → s.pseudo i ≠ none) (hv : Stored s n b) :
    ∃ s', descend cop n b s = some s' ∧ Sound cop x s' ∧ Extends s s' ∧ s'.pseudo (own n b) ≠ none := by
  induction g generalizing b s with
  | root i => exact ⟨s, rfl, hs, Extends.refl s, hv⟩
  | edge l r d gl gr hd a1 a2 b1 b2 ihl ihr =>
    have g : Good (.edge l r) := .edge l r d gl gr hd a1 a2 b1 b2
    obtain ⟨t, ht⟩ := Option.ne_none_iff_exists'.1 hv
    have et := hs.cache _ b t g ht
    have er : read cop (.edge l r) b s = some (t, s) := by rw [read, ht]
    have il := condCdf_inside hc gl (fun i hi => hx i (by simp [vars, hi])) (!d.1)
    have ir := condCdf_inside hc gr (fun i hi => hx i (by simp [vars, hi])) (!d.2)
    rw [condCdf_left cop x g hd] at et
    cases b
    · simp only [rightEdges, hd, Bool.false_eq_true, if_false, List.mem_cons, forall_eq_or_imp] at he
      rw [own_right hd] at hk ⊢
      obtain ⟨s1, e1, hs1, x1⟩ := read_spec gl (!d.1) hs (fun i hi => hk i (by simp [vars, hi]) (fun e => b1 (e ▸ hi)))
      have ev : (cop (.edge l r)).inversePartialDerivative false (t, condCdf cop x l (own l (!d.1))) = condCdf cop x r (own r (!d.2)) := by
        rw [et]
        exact right_inverse (hc _) he.1 il ir
      obtain ⟨s2, e2, hs2, x2, k2⟩ := ihr (!d.2) he.2 (fun i hi => hx i (by simp [vars, hi])) (assign_sound hs1 ev)
        (fun i hi hne => (x1.trans (assign_extends hs1 ev)).known (hk i (by simp [vars, hi]) hne)) (stored_assign _ _ _ _)
      refine ⟨s2, ?_, hs2, (x1.trans (assign_extends hs1 ev)).trans x2, k2⟩
      simp only [descend, hd, Option.bind_some, er, e1, Bool.false_eq_true, if_false]
      exact e2
    · simp only [rightEdges, hd, if_true] at he
      rw [own_left hd] at hk ⊢
      obtain ⟨s1, e1, hs1, x1⟩ := read_spec gr (!d.2) hs (fun i hi => hk i (by simp [vars, hi]) (fun e => a1 (e ▸ hi)))
      have ev : (cop (.edge l r)).inversePartialDerivative false (t, condCdf cop x r (own r (!d.2))) = condCdf cop x l (own l (!d.1)) := by
        rw [et]
        exact ((hc _).2.2.1 _ _ il ir).2
      obtain ⟨s2, e2, hs2, x2, k2⟩ := ihl (!d.1) he (fun i hi => hx i (by simp [vars, hi])) (assign_sound hs1 ev)
        (fun i hi hne => (x1.trans (assign_extends hs1 ev)).known (hk i (by simp [vars, hi]) hne)) (stored_assign _ _ _ _)
      refine ⟨s2, ?_, hs2, (x1.trans (assign_extends hs1 ev)).trans x2, k2⟩
      simp only [descend, hd, Option.bind_some, er, e1, if_true]
      exact e2

end Skfolio.Vine
