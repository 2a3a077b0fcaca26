import Verif.Vine.VisitModel
import Verif.Vine.Spec
import Mathlib.Algebra.Field.Rat
import Mathlib.Tactic.SplitIfs
import Mathlib.Logic.Basic

/-! C96: what `VineCopula.sample` drops on the way is not needed any more. -/
set_option autoImplicit false

namespace Skfolio.Vine

variable {K : Type}

/-! ### The machine that keeps all values, with the number of reads -/

/-- `read` with a count of the reads of every value. -/
def readN (cop : Node → Cop K) : Node → Bool → State K → (Node → Bool → ℕ) → Option (K × State K × (Node → Bool → ℕ))
  | .root i, _, s, f => (s.pseudo i).map fun t => (t, s, f)
  | .edge l r, isLeft, s, f =>
    match s.cache (.edge l r) isLeft with
    | some t => some (t, s, bump f (.edge l r) isLeft)
    | none => (sides l r).bind fun d => (readN cop l (!d.1) s (bump f (.edge l r) isLeft)).bind fun p => (readN cop r (!d.2) p.2.1 p.2.2).bind fun q =>
        let t := (cop (.edge l r)).partialDerivative (!isLeft) (p.1, q.1)
        some (t, q.2.1.assign (.edge l r) isLeft t, q.2.2)

/-- `descend` with a count of the reads of every value. -/
def descendN (cop : Node → Cop K) : Node → Bool → State K → (Node → Bool → ℕ) → Option (State K × (Node → Bool → ℕ))
  | .root _, _, s, f => some (s, f)
  | .edge l r, isLeft, s, f =>
    (sides l r).bind fun d => (readN cop (.edge l r) isLeft s f).bind fun p =>
      if isLeft then
        (readN cop r (!d.2) p.2.1 p.2.2).bind fun q => descendN cop l (!d.1) (q.2.1.assign l (!d.1) ((cop (.edge l r)).inversePartialDerivative false (p.1, q.1))) q.2.2
      else
        (readN cop l (!d.1) p.2.1 p.2.2).bind fun q => descendN cop r (!d.2) (q.2.1.assign r (!d.2) ((cop (.edge l r)).inversePartialDerivative false (p.1, q.1))) q.2.2

/-- The entries of the order one after the other, with a count of the reads of every value. -/
def runN (cop : Node → Cop K) : List (Node × Bool × K) → State K → (Node → Bool → ℕ) → Option (State K × (Node → Bool → ℕ))
  | [], s, f => some (s, f)
  | e :: rest, s, f => (descendN cop e.1 e.2.1 s f).bind fun p => runN cop rest p.1 p.2

theorem readN_read (cop : Node → Cop K) (n : Node) (b : Bool) (s : State K) (f : Node → Bool → ℕ) : (readN cop n b s f).map (fun p => (p.1, p.2.1)) = read cop n b s := by
  induction n generalizing b s f with
  | root i => cases h : s.pseudo i <;> simp [readN, read, h]
  | edge l r ihl ihr =>
    cases h : s.cache (.edge l r) b with
    | some t => simp [readN, read, h]
    | none =>
      cases hd : sides l r with
      | none => simp [readN, read, h, hd]
      | some d =>
        simp only [readN, read, h, hd, Option.bind_some]
        rw [← ihl (!d.1) s (bump f (.edge l r) b)]
        cases hp : readN cop l (!d.1) s (bump f (.edge l r) b) with
        | none => simp
        | some p =>
          simp only [Option.map_some, Option.bind_some]
          rw [← ihr (!d.2) p.2.1 p.2.2]
          cases hq : readN cop r (!d.2) p.2.1 p.2.2 <;> simp

theorem descendN_descend (cop : Node → Cop K) (n : Node) (b : Bool) (s : State K) (f : Node → Bool → ℕ) : (descendN cop n b s f).map Prod.fst = descend cop n b s := by
  induction n generalizing b s f with
  | root i => simp [descendN, descend]
  | edge l r ihl ihr =>
    cases hd : sides l r with
    | none => simp [descendN, descend, hd]
    | some d =>
      simp only [descendN, descend, hd, Option.bind_some]
      rw [← readN_read cop (.edge l r) b s f]
      cases hp : readN cop (.edge l r) b s f with
      | none => simp
      | some p =>
        simp only [Option.map_some, Option.bind_some]
        cases b
        · simp only [Bool.false_eq_true, if_false]
          rw [← readN_read cop l (!d.1) p.2.1 p.2.2]
          cases hq : readN cop l (!d.1) p.2.1 p.2.2 with
          | none => simp
          | some q => simpa using ihr _ _ _
        · simp only [if_true]
          rw [← readN_read cop r (!d.2) p.2.1 p.2.2]
          cases hq : readN cop r (!d.2) p.2.1 p.2.2 with
          | none => simp
          | some q => simpa using ihl _ _ _

theorem runN_run (cop : Node → Cop K) (order : List (Node × Bool × K)) (s : State K) (f : Node → Bool → ℕ) :
    (runN cop order s f).map Prod.fst = order.foldlM (fun s e => descend cop e.1 e.2.1 s) s := by
  induction order generalizing s f with
  | nil => simp [runN]
  | cons e rest ih =>
    rw [List.foldlM_cons, runN, ← descendN_descend cop e.1 e.2.1 s f]
    cases h : descendN cop e.1 e.2.1 s f with
    | none => simp
    | some p => simpa using ih p.1 p.2

/-! ### Reads are only added -/

theorem bump_le (f : Node → Bool → ℕ) (n : Node) (b : Bool) : f ≤ bump f n b := by
  intro m c
  by_cases h : m = n ∧ c = b <;> simp [bump, h]

theorem bump_self (f : Node → Bool → ℕ) (n : Node) (b : Bool) : bump f n b n b = f n b + 1 := by simp [bump]

theorem bump_of_ne {f : Node → Bool → ℕ} {n m : Node} {b c : Bool} (h : ¬(m = n ∧ c = b)) : bump f n b m c = f m c := by simp [bump, h]

theorem readN_le (cop : Node → Cop K) {n : Node} {b : Bool} {s : State K} {f : Node → Bool → ℕ} {p} (h : readN cop n b s f = some p) : f ≤ p.2.2 := by
  induction n generalizing b s f p with
  | root i =>
    simp only [readN, Option.map_eq_some_iff] at h
    obtain ⟨t, _, rfl⟩ := h
    exact le_refl _
  | edge l r ihl ihr =>
    cases hc : s.cache (.edge l r) b with
    | some t =>
      simp only [readN, hc, Option.some.injEq] at h
      subst h
      exact bump_le f _ _
    | none =>
      simp only [readN, hc, Option.bind_eq_some_iff, Option.some.injEq] at h
      obtain ⟨d, hd, p1, h1, p2, h2, rfl⟩ := h
      change f ≤ p2.2.2
      exact le_trans (bump_le f (.edge l r) b) (le_trans (ihl h1) (ihr h2))

theorem readN_bump_le (cop : Node → Cop K) {l r : Node} {b : Bool} {s : State K} {f : Node → Bool → ℕ} {p} (h : readN cop (.edge l r) b s f = some p) : bump f (.edge l r) b ≤ p.2.2 := by
  cases hc : s.cache (.edge l r) b with
  | some t =>
    simp only [readN, hc, Option.some.injEq] at h
    subst h
    exact le_refl _
  | none =>
    simp only [readN, hc, Option.bind_eq_some_iff, Option.some.injEq] at h
    obtain ⟨d, hd, p1, h1, p2, h2, rfl⟩ := h
    change bump f (.edge l r) b ≤ p2.2.2
    exact le_trans (readN_le cop h1) (readN_le cop h2)

theorem descendN_le (cop : Node → Cop K) {n : Node} {b : Bool} {s : State K} {f : Node → Bool → ℕ} {p} (h : descendN cop n b s f = some p) : f ≤ p.2 := by
  induction n generalizing b s f p with
  | root i =>
    simp only [descendN, Option.some.injEq] at h
    subst h
    exact le_refl _
  | edge l r ihl ihr =>
    simp only [descendN, Option.bind_eq_some_iff] at h
    obtain ⟨d, hd, p1, h1, h⟩ := h
    cases b
    · simp only [Bool.false_eq_true, if_false, Option.bind_eq_some_iff] at h
      obtain ⟨q, h2, h3⟩ := h
      exact le_trans (readN_le cop h1) (le_trans (readN_le cop h2) (ihr h3))
    · simp only [if_true, Option.bind_eq_some_iff] at h
      obtain ⟨q, h2, h3⟩ := h
      exact le_trans (readN_le cop h1) (le_trans (readN_le cop h2) (ihl h3))

theorem descendN_bump_le (cop : Node → Cop K) {l r : Node} {b : Bool} {s : State K} {f : Node → Bool → ℕ} {p} (h : descendN cop (.edge l r) b s f = some p) : bump f (.edge l r) b ≤ p.2 := by
  simp only [descendN, Option.bind_eq_some_iff] at h
  obtain ⟨d, hd, p1, h1, h⟩ := h
  refine le_trans (readN_bump_le cop h1) ?_
  cases b
  · simp only [Bool.false_eq_true, if_false, Option.bind_eq_some_iff] at h
    obtain ⟨q, h2, h3⟩ := h
    exact le_trans (readN_le cop h2) (descendN_le cop h3)
  · simp only [if_true, Option.bind_eq_some_iff] at h
    obtain ⟨q, h2, h3⟩ := h
    exact le_trans (readN_le cop h2) (descendN_le cop h3)

theorem runN_le (cop : Node → Cop K) {order : List (Node × Bool × K)} {s : State K} {f : Node → Bool → ℕ} {p} (h : runN cop order s f = some p) : f ≤ p.2 := by
  induction order generalizing s f with
  | nil =>
    simp only [runN, Option.some.injEq] at h
    subst h
    exact le_refl _
  | cons e rest ih =>
    simp only [runN, Option.bind_eq_some_iff] at h
    obtain ⟨p1, h1, h2⟩ := h
    exact le_trans (descendN_le cop h1) (ih h2)

/-! ### The first pass counts the reads -/

/-- Two results are both exceptions, or both values in relation. -/
def Both {α β : Type} (R : α → β → Prop) : Option α → Option β → Prop
  | none, none => True
  | some a, some b => R a b
  | _, _ => False

theorem Both.bind {α β γ δ : Type} {R : α → β → Prop} {S : γ → δ → Prop} {x : Option α} {y : Option β} {f : α → Option γ} {g : β → Option δ} (h : Both R x y) (hs : ∀ a b, R a b → Both S (f a) (g b)) : Both S (x.bind f) (y.bind g) := by
  cases x <;> cases y <;> simp_all [Both]

/-- In the first pass the same values are present as if all values were kept, and the totals are the numbers of reads, except that terminal nodes do not count. -/
structure Counts (top : Node → Bool) (s : State K) (f : Node → Bool → ℕ) (v : VState K) : Prop where
  pseudo : ∀ i, (v.pseudo i).isSome = (s.pseudo i).isSome
  cache : ∀ n b, (v.cache n b).isSome = (s.cache n b).isSome
  total : ∀ n b, v.total n b = if top n then 0 else f n b
  count : ∀ n b, top n = false → v.count n b = 0

theorem Counts.assign {top : Node → Bool} {s : State K} {f : Node → Bool → ℕ} {v : VState K} (h : Counts top s f v) (n : Node) (b : Bool) (t t' : K) : Counts top (s.assign n b t) f (v.assign n b t') := by
  obtain ⟨h1, h2, h3, h4⟩ := h
  cases n with
  | root i =>
    refine ⟨fun j => ?_, h2, h3, h4⟩
    simp only [State.assign, VState.assign]
    split_ifs
    · rfl
    · exact h1 j
  | edge l r =>
    refine ⟨h1, fun m c => ?_, h3, h4⟩
    simp only [State.assign, VState.assign]
    split_ifs
    · rfl
    · exact h2 m c

theorem Counts.enter {top : Node → Bool} {s : State K} {f : Node → Bool → ℕ} {v : VState K} (h : Counts top s f v) (n : Node) (b : Bool) : Counts top s (bump f n b) (v.enter (true && !top n) n b) := by
  obtain ⟨h1, h2, h3, h4⟩ := h
  cases ht : top n with
  | true =>
    refine ⟨h1, h2, fun m c => ?_, fun m c hm => ?_⟩
    rotate_left
    · have e : (v.enter (true && !true) n b).count m c = bump v.count n b m c := rfl
      rw [e, bump_of_ne, h4 m c hm]
      rintro ⟨rfl, _⟩
      rw [ht] at hm
      cases hm
    have e : (v.enter (true && !true) n b).total m c = v.total m c := rfl
    rw [e, h3]
    split_ifs with hm
    · rfl
    · rw [bump_of_ne]
      rintro ⟨rfl, _⟩
      exact hm ht
  | false =>
    refine ⟨h1, h2, fun m c => ?_, h4⟩
    have e : (v.enter (true && !false) n b).total m c = bump v.total n b m c := rfl
    rw [e]
    by_cases hm : m = n ∧ c = b
    · obtain ⟨rfl, rfl⟩ := hm
      rw [bump_self, bump_self, h3]
      simp [ht]
    · rw [bump_of_ne hm, bump_of_ne hm, h3]

theorem Counts.leave {top : Node → Bool} {s : State K} {f : Node → Bool → ℕ} {v : VState K} (h : Counts top s f v) (n : Node) (b : Bool) : v.leave (true && !top n) n b = v := by
  cases ht : top n with
  | true => simp [VState.leave, h.total, ht]
  | false => simp [VState.leave]

theorem counts_read (top : Node → Bool) (nan : K) (cop : Node → Cop K) (n : Node) (b : Bool) (s : State K) (f : Node → Bool → ℕ) (v : VState K) (h : Counts top s f v) :
    Both (fun p q => Counts top p.2.1 p.2.2 q.2) (readN cop n b s f) (visit true top nan cop n b v) := by
  induction n generalizing b s f v with
  | root i =>
    have := h.pseudo i
    cases h1 : s.pseudo i <;> cases h2 : v.pseudo i <;> simp_all [readN, visit, Both]
  | edge l r ihl ihr =>
    have he := h.enter (.edge l r) b
    have hc := he.cache (.edge l r) b
    rw [Bool.true_and] at he hc
    cases h1 : s.cache (.edge l r) b with
    | some t =>
      cases h2 : (v.enter (!top (.edge l r)) (.edge l r) b).cache (.edge l r) b with
      | none => rw [h1, h2] at hc; cases hc
      | some t' =>
        simp only [readN, visit, h1, Bool.true_and, h2, Both]
        have := he.leave (.edge l r) b
        rw [Bool.true_and] at this
        rw [this]
        exact he
    | none =>
      cases h2 : (v.enter (!top (.edge l r)) (.edge l r) b).cache (.edge l r) b with
      | some t' => rw [h1, h2] at hc; cases hc
      | none =>
        cases hd : sides l r with
        | none => simp [readN, visit, h1, h2, hd, Both]
        | some d =>
          simp only [readN, visit, h1, Bool.true_and, h2, hd, Option.bind_some]
          refine (ihl (!d.1) _ _ _ he).bind fun p q hpq => (ihr (!d.2) _ _ _ hpq).bind fun p' q' hpq' => ?_
          simp only [Both]
          have ha := hpq'.assign (.edge l r) b ((cop (.edge l r)).partialDerivative (!b) (p.1, p'.1)) (if (!top (.edge l r)) = true then nan else (cop (.edge l r)).partialDerivative (!b) (q.1, q'.1))
          have := ha.leave (.edge l r) b
          rw [Bool.true_and] at this
          rw [this]
          exact ha

theorem counts_descend (top : Node → Bool) (nan : K) (cop : Node → Cop K) (n : Node) (b : Bool) (s : State K) (f : Node → Bool → ℕ) (v : VState K) (h : Counts top s f v) :
    Both (fun p q => Counts top p.1 p.2 q) (descendN cop n b s f) (descendV true top nan cop n b v) := by
  induction n generalizing b s f v with
  | root i => exact h
  | edge l r ihl ihr =>
    cases hd : sides l r with
    | none => simp [descendN, descendV, hd, Both]
    | some d =>
      simp only [descendN, descendV, hd, Option.bind_some]
      refine (counts_read top nan cop _ b s f v h).bind fun p q hpq => ?_
      cases b
      · simp only [Bool.false_eq_true, if_false]
        exact (counts_read top nan cop _ _ _ _ _ hpq).bind fun p' q' h' => ihr _ _ _ _ (h'.assign ..)
      · simp only [if_true]
        exact (counts_read top nan cop _ _ _ _ _ hpq).bind fun p' q' h' => ihl _ _ _ _ (h'.assign ..)

theorem counts_run (top : Node → Bool) (nan : K) (cop : Node → Cop K) (order : List (Node × Bool × K)) (s : State K) (f : Node → Bool → ℕ) (v : VState K) (h : Counts top s f v) :
    Both (fun p q => Counts top p.1 p.2 q) (runN cop order s f) (order.foldlM (fun s e => descendV true top nan cop e.1 e.2.1 s) v) := by
  induction order generalizing s f v with
  | nil => exact h
  | cons e rest ih =>
    rw [List.foldlM_cons, runN]
    exact (counts_descend top nan cop _ _ _ _ _ h).bind fun p q hpq => ih _ _ _ hpq

/-! ### The second pass drops values after their last read -/

/-- The state of the second pass beside that of the machine that keeps all values, after `f` reads. A value that is not read any more (`f = total`, not 0) is dropped, all others are there; the values in `busy`, being read, are there. -/
structure Drops (busy : Node → Bool → Prop) (s : State K) (f : Node → Bool → ℕ) (v : VState K) : Prop where
  pseudo : v.pseudo = s.pseudo
  uncounted : ∀ n b, v.total n b = 0 → v.cache n b = s.cache n b
  live : ∀ n b, v.total n b ≠ 0 → (busy n b ∨ f n b ≠ v.total n b) → v.cache n b = s.cache n b ∧ v.count n b = f n b
  dead : ∀ n b, v.total n b ≠ 0 → ¬busy n b → f n b = v.total n b → v.cache n b = none

/-- Sizes of nodes. -/
def Node.size : Node → ℕ
  | .root _ => 0
  | .edge l r => l.size + r.size + 1

theorem Drops.assign {busy : Node → Bool → Prop} {s : State K} {f : Node → Bool → ℕ} {v : VState K} (h : Drops busy s f v) (n : Node) (b : Bool) (t : K) (hf : ∀ l r, n = .edge l r → busy n b ∨ v.total n b = 0 ∨ f n b ≠ v.total n b) :
    Drops busy (s.assign n b t) f (v.assign n b t) := by
  obtain ⟨h1, h2, h3, h4⟩ := h
  cases n with
  | root i =>
    refine ⟨?_, h2, h3, h4⟩
    simp only [State.assign, VState.assign, h1]
  | edge l r =>
    refine ⟨h1, fun m c ht => ?_, fun m c ht hb => ?_, fun m c ht hb hf' => ?_⟩
    · have := h2 m c ht
      simp only [State.assign, VState.assign]
      split_ifs
      · rfl
      · exact this
    · have := h3 m c ht hb
      simp only [State.assign, VState.assign]
      split_ifs
      · exact ⟨rfl, this.2⟩
      · exact this
    · have := h4 m c ht hb hf'
      simp only [VState.assign]
      split_ifs with hm
      · obtain ⟨rfl, rfl⟩ := hm
        rcases hf l r rfl with h | h | h
        · exact absurd h hb
        · exact absurd h ht
        · exact absurd hf' h
      · exact this

/-- The beginning of a read makes the value busy. -/
theorem Drops.enter {busy : Node → Bool → Prop} {s : State K} {f : Node → Bool → ℕ} {v : VState K} (h : Drops busy s f v) (n : Node) (b : Bool) (hb : ¬busy n b) (hf : v.total n b = 0 ∨ f n b < v.total n b) :
    Drops (fun m c => busy m c ∨ (m = n ∧ c = b)) s (bump f n b) (v.enter false n b) := by
  obtain ⟨h1, h2, h3, h4⟩ := h
  refine ⟨h1, h2, fun m c ht hbm => ?_, fun m c ht hbm hfm => ?_⟩
  · change v.cache m c = s.cache m c ∧ bump v.count n b m c = bump f n b m c
    by_cases hm : m = n ∧ c = b
    · obtain ⟨rfl, rfl⟩ := hm
      have := h3 m c ht (Or.inr (by rcases hf with h | h; exacts [absurd h ht, h.ne]))
      rw [bump_self, bump_self, this.2]
      exact ⟨this.1, rfl⟩
    · rw [bump_of_ne hm, bump_of_ne hm]
      refine h3 m c ht ?_
      rw [bump_of_ne hm] at hbm
      rcases hbm with (h | h) | h
      · exact Or.inl h
      · exact absurd h hm
      · exact Or.inr h
  · have hm : ¬(m = n ∧ c = b) := fun e => hbm (Or.inr e)
    rw [bump_of_ne hm] at hfm
    exact h4 m c ht (fun e => hbm (Or.inl e)) hfm

/-- The end of a read, with the value there. -/
theorem Drops.leave {busy : Node → Bool → Prop} {s : State K} {f : Node → Bool → ℕ} {v : VState K} {n : Node} {b : Bool} (h : Drops (fun m c => busy m c ∨ (m = n ∧ c = b)) s f v) (hb : ¬busy n b) : Drops busy s f (v.leave false n b) := by
  obtain ⟨h1, h2, h3, h4⟩ := h
  unfold VState.leave
  split_ifs with hc
  · obtain ⟨_, ht0, hct⟩ := hc
    have hl := h3 n b ht0 (Or.inl (Or.inr ⟨rfl, rfl⟩))
    refine ⟨h1, fun m c ht => ?_, fun m c ht hbm => ?_, fun m c ht hbm hfm => ?_⟩
    · have hm : ¬(m = n ∧ c = b) := by
        rintro ⟨rfl, rfl⟩
        exact ht0 ht
      simpa only [hm, if_false] using h2 m c ht
    · have hm : ¬(m = n ∧ c = b) := by
        rintro ⟨rfl, rfl⟩
        rcases hbm with h | h
        · exact hb h
        · exact h (by rw [← hl.2, hct])
      simp only [hm, if_false]
      exact h3 m c ht (by rcases hbm with h | h; exacts [Or.inl (Or.inl h), Or.inr h])
    · by_cases hm : m = n ∧ c = b
      · simp only [hm, and_self, if_true]
      · simp only [hm, if_false]
        exact h4 m c ht (fun e => e.elim hbm hm) hfm
  · refine ⟨h1, h2, fun m c ht hbm => h3 m c ht (by rcases hbm with h | h; exacts [Or.inl (Or.inl h), Or.inr h]), fun m c ht hbm hfm => ?_⟩
    by_cases hm : m = n ∧ c = b
    · obtain ⟨rfl, rfl⟩ := hm
      have hl := h3 m c ht (Or.inl (Or.inr ⟨rfl, rfl⟩))
      exact absurd ⟨rfl, ht, by rw [hl.2, hfm]⟩ hc
    · exact h4 m c ht (fun e => e.elim hbm hm) hfm

/-- No value is read more often than counted. -/
def Within (f : Node → Bool → ℕ) (total : Node → Bool → ℕ) : Prop := ∀ n b, total n b = 0 ∨ f n b ≤ total n b

theorem Within.of_le {f g total : Node → Bool → ℕ} (h : Within g total) (hl : f ≤ g) : Within f total := fun n b => (h n b).imp id (le_trans (hl n b))

theorem total_assign (v : VState K) (n : Node) (b : Bool) (t : K) : (v.assign n b t).total = v.total := by cases n <;> rfl

theorem total_leave (v : VState K) (c : Bool) (n : Node) (b : Bool) : (v.leave c n b).total = v.total := by
  unfold VState.leave
  split_ifs <;> rfl

theorem drops_read (top : Node → Bool) (nan : K) (cop : Node → Cop K) (n : Node) (b : Bool) (busy : Node → Bool → Prop) (hbusy : ∀ m c, busy m c → n.size < m.size) (s : State K) (f : Node → Bool → ℕ) (v : VState K) (h : Drops busy s f v) (p)
    (hp : readN cop n b s f = some p) (hw : Within p.2.2 v.total) : ∃ v', visit false top nan cop n b v = some (p.1, v') ∧ Drops busy p.2.1 p.2.2 v' ∧ v'.total = v.total := by
  induction n generalizing b busy s f v p with
  | root i =>
    simp only [readN, Option.map_eq_some_iff] at hp
    obtain ⟨t, ht, rfl⟩ := hp
    exact ⟨v, by simp [visit, h.pseudo, ht], h, rfl⟩
  | edge l r ihl ihr =>
    have hb : ¬busy (.edge l r) b := fun e => absurd (hbusy _ _ e) (lt_irrefl _)
    have hlt : v.total (.edge l r) b = 0 ∨ f (.edge l r) b < v.total (.edge l r) b := by
      refine (hw (.edge l r) b).imp id fun e => ?_
      have : bump f (.edge l r) b (.edge l r) b ≤ p.2.2 (.edge l r) b := readN_bump_le cop hp (.edge l r) b
      rw [bump_self] at this
      omega
    have he := h.enter (.edge l r) b hb hlt
    have hcache : (v.enter false (.edge l r) b).cache (.edge l r) b = s.cache (.edge l r) b := by
      by_cases h0 : v.total (.edge l r) b = 0
      · exact he.uncounted _ _ h0
      · exact (he.live _ _ h0 (Or.inl (Or.inr ⟨rfl, rfl⟩))).1
    cases hc : s.cache (.edge l r) b with
    | some t =>
      simp only [readN, hc, Option.some.injEq] at hp
      subst hp
      refine ⟨(v.enter false (.edge l r) b).leave false (.edge l r) b, ?_, he.leave hb, ?_⟩
      · rw [hc] at hcache
        simp only [visit, Bool.false_and, hcache]
      · rw [total_leave]
        rfl
    | none =>
      rw [hc] at hcache
      simp only [readN, hc, Option.bind_eq_some_iff, Option.some.injEq] at hp
      obtain ⟨d, hd, p1, h1, p2, h2, rfl⟩ := hp
      change Within p2.2.2 v.total at hw
      have hsl : l.size < (Node.edge l r).size := by simp only [Node.size]; omega
      have hsr : r.size < (Node.edge l r).size := by simp only [Node.size]; omega
      obtain ⟨v1, e1, d1, t1⟩ := ihl (!d.1) _ (fun m c e => e.elim (fun e => hsl.trans (hbusy m c e)) (fun e => e.1 ▸ hsl)) _ _ _ he _ h1 (hw.of_le (readN_le cop h2))
      have t1' : v1.total = v.total := t1
      obtain ⟨v2, e2, d2, t2⟩ := ihr (!d.2) _ (fun m c e => e.elim (fun e => hsr.trans (hbusy m c e)) (fun e => e.1 ▸ hsr)) _ _ _ d1 _ h2 (t1' ▸ hw)
      refine ⟨(v2.assign (.edge l r) b ((cop (.edge l r)).partialDerivative (!b) (p1.1, p2.1))).leave false (.edge l r) b, ?_, (d2.assign (.edge l r) b _ fun _ _ _ => Or.inl (Or.inr ⟨rfl, rfl⟩)).leave hb, ?_⟩
      · simp [visit, hcache, hd, e1, e2]
      · rw [total_leave, total_assign, t2, t1']

theorem drops_descend (top : Node → Bool) (nan : K) (cop : Node → Cop K) (n : Node) (b : Bool) (s : State K) (f : Node → Bool → ℕ) (v : VState K) (h : Drops (fun _ _ => False) s f v) (p)
    (hp : descendN cop n b s f = some p) (hw : Within p.2 v.total) : ∃ v', descendV false top nan cop n b v = some v' ∧ Drops (fun _ _ => False) p.1 p.2 v' ∧ v'.total = v.total := by
  induction n generalizing b s f v p with
  | root i =>
    simp only [descendN, Option.some.injEq] at hp
    subst hp
    exact ⟨v, rfl, h, rfl⟩
  | edge l r ihl ihr =>
    simp only [descendN, Option.bind_eq_some_iff] at hp
    obtain ⟨d, hd, p1, h1, hp⟩ := hp
    cases b
    · simp only [Bool.false_eq_true, if_false, Option.bind_eq_some_iff] at hp
      obtain ⟨q, h2, h3⟩ := hp
      obtain ⟨v1, e1, d1, t1⟩ := drops_read top nan cop _ _ _ (fun _ _ e => e.elim) _ _ _ h _ h1 (hw.of_le ((readN_le cop h2).trans (descendN_le cop h3)))
      obtain ⟨v2, e2, d2, t2⟩ := drops_read top nan cop _ _ _ (fun _ _ e => e.elim) _ _ _ d1 _ h2 (t1 ▸ hw.of_le (descendN_le cop h3))
      have ht : v2.total = v.total := t2.trans t1
      obtain ⟨v3, e3, d3, t3⟩ := ihr (!d.2) _ _ _ (d2.assign r (!d.2) ((cop (.edge l r)).inversePartialDerivative false (p1.1, q.1)) fun a c e => by
        subst e
        rw [ht]
        refine Or.inr ((hw (.edge a c) (!d.2)).imp id fun e => ?_)
        have : bump q.2.2 (.edge a c) (!d.2) (.edge a c) (!d.2) ≤ p.2 (.edge a c) (!d.2) := descendN_bump_le cop h3 (.edge a c) (!d.2)
        rw [bump_self] at this
        omega) _ h3 (by rw [total_assign, ht]; exact hw)
      refine ⟨v3, ?_, d3, by rw [t3, total_assign, ht]⟩
      simpa [descendV, hd, e1, e2, inverseOrNan] using e3
    · simp only [if_true, Option.bind_eq_some_iff] at hp
      obtain ⟨q, h2, h3⟩ := hp
      obtain ⟨v1, e1, d1, t1⟩ := drops_read top nan cop _ _ _ (fun _ _ e => e.elim) _ _ _ h _ h1 (hw.of_le ((readN_le cop h2).trans (descendN_le cop h3)))
      obtain ⟨v2, e2, d2, t2⟩ := drops_read top nan cop _ _ _ (fun _ _ e => e.elim) _ _ _ d1 _ h2 (t1 ▸ hw.of_le (descendN_le cop h3))
      have ht : v2.total = v.total := t2.trans t1
      obtain ⟨v3, e3, d3, t3⟩ := ihl (!d.1) _ _ _ (d2.assign l (!d.1) ((cop (.edge l r)).inversePartialDerivative false (p1.1, q.1)) fun a c e => by
        subst e
        rw [ht]
        refine Or.inr ((hw (.edge a c) (!d.1)).imp id fun e => ?_)
        have : bump q.2.2 (.edge a c) (!d.1) (.edge a c) (!d.1) ≤ p.2 (.edge a c) (!d.1) := descendN_bump_le cop h3 (.edge a c) (!d.1)
        rw [bump_self] at this
        omega) _ h3 (by rw [total_assign, ht]; exact hw)
      refine ⟨v3, ?_, d3, by rw [t3, total_assign, ht]⟩
      simpa [descendV, hd, e1, e2, inverseOrNan] using e3

theorem drops_run (top : Node → Bool) (nan : K) (cop : Node → Cop K) (order : List (Node × Bool × K)) (s : State K) (f : Node → Bool → ℕ) (v : VState K) (h : Drops (fun _ _ => False) s f v) (p)
    (hp : runN cop order s f = some p) (hw : Within p.2 v.total) : ∃ v', order.foldlM (fun s e => descendV false top nan cop e.1 e.2.1 s) v = some v' ∧ Drops (fun _ _ => False) p.1 p.2 v' ∧ v'.total = v.total := by
  induction order generalizing s f v with
  | nil =>
    simp only [runN, Option.some.injEq] at hp
    subst hp
    exact ⟨v, rfl, h, rfl⟩
  | cons e rest ih =>
    simp only [runN, Option.bind_eq_some_iff] at hp
    obtain ⟨p1, h1, h2⟩ := hp
    obtain ⟨v1, e1, d1, t1⟩ := drops_descend top nan cop _ _ _ _ _ h _ h1 (hw.of_le (runN_le cop h2))
    obtain ⟨v2, e2, d2, t2⟩ := ih _ _ _ d1 h2 (t1 ▸ hw)
    exact ⟨v2, by rw [List.foldlM_cons, e1]; exact e2, d2, t2.trans t1⟩

/-! ### C96 -/

theorem counts_init (top : Node → Bool) (nan : K) (order : List (Node × Bool × K)) (s : State K) (f : Node → Bool → ℕ) (v : VState K) (h : Counts top s f v) :
    Counts top (order.foldl (fun s e => s.assign e.1 e.2.1 e.2.2) s) f (order.foldl (fun s e => s.assign e.1 e.2.1 (if true then nan else e.2.2)) v) := by
  induction order generalizing s v with
  | nil => exact h
  | cons e rest ih => exact ih _ _ (h.assign ..)

theorem drops_init (nan : K) (order : List (Node × Bool × K)) (s : State K) (v : VState K) (h : Drops (fun _ _ => False) s (fun _ _ => 0) v) :
    Drops (fun _ _ => False) (order.foldl (fun s e => s.assign e.1 e.2.1 e.2.2) s) (fun _ _ => 0) (order.foldl (fun s e => s.assign e.1 e.2.1 (if false = true then nan else e.2.2)) v) ∧
      (order.foldl (fun s e => s.assign e.1 e.2.1 (if false = true then nan else e.2.2)) v).total = v.total := by
  induction order generalizing s v with
  | nil => exact ⟨h, rfl⟩
  | cons e rest ih =>
    have := ih _ _ (h.assign e.1 e.2.1 e.2.2 fun _ _ _ => Or.inr (by by_cases h0 : v.total e.1 e.2.1 = 0; exacts [Or.inl h0, Or.inr (Ne.symm h0)]))
    rw [total_assign] at this
    exact this

/-- The run of the machine that keeps all values, from the beginning, with the counts of the reads. -/
def runFull (cop : Node → Cop K) (order : List (Node × Bool × K)) : Option (State K × (Node → Bool → ℕ)) :=
  runN cop order (order.foldl (fun s e => s.assign e.1 e.2.1 e.2.2) State.empty) fun _ _ => 0

theorem runFull_propagate (cop : Node → Cop K) (order : List (Node × Bool × K)) : (runFull cop order).map Prod.fst = propagate cop order := runN_run ..

theorem first_pass (top : Node → Bool) (nan : K) (cop : Node → Cop K) (order : List (Node × Bool × K)) (s : VState K) :
    Both (fun p q => Counts top p.1 p.2 q) (runFull cop order) (propagateV true top nan cop order (s.clear true)) :=
  counts_run top nan cop order _ _ _ (counts_init top nan order _ _ _ ⟨fun _ => rfl, fun _ _ => rfl, fun n b => by simp [VState.clear], fun n b _ => by simp [VState.clear]⟩)

theorem second_pass (top : Node → Bool) (nan : K) (cop : Node → Cop K) (order : List (Node × Bool × K)) (s : VState K) {p : State K × (Node → Bool → ℕ)} (hp : runFull cop order = some p) :
    ∃ v, sampleV top nan cop order s = some v ∧ v.pseudo = p.1.pseudo ∧ ∀ n b, (top n = false → v.total n b = p.2 n b) ∧ (v.total n b = 0 → v.cache n b = p.1.cache n b) ∧ (v.total n b ≠ 0 → v.cache n b = none) := by
  have h1 := first_pass top nan cop order s
  rw [hp] at h1
  cases hv : propagateV true top nan cop order (s.clear true) with
  | none => simp [hv, Both] at h1
  | some s1 =>
    rw [hv] at h1
    have h1 : Counts top p.1 p.2 s1 := h1
    have ht : ∀ n b, (s1.clear false).total n b = if top n then 0 else p.2 n b := h1.total
    have h0 : Drops (fun _ _ => False) State.empty (fun _ _ => 0) (s1.clear false) := ⟨rfl, fun _ _ _ => rfl, fun n b hn hb => ⟨rfl, h1.count n b (by
      rw [ht] at hn
      cases hx : top n with
      | false => rfl
      | true => simp [hx] at hn)⟩, fun _ _ _ _ _ => rfl⟩
    obtain ⟨d, t⟩ := drops_init nan order _ _ h0
    · obtain ⟨v, e, d', t'⟩ := drops_run top nan cop order _ _ _ d p hp fun n b => by
        rw [t, ht]
        split_ifs
        · exact Or.inl rfl
        · exact Or.inr (le_refl _)
      refine ⟨v, ?_, d'.pseudo, fun n b => ⟨fun hn => ?_, d'.uncounted n b, fun h0 => ?_⟩⟩
      · rw [sampleV, hv]
        exact e
      · rw [t', t, ht, hn]
        rfl
      · refine d'.dead n b h0 (fun e => e) ?_
        rw [t', t, ht] at h0 ⊢
        split_ifs at h0 ⊢ with hn
        · exact absurd rfl h0
        · rfl

/-- **C96.** Sampling in two passes, with values dropped on the way, ends with the values of all assets, or the exception, of sampling with all values kept, whatever the nodes hold before, for all orders, initial samples and copulas, wherever the
terminal nodes are. -/
theorem C96_values (top : Node → Bool) (nan : K) (cop : Node → Cop K) (order : List (Node × Bool × K)) (s : VState K) : (sampleV top nan cop order s).map VState.pseudo = (propagate cop order).map State.pseudo := by
  rw [← runFull_propagate]
  cases hp : runFull cop order with
  | some p =>
    obtain ⟨v, e, h, _⟩ := second_pass top nan cop order s hp
    simp [e, h]
  | none =>
    have h1 := first_pass top nan cop order s
    rw [hp] at h1
    cases hv : propagateV true top nan cop order (s.clear true) with
    | some s1 => simp [hv, Both] at h1
    | none => simp [sampleV, hv]

/-- **C96.** The values do not depend on what an earlier call left in the nodes: values, counts or totals. -/
theorem C96_fresh (top : Node → Bool) (nan : K) (cop : Node → Cop K) (order : List (Node × Bool × K)) (s s' : VState K) : (sampleV top nan cop order s).map VState.pseudo = (sampleV top nan cop order s').map VState.pseudo := by
  rw [C96_values, C96_values]

/-- **C96.** When sampling ends, every value of a node of a tree that has been read at least once is dropped; a value that is still stored has never been read or belongs to a terminal node, and is the one kept. `p.2` are the numbers of reads. -/
theorem C96_dropped (top : Node → Bool) (nan : K) (cop : Node → Cop K) (order : List (Node × Bool × K)) (s v : VState K) (h : sampleV top nan cop order s = some v) :
    ∃ p, runFull cop order = some p ∧ propagate cop order = some p.1 ∧ ∀ n b, (top n = false → p.2 n b ≠ 0 → v.cache n b = none) ∧ ∀ t, v.cache n b = some t → (top n = true ∨ p.2 n b = 0) ∧ p.1.cache n b = some t := by
  cases hp : runFull cop order with
  | none =>
    have h1 := C96_values top nan cop order s
    rw [← runFull_propagate, hp, h] at h1
    cases h1
  | some p =>
    obtain ⟨v', e, _, h2⟩ := second_pass top nan cop order s hp
    rw [h, Option.some.injEq] at e
    subst e
    refine ⟨p, rfl, by rw [← runFull_propagate, hp]; rfl, fun n b => ⟨fun hn h0 => (h2 n b).2.2 (by rw [(h2 n b).1 hn]; exact h0), fun t ht => ?_⟩⟩
    have h0 : v.total n b = 0 := by
      rcases Nat.eq_zero_or_pos (v.total n b) with h0 | h0
      · exact h0
      · rw [(h2 n b).2.2 (by omega)] at ht
        cases ht
    refine ⟨?_, by rw [← (h2 n b).2.1 h0, ht]⟩
    cases hn : top n with
    | true => exact Or.inl rfl
    | false => exact Or.inr (by rw [← (h2 n b).1 hn, h0])

/-! A vine of four assets: the pairs 01, 12, 23; then 01-12 and 12-23; then one node on top. -/

private def p01 : Node := .edge (.root 0) (.root 1)
private def p12 : Node := .edge (.root 1) (.root 2)
private def p23 : Node := .edge (.root 2) (.root 3)
private def q1 : Node := .edge p01 p12
private def q2 : Node := .edge p12 p23
private def q3 : Node := .edge q1 q2
private def mean : Node → Cop ℚ := fun _ => ⟨fun b x => if b then (x.1 + 2 * x.2) / 3 else (2 * x.1 + x.2) / 3, fun _ x => (x.1 + x.2) / 2⟩
private def order4 : List (Node × Bool × ℚ) := [(.root 3, true, 1 / 2), (p23, true, 1 / 4), (q2, true, 1 / 8), (q3, true, 3 / 4)]
private def dirty : VState ℚ := ⟨fun _ => some 7, fun _ _ => some 7, fun _ _ => 1, fun _ _ => 1⟩

/-- Values are read more than once and computed on the way, all are dropped but the one on top, and the values of the assets are those of the model that keeps everything. -/
example : ((runFull mean order4).map fun p => (p.2 p12 false, p.2 p12 true, p.2 p23 false, p.2 q2 false, p.2 q3 true)) = some (1, 2, 2, 1, 1) ∧
    ((sampleV (· == q3) 0 mean order4 dirty).map fun v => (v.cache p12 true, v.cache p12 false, v.cache p23 true, v.cache q3 true)) = some (none, none, none, some (3 / 4)) ∧
    ((sampleV (· == q3) 0 mean order4 dirty).map fun v => [v.pseudo 0, v.pseudo 1, v.pseudo 2, v.pseudo 3]) = ((propagate mean order4).map fun s => [s.pseudo 0, s.pseudo 1, s.pseudo 2, s.pseudo 3]) ∧
    ((propagate mean order4).isSome = true) := by
  decide +kernel

end Skfolio.Vine
