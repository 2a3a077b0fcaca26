import Verif.Sorting.Model
import Mathlib.Data.Finset.Card
import Mathlib.Data.Finset.Max
import Mathlib.Data.List.Count
import Mathlib.Data.List.Nodup
import Mathlib.Data.List.Perm.Basic
import Mathlib.Order.Preorder.Finite
import Mathlib.Tactic.Linarith
import Mathlib.Tactic.Ring
import Mathlib.Tactic.Tauto

set_option autoImplicit false

namespace Skfolio.Sorting

/-! ### `dominate` -/

section
variable {α : Type} [LinearOrder α]

theorem dominateLoop_ok (ne : Bool) (f g : List α) (h : f.length = g.length) :
    dominateLoop ne f g =
      .ok (decide (List.Forall₂ (fun a b => b ≤ a) f g) && (ne || decide (∃ p ∈ f.zip g, p.2 < p.1))) := by
  classical
  induction f generalizing g ne with
  | nil =>
    cases g with
    | nil => simp [dominateLoop]
    | cons b bs => simp at h
  | cons a as ih =>
    cases g with
    | nil => simp at h
    | cons b bs =>
      have h' : as.length = bs.length := by simpa using h
      rcases lt_trichotomy a b with hab | hab | hab
      · simp [dominateLoop, hab, not_lt_of_gt hab]
      · subst hab
        simp [dominateLoop, ih _ _ h']
      · simp [dominateLoop, hab, ih _ _ h', hab.le]

end

/-! ### First phase -/

@[simp] theorem upd_same {β : Type} (f : Nat → β) (i : Nat) (v : β) : upd f i v i = v := by simp [upd]

theorem upd_ne {β : Type} (f : Nat → β) {i k : Nat} (v : β) (h : k ≠ i) : upd f i v k = f k := by simp [upd, h]

/-- Counters agree with the dominance test on the unordered pairs in `Q`. -/
structure Inv (dom : Nat → Nat → Bool) (n : Nat) (Q : Nat → Nat → Prop) (c : Counters) : Prop where
  nodup : ∀ x, (c.isDominating x).Nodup
  mem : ∀ x y, y ∈ c.isDominating x ↔ (x < n ∧ y < n ∧ Q x y ∧ dom x y = true)
  cnt : ∀ y, ∃ s : Finset Nat, (∀ x, x ∈ s ↔ (x < n ∧ y < n ∧ Q x y ∧ dom x y = true)) ∧ c.nDominated y = s.card

theorem Inv.congr {dom : Nat → Nat → Bool} {n : Nat} {Q Q' : Nat → Nat → Prop} {c : Counters} (h : Inv dom n Q c)
    (hQ : ∀ x y, x < n → y < n → (Q x y ↔ Q' x y)) : Inv dom n Q' c where
  nodup := h.nodup
  mem x y := by
    rw [h.mem]
    constructor
    · rintro ⟨a, b, c, d⟩; exact ⟨a, b, (hQ x y a b).1 c, d⟩
    · rintro ⟨a, b, c, d⟩; exact ⟨a, b, (hQ x y a b).2 c, d⟩
  cnt y := by
    obtain ⟨s, hs, hc⟩ := h.cnt y
    refine ⟨s, fun x => ?_, hc⟩
    rw [hs]
    constructor
    · rintro ⟨a, b, c, d⟩; exact ⟨a, b, (hQ x y a b).1 c, d⟩
    · rintro ⟨a, b, c, d⟩; exact ⟨a, b, (hQ x y a b).2 c, d⟩

theorem inv_add {dom : Nat → Nat → Bool} {n : Nat} {Q : Nat → Nat → Prop} {c : Counters}
    (asymm : ∀ x y, dom x y = true → dom y x = false)
    (h : Inv dom n Q c) {i j : Nat} (hi : i < n) (hj : j < n) (hij : ¬ Q i j) (hd : dom i j = true) :
    Inv dom n (fun x y => Q x y ∨ (x = i ∧ y = j) ∨ (x = j ∧ y = i))
      { isDominating := upd c.isDominating i (c.isDominating i ++ [j]),
        nDominated := upd c.nDominated j (c.nDominated j + 1) } := by
  have hd' : dom j i = false := asymm _ _ hd
  have hne : i ≠ j := by rintro rfl; rw [hd] at hd'; exact absurd hd' (by simp)
  refine ⟨fun x => ?_, fun x y => ?_, fun y => ?_⟩
  · by_cases hx : x = i
    · subst hx
      simp only [upd_same]
      rw [List.nodup_append]
      refine ⟨h.nodup _, by simp, ?_⟩
      intro a ha b hb
      simp at hb; subst hb
      rintro rfl
      exact hij ((h.mem _ _).1 ha).2.2.1
    · simp only [upd_ne _ _ hx]; exact h.nodup x
  · by_cases hx : x = i
    · subst hx
      simp only [upd_same, List.mem_append, List.mem_singleton, h.mem]
      constructor
      · rintro (⟨a, b, c, d⟩ | rfl)
        · exact ⟨a, b, Or.inl c, d⟩
        · exact ⟨hi, hj, by simp, hd⟩
      · rintro ⟨a, b, c, d⟩
        rcases c with c | c | c
        · exact Or.inl ⟨a, b, c, d⟩
        · exact Or.inr c.2
        · exact absurd c.1 hne
    · simp only [upd_ne _ _ hx, h.mem]
      constructor
      · rintro ⟨a, b, c, d⟩; exact ⟨a, b, Or.inl c, d⟩
      · rintro ⟨a, b, c, d⟩
        rcases c with c | c | c
        · exact ⟨a, b, c, d⟩
        · exact absurd c.1 hx
        · rw [c.1, c.2, hd'] at d; exact absurd d (by simp)
  · obtain ⟨s, hs, hc⟩ := h.cnt y
    by_cases hy : y = j
    · subst hy
      have hni : i ∉ s := fun hm => hij ((hs i).1 hm).2.2.1
      refine ⟨insert i s, fun x => ?_, ?_⟩
      · rw [Finset.mem_insert, hs]
        constructor
        · rintro (rfl | ⟨a, b, c, d⟩)
          · exact ⟨hi, hj, by simp, hd⟩
          · exact ⟨a, b, Or.inl c, d⟩
        · rintro ⟨a, b, c, d⟩
          rcases c with c | c | c
          · exact Or.inr ⟨a, b, c, d⟩
          · exact Or.inl c.1
          · exact absurd c.2.symm hne
      · rw [Finset.card_insert_of_notMem hni]; simp [hc]
    · refine ⟨s, fun x => ?_, by simp only [upd_ne _ _ hy]; exact hc⟩
      rw [hs]
      constructor
      · rintro ⟨a, b, c, d⟩; exact ⟨a, b, Or.inl c, d⟩
      · rintro ⟨a, b, c, d⟩
        rcases c with c | c | c
        · exact ⟨a, b, c, d⟩
        · exact absurd c.2 hy
        · rw [c.1, c.2, hd'] at d; exact absurd d (by simp)

theorem inv_pairStep {dom : Nat → Nat → Bool} {n : Nat} {Q : Nat → Nat → Prop} {c : Counters}
    (asymm : ∀ x y, dom x y = true → dom y x = false)
    (h : Inv dom n Q c) {i j : Nat} (hi : i < n) (hj : j < n) (hij : ¬ Q i j) (hji : ¬ Q j i) :
    Inv dom n (fun x y => Q x y ∨ (x = i ∧ y = j) ∨ (x = j ∧ y = i)) (pairStep dom i c j) := by
  unfold pairStep
  split
  · rename_i hd; exact inv_add asymm h hi hj hij hd
  · split
    · rename_i hd
      refine (inv_add asymm h hj hi hji hd).congr ?_
      intro x y _ _; tauto
    · rename_i h1 h2
      refine ⟨h.nodup, fun x y => ?_, fun y => ?_⟩
      · rw [h.mem]
        constructor
        · rintro ⟨a, b, c, d⟩; exact ⟨a, b, Or.inl c, d⟩
        · rintro ⟨a, b, c, d⟩
          rcases c with c | c | c
          · exact ⟨a, b, c, d⟩
          · rw [c.1, c.2] at d; exact absurd d h1
          · rw [c.1, c.2] at d; exact absurd d h2
      · obtain ⟨s, hs, hc⟩ := h.cnt y
        refine ⟨s, fun x => ?_, hc⟩
        rw [hs]
        constructor
        · rintro ⟨a, b, c, d⟩; exact ⟨a, b, Or.inl c, d⟩
        · rintro ⟨a, b, c, d⟩
          rcases c with c | c | c
          · exact ⟨a, b, c, d⟩
          · rw [c.1, c.2] at d; exact absurd d h1
          · rw [c.1, c.2] at d; exact absurd d h2

/-- Pairs already processed when the inner loop of row `i` has reached column `i + 1 + k`. -/
def Done (i k : Nat) (x y : Nat) : Prop :=
  x ≠ y ∧ (min x y < i ∨ (min x y = i ∧ max x y < i + 1 + k))

theorem inv_inner {dom : Nat → Nat → Bool} {n : Nat} (asymm : ∀ x y, dom x y = true → dom y x = false)
    {i : Nat} (hi : i < n) (c : Counters) (h : Inv dom n (Done i 0) c) (k : Nat) (hk : i + 1 + k ≤ n) :
    Inv dom n (Done i k) ((List.range' (i + 1) k).foldl (pairStep dom i) c) := by
  induction k with
  | zero => simpa using h
  | succ k ih =>
    have ih' := ih (by omega)
    rw [List.range'_concat, List.foldl_append]
    simp only [List.foldl_cons, List.foldl_nil, Nat.one_mul]
    have := inv_pairStep asymm ih' (i := i) (j := i + 1 + k) hi (by omega)
      (by unfold Done; omega) (by unfold Done; omega)
    refine this.congr ?_
    intro x y _ _
    unfold Done
    omega

theorem inv_rows {dom : Nat → Nat → Bool} {n : Nat} (asymm : ∀ x y, dom x y = true → dom y x = false)
    (r : Nat) (hr : r ≤ n) :
    Inv dom n (Done r 0) ((List.range r).foldl (rowStep dom n)
        ({ isDominating := fun _ => [], nDominated := fun _ => 0 }, [])).1 ∧
    ∀ x, x ∈ ((List.range r).foldl (rowStep dom n)
        ({ isDominating := fun _ => [], nDominated := fun _ => 0 }, [])).2 ↔
          (x < r ∧ ∀ y, y < n → dom y x = false) := by
  induction r with
  | zero =>
    refine ⟨⟨fun x => by simp, fun x y => ?_, fun y => ⟨∅, fun x => ?_, by simp⟩⟩, by simp⟩
    · simp only [List.range_zero, List.foldl_nil, List.not_mem_nil, false_iff]
      rintro ⟨_, _, h, _⟩
      unfold Done at h; omega
    · simp only [Finset.notMem_empty, false_iff]
      rintro ⟨_, _, h, _⟩
      unfold Done at h; omega
  | succ r ih =>
    obtain ⟨h1, h2⟩ := ih (by omega)
    rw [List.range_succ, List.foldl_append]
    simp only [List.foldl_cons, List.foldl_nil]
    generalize hs : (List.range r).foldl (rowStep dom n)
        ({ isDominating := fun _ => [], nDominated := fun _ => 0 }, []) = s at h1 h2
    have hin := inv_inner asymm (i := r) (by omega) s.1 h1 (n - (r + 1)) (by omega)
    have hnew : Inv dom n (Done (r + 1) 0)
        ((List.range' (r + 1) (n - (r + 1))).foldl (pairStep dom r) s.1) := by
      refine hin.congr ?_
      intro x y hx hy
      unfold Done
      omega
    have key : ((List.range' (r + 1) (n - (r + 1))).foldl (pairStep dom r) s.1).nDominated r = 0 ↔
        ∀ y, y < n → dom y r = false := by
      obtain ⟨t, ht, hc⟩ := hnew.cnt r
      rw [hc]
      constructor
      · intro h0 y hy
        have ht0 : t = ∅ := by
          have : t.card = 0 := by exact_mod_cast h0
          exact Finset.card_eq_zero.1 this
        by_contra hne
        have hd : dom y r = true := by simpa using hne
        have hyr : y ≠ r := by
          rintro rfl
          have := asymm _ _ hd
          rw [hd] at this; exact absurd this (by simp)
        have : y ∈ t := (ht y).2 ⟨hy, by omega, by unfold Done; omega, hd⟩
        rw [ht0] at this; exact absurd this (by simp)
      · intro hall
        have ht0 : t = ∅ := by
          apply Finset.eq_empty_of_forall_notMem
          intro y hy
          have := (ht y).1 hy
          rw [hall y this.1] at this
          exact absurd this.2.2.2 (by simp)
        simp [ht0]
    unfold rowStep
    simp only
    split
    · rename_i h0
      refine ⟨hnew, fun x => ?_⟩
      simp only [List.mem_append, List.mem_singleton, h2]
      constructor
      · rintro (⟨a, b⟩ | rfl)
        · exact ⟨by omega, b⟩
        · exact ⟨by omega, key.1 h0⟩
      · rintro ⟨a, b⟩
        by_cases hx : x = r
        · exact Or.inr hx
        · exact Or.inl ⟨by omega, b⟩
    · rename_i h0
      refine ⟨hnew, fun x => ?_⟩
      rw [h2]
      constructor
      · rintro ⟨a, b⟩; exact ⟨by omega, b⟩
      · rintro ⟨a, b⟩
        refine ⟨?_, b⟩
        rcases Nat.lt_or_ge x r with hx | hx
        · exact hx
        · have : x = r := by omega
          subst this
          exact absurd (key.2 b) h0

theorem rows_sorted {dom : Nat → Nat → Bool} {n : Nat} (r : Nat) (s : Counters) :
    ((List.range r).foldl (rowStep dom n) (s, [])).2.Pairwise (· < ·) ∧
    ∀ x ∈ ((List.range r).foldl (rowStep dom n) (s, [])).2, x < r := by
  induction r with
  | zero => simp
  | succ r ih =>
    rw [List.range_succ, List.foldl_append]
    simp only [List.foldl_cons, List.foldl_nil]
    generalize (List.range r).foldl (rowStep dom n) (s, []) = t at ih
    obtain ⟨h1, h2⟩ := ih
    unfold rowStep
    simp only
    split
    · refine ⟨?_, ?_⟩
      · rw [List.pairwise_append]
        exact ⟨h1, by simp, fun a ha b hb => by simp at hb; subst hb; exact h2 a ha⟩
      · intro x hx
        rcases List.mem_append.1 hx with hx | hx
        · have := h2 x hx; omega
        · simp at hx; omega
    · exact ⟨h1, fun x hx => by have := h2 x hx; omega⟩

/-! ### Peeling -/

theorem peel_fold (L : List Nat) (nd : Nat → Int) (acc : List Nat)
    (hpos : ∀ j, (L.count j : Int) ≤ nd j) :
    (∀ j, (L.foldl peelStep (nd, acc)).1 j = nd j - L.count j) ∧
    ∃ new, (L.foldl peelStep (nd, acc)).2 = acc ++ new ∧ new.Nodup ∧
      ∀ j, j ∈ new ↔ (j ∈ L ∧ nd j = L.count j) := by
  induction L generalizing nd acc with
  | nil => exact ⟨by simp, [], by simp, by simp, by simp⟩
  | cons a L ih =>
    simp only [List.foldl_cons]
    have hpos' : ∀ j, (L.count j : Int) ≤ upd nd a (nd a - 1) j := by
      intro j
      have := hpos j
      by_cases hj : j = a
      · subst hj
        rw [List.count_cons_self] at this
        simp; push_cast at this; omega
      · rw [upd_ne _ _ hj]
        rw [List.count_cons_of_ne (Ne.symm hj)] at this
        exact this
    have hcount : ∀ j, upd nd a (nd a - 1) j - (L.count j : Int) = nd j - ((a :: L).count j : Int) := by
      intro j
      by_cases hj : j = a
      · subst hj; rw [List.count_cons_self]; simp; ring
      · rw [upd_ne _ _ hj, List.count_cons_of_ne (Ne.symm hj)]
    have hstep : peelStep (nd, acc) a = if nd a - 1 = 0 then (upd nd a (nd a - 1), acc ++ [a])
        else (upd nd a (nd a - 1), acc) := by simp [peelStep]
    rw [hstep]
    split
    · rename_i h0
      obtain ⟨h1, new, h2, h3, h4⟩ := ih (upd nd a (nd a - 1)) (acc ++ [a]) hpos'
      have hLa : L.count a = 0 := by
        have := hpos a
        rw [List.count_cons_self] at this
        push_cast at this
        omega
      have haL : a ∉ L := List.count_eq_zero.1 hLa
      refine ⟨fun j => by rw [h1, hcount], a :: new, by rw [h2]; simp, ?_, ?_⟩
      · rw [List.nodup_cons]
        exact ⟨fun hm => haL ((h4 a).1 hm).1, h3⟩
      · intro j
        rw [List.mem_cons, List.mem_cons, h4]
        by_cases hj : j = a
        · subst hj
          simp [hLa]; omega
        · rw [upd_ne _ _ hj, List.count_cons_of_ne (Ne.symm hj)]
          simp [hj]
    · rename_i h0
      obtain ⟨h1, new, h2, h3, h4⟩ := ih (upd nd a (nd a - 1)) acc hpos'
      refine ⟨fun j => by rw [h1, hcount], new, h2, h3, ?_⟩
      intro j
      rw [h4, List.mem_cons]
      by_cases hj : j = a
      · subst hj
        rw [List.count_cons_self]
        simp only [upd_same, true_or, true_and]
        constructor
        · rintro ⟨_, h⟩; push_cast; omega
        · intro h
          push_cast at h
          have hc : L.count j ≠ 0 := by intro h0'; rw [h0'] at h; simp at h; omega
          exact ⟨by_contra fun hn => hc (List.count_eq_zero.2 hn), by omega⟩
      · rw [upd_ne _ _ hj, List.count_cons_of_ne (Ne.symm hj)]
        simp [hj]

theorem peelPass_eq (D : Nat → List Nat) (nd : Nat → Int) (cur : List Nat) :
    peelPass D nd cur = (cur.flatMap D).foldl peelStep (nd, []) := by
  unfold peelPass
  rw [List.foldl_flatMap]

theorem count_flatMap_nodup (D : Nat → List Nat) (hD : ∀ x, (D x).Nodup) (cur : List Nat) (hcur : cur.Nodup) (j : Nat) :
    (cur.flatMap D).count j = (cur.toFinset.filter (fun i => j ∈ D i)).card := by
  induction cur with
  | nil => simp
  | cons a cur ih =>
    rw [List.nodup_cons] at hcur
    rw [List.flatMap_cons, List.count_append, ih hcur.2, List.toFinset_cons, Finset.filter_insert]
    by_cases hj : j ∈ D a
    · rw [if_pos hj, Finset.card_insert_of_notMem (by simp [hcur.1]), List.count_eq_one_of_mem (hD a) hj]
      omega
    · rw [if_neg hj, List.count_eq_zero.2 hj]; omega

/-- State of the peeling loop: `R` is the list of all points ranked so far, `cur` is the part of it ranked last. -/
structure PInv (dom : Nat → Nat → Bool) (n : Nat) (R cur : List Nat) (nd : Nat → Int) : Prop where
  nodup : R.Nodup
  lt : ∀ x ∈ R, x < n
  sub : ∀ x ∈ cur, x ∈ R
  cnodup : cur.Nodup
  /-- a point is ranked as soon as all its dominators are in an earlier front -/
  mem : ∀ x, x ∈ R ↔ (x < n ∧ ∀ y, y < n → dom y x = true → (y ∈ R ∧ y ∉ cur))
  cnt : ∀ x, x < n → nd x = (((Finset.range n).filter fun y => dom y x = true ∧ ¬ (y ∈ R ∧ y ∉ cur)).card : Int)

theorem pinv_pass {dom : Nat → Nat → Bool} {n : Nat} {R cur : List Nat} {nd : Nat → Int} (D : Nat → List Nat)
    (hDn : ∀ x, (D x).Nodup) (hD : ∀ x y, y ∈ D x ↔ (x < n ∧ y < n ∧ dom x y = true))
    (h : PInv dom n R cur nd) (hnd0 : ∀ x, n ≤ x → nd x = 0) :
    PInv dom n (R ++ (peelPass D nd cur).2) (peelPass D nd cur).2 (peelPass D nd cur).1 ∧
    (∀ x, n ≤ x → (peelPass D nd cur).1 x = 0) ∧
    ∀ x, x ∈ (peelPass D nd cur).2 ↔ (x < n ∧ x ∉ R ∧ ∀ y, y < n → dom y x = true → y ∈ R) := by
  have hcnt : ∀ j, j < n → (cur.flatMap D).count j =
      ((Finset.range n).filter fun y => dom y j = true ∧ y ∈ cur).card := by
    intro j hj
    rw [count_flatMap_nodup D hDn cur h.cnodup]
    congr 1
    ext i
    simp only [Finset.mem_filter, List.mem_toFinset, hD, Finset.mem_range]
    constructor
    · rintro ⟨a, b, _, c⟩; exact ⟨b, c, a⟩
    · rintro ⟨a, b, c⟩; exact ⟨c, a, hj, b⟩
  have hcnt' : ∀ j, n ≤ j → (cur.flatMap D).count j = 0 := by
    intro j hj
    rw [List.count_eq_zero, List.mem_flatMap]
    rintro ⟨i, _, hi⟩
    have := ((hD _ _).1 hi).2.1
    omega
  -- dominators still pending after the pass
  have hsplit : ∀ j, j < n → nd j = (((Finset.range n).filter fun y => dom y j = true ∧ y ∈ cur).card : Int) +
      (((Finset.range n).filter fun y => dom y j = true ∧ y ∉ R).card : Int) := by
    intro j hj
    rw [h.cnt j hj]
    rw [← Nat.cast_add, ← Finset.card_union_of_disjoint]
    · congr 2
      ext y
      simp only [Finset.mem_filter, Finset.mem_range, Finset.mem_union]
      have := h.sub y
      tauto
    · rw [Finset.disjoint_left]
      intro y hy hy'
      simp only [Finset.mem_filter] at hy hy'
      exact hy'.2.2 (h.sub y hy.2.2)
  have hpos : ∀ j, ((cur.flatMap D).count j : Int) ≤ nd j := by
    intro j
    rcases Nat.lt_or_ge j n with hj | hj
    · rw [hsplit j hj, hcnt j hj]; omega
    · rw [hcnt' j hj, hnd0 j hj]; simp
  obtain ⟨h1, new, h2, h3, h4⟩ := peel_fold (cur.flatMap D) nd [] hpos
  rw [← peelPass_eq] at h1 h2
  rw [List.nil_append] at h2
  have hmem : ∀ x, x ∈ (peelPass D nd cur).2 ↔ (x < n ∧ x ∉ R ∧ ∀ y, y < n → dom y x = true → y ∈ R) := by
    intro x
    rw [h2, h4, List.mem_flatMap]
    constructor
    · rintro ⟨⟨i, hi, hix⟩, hx⟩
      have hxn := ((hD _ _).1 hix).2.1
      have hd := ((hD _ _).1 hix).2.2
      rw [hsplit x hxn, hcnt x hxn] at hx
      have h0 : ((Finset.range n).filter fun y => dom y x = true ∧ y ∉ R).card = 0 := by omega
      rw [Finset.card_eq_zero] at h0
      refine ⟨hxn, ?_, ?_⟩
      · intro hxR
        exact ((h.mem x).1 hxR).2 i ((hD _ _).1 hix).1 hd |>.2 hi
      · intro y hy hdy
        by_contra hyR
        have : y ∈ ((Finset.range n).filter fun y => dom y x = true ∧ y ∉ R) := by
          simp [hy, hdy, hyR]
        rw [h0] at this; simp at this
    · rintro ⟨hxn, hxR, hall⟩
      have hex : ∃ y, y < n ∧ dom y x = true ∧ y ∈ cur := by
        by_contra hno
        push Not at hno
        apply hxR
        rw [h.mem]
        exact ⟨hxn, fun y hy hd => ⟨hall y hy hd, hno y hy hd⟩⟩
      obtain ⟨y, hy, hd, hyc⟩ := hex
      refine ⟨⟨y, hyc, (hD _ _).2 ⟨hy, hxn, hd⟩⟩, ?_⟩
      rw [hsplit x hxn, hcnt x hxn]
      have : ((Finset.range n).filter fun y => dom y x = true ∧ y ∉ R) = ∅ := by
        apply Finset.eq_empty_of_forall_notMem
        intro z hz
        simp only [Finset.mem_filter, Finset.mem_range] at hz
        exact hz.2.2 (hall z hz.1 hz.2.1)
      rw [this]; simp
  have hdisj : ∀ x ∈ (peelPass D nd cur).2, x ∉ R := fun x hx => ((hmem x).1 hx).2.1
  have hback : ∀ y, (y ∈ R ++ (peelPass D nd cur).2 ∧ y ∉ (peelPass D nd cur).2) ↔ y ∈ R := by
    intro y
    rw [List.mem_append]
    constructor
    · tauto
    · intro hy; exact ⟨Or.inl hy, fun hy' => hdisj y hy' hy⟩
  refine ⟨⟨?_, ?_, ?_, ?_, ?_, ?_⟩, ?_, hmem⟩
  · rw [List.nodup_append]
    refine ⟨h.nodup, by rw [h2]; exact h3, ?_⟩
    rintro a ha b hb rfl
    exact hdisj _ hb ha
  · intro x hx
    rcases List.mem_append.1 hx with hx | hx
    · exact h.lt x hx
    · exact ((hmem x).1 hx).1
  · intro x hx; exact List.mem_append.2 (Or.inr hx)
  · rw [h2]; exact h3
  · intro x
    simp only [hback]
    rw [List.mem_append, hmem]
    constructor
    · rintro (hx | hx)
      · exact ⟨h.lt x hx, fun y hy hd => (((h.mem x).1 hx).2 y hy hd).1⟩
      · exact ⟨hx.1, hx.2.2⟩
    · rintro ⟨hx, hall⟩
      by_cases hxR : x ∈ R
      · exact Or.inl hxR
      · exact Or.inr ⟨hx, hxR, hall⟩
  · intro x hx
    rw [h1, hsplit x hx, hcnt x hx]
    simp only [hback]
    omega
  · intro x hx
    rw [h1, hnd0 x hx, hcnt' x hx]; simp

/-- As long as some index is not ranked, the next front is not empty. -/
theorem pass_progress {dom : Nat → Nat → Bool} {n : Nat} {R : List Nat} {nxt : List Nat}
    (asymm : ∀ x y, dom x y = true → dom y x = false)
    (trans : ∀ x y z, dom x y = true → dom y z = true → dom x z = true)
    (hnxt : ∀ x, x ∈ nxt ↔ (x < n ∧ x ∉ R ∧ ∀ y, y < n → dom y x = true → y ∈ R))
    {x : Nat} (hx : x < n) (hxR : x ∉ R) : nxt ≠ [] := by
  -- pick an unranked point with the fewest unranked dominators
  let f : Nat → Finset Nat := fun z => (Finset.range n).filter fun y => dom y z = true ∧ y ∉ R
  have : ∃ z, z < n ∧ z ∉ R ∧ ∀ w, w < n → w ∉ R → (f z).card ≤ (f w).card := by
    let S := (Finset.range n).filter fun y => y ∉ R
    have hS : S.Nonempty := ⟨x, by simp [S, hx, hxR]⟩
    obtain ⟨z, hz, hmin⟩ := Finset.exists_min_image S (fun z => (f z).card) hS
    simp only [S, Finset.mem_filter, Finset.mem_range] at hz hmin
    exact ⟨z, hz.1, hz.2, fun w hw hwR => hmin w ⟨hw, hwR⟩⟩
  obtain ⟨z, hz, hzR, hmin⟩ := this
  have : z ∈ nxt := by
    rw [hnxt]
    refine ⟨hz, hzR, fun y hy hd => ?_⟩
    by_contra hyR
    have hlt : (f y).card < (f z).card := by
      apply Finset.card_lt_card
      rw [Finset.ssubset_iff_of_subset]
      · refine ⟨y, by simp [f, hy, hd, hyR], ?_⟩
        simp only [f, Finset.mem_filter, not_and]
        intro _ hyy
        have := asymm _ _ hyy
        rw [hyy] at this; exact absurd this (by simp)
      · intro w hw
        simp only [f, Finset.mem_filter, Finset.mem_range] at hw ⊢
        exact ⟨hw.1, trans _ _ _ hw.2.1 hd, hw.2.2⟩
    have := hmin y hy hyR
    omega
  intro h0
  rw [h0] at this; simp at this

/-- The layers property of a list of fronts, relative to the points `R` of earlier fronts. -/
def LayersFrom (dom : Nat → Nat → Bool) (n : Nat) : List Nat → List (List Nat) → Prop
  | R, [] => ∀ x, x < n → x ∈ R
  | R, f :: fs => f ≠ [] ∧ f.Nodup ∧
      (∀ x, x ∈ f ↔ (x < n ∧ x ∉ R ∧ ∀ y, y < n → dom y x = true → y ∈ R)) ∧ LayersFrom dom n (R ++ f) fs

theorem peelLoop_spec {dom : Nat → Nat → Bool} {n : Nat} (D : Nat → List Nat)
    (asymm : ∀ x y, dom x y = true → dom y x = false)
    (trans : ∀ x y z, dom x y = true → dom y z = true → dom x z = true)
    (hDn : ∀ x, (D x).Nodup) (hD : ∀ x y, y ∈ D x ↔ (x < n ∧ y < n ∧ dom x y = true))
    (fuel : Nat) {R cur : List Nat} {nd : Nat → Int} (fronts : List (List Nat))
    (h : PInv dom n R cur nd) (hnd0 : ∀ x, n ≤ x → nd x = 0) (hfuel : n ≤ R.length + fuel) :
    ∃ new, peelLoop D n fuel nd cur fronts R.length = some (fronts ++ new) ∧ LayersFrom dom n R new := by
  induction fuel generalizing R cur nd fronts with
  | zero =>
    unfold peelLoop
    have hle : ¬ R.length < n := by omega
    rw [if_neg hle]
    refine ⟨[], by simp, ?_⟩
    intro x hx
    have hsub : R.toFinset ⊆ Finset.range n := by
      intro y hy; simp at hy; simpa using h.lt y hy
    have hcard : R.toFinset.card = R.length := List.toFinset_card_of_nodup h.nodup
    have : R.toFinset = Finset.range n := Finset.eq_of_subset_of_card_le hsub (by simp; omega)
    have hx' : x ∈ R.toFinset := by rw [this]; simpa using hx
    simpa using hx'
  | succ fuel ih =>
    unfold peelLoop
    split
    · rename_i hlt
      obtain ⟨hp, hp0, hm⟩ := pinv_pass D hDn hD h hnd0
      have hex : ∃ x, x < n ∧ x ∉ R := by
        by_contra hno
        push Not at hno
        have : (Finset.range n) ⊆ R.toFinset := by intro y hy; simp at hy; simpa using hno y hy
        have hc := Finset.card_le_card this
        rw [List.toFinset_card_of_nodup h.nodup] at hc
        simp at hc; omega
      obtain ⟨x, hx, hxR⟩ := hex
      have hne := pass_progress asymm trans hm hx hxR
      have hlen : 0 < (peelPass D nd cur).2.length := List.length_pos_iff.2 hne
      obtain ⟨new, h1, h2⟩ := ih (fronts ++ [(peelPass D nd cur).2]) hp hp0 (by rw [List.length_append]; omega)
      rw [List.length_append] at h1
      refine ⟨(peelPass D nd cur).2 :: new, ?_, hne, hp.cnodup, hm, h2⟩
      simp only
      rw [h1]; simp
    · rename_i hle
      refine ⟨[], by simp, ?_⟩
      intro x hx
      have hsub : R.toFinset ⊆ Finset.range n := by
        intro y hy; simp at hy; simpa using h.lt y hy
      have hcard : R.toFinset.card = R.length := List.toFinset_card_of_nodup h.nodup
      have : R.toFinset = Finset.range n := Finset.eq_of_subset_of_card_le hsub (by simp; omega)
      have hx' : x ∈ R.toFinset := by rw [this]; simpa using hx
      simpa using hx'

theorem sortDom_spec {dom : Nat → Nat → Bool} {n : Nat}
    (asymm : ∀ x y, dom x y = true → dom y x = false)
    (trans : ∀ x y z, dom x y = true → dom y z = true → dom x z = true)
    (fuel : Nat) (hfuel : n ≤ fuel) :
    ∃ F, sortDom dom n false fuel = some F ∧ LayersFrom dom n [] F ∧
      (sortDom dom n true fuel = some (F.take 1)) := by
  unfold sortDom
  by_cases hn : n = 0
  · subst hn
    exact ⟨[], by simp, by simp [LayersFrom], by simp⟩
  rw [if_neg hn]
  simp only [Bool.false_eq_true, if_false]
  obtain ⟨hinv, hmem⟩ := inv_rows asymm n (le_refl n)
  have hsort := (rows_sorted (dom := dom) (n := n) n { isDominating := fun _ => [], nDominated := fun _ => 0 }).1
  change Inv dom n (Done n 0) (firstPhase dom n).1 at hinv
  change ∀ x, x ∈ (firstPhase dom n).2 ↔ _ at hmem
  change (firstPhase dom n).2.Pairwise (· < ·) at hsort
  generalize firstPhase dom n = s at hinv hmem hsort
  have irr : ∀ x, dom x x = false := by
    intro x
    by_contra hx
    have hx' : dom x x = true := by simpa using hx
    have := asymm _ _ hx'
    rw [hx'] at this; exact absurd this (by simp)
  have hD : ∀ x y, y ∈ s.1.isDominating x ↔ (x < n ∧ y < n ∧ dom x y = true) := by
    intro x y
    rw [hinv.mem]
    constructor
    · rintro ⟨a, b, c, d⟩; exact ⟨a, b, d⟩
    · rintro ⟨a, b, d⟩
      refine ⟨a, b, ?_, d⟩
      have : x ≠ y := by rintro rfl; rw [irr] at d; exact absurd d (by simp)
      unfold Done; omega
  have hnodup : s.2.Nodup := hsort.imp (fun h => Nat.ne_of_lt h)
  have hp : PInv dom n s.2 s.2 s.1.nDominated := by
    refine ⟨hnodup, fun x hx => ((hmem x).1 hx).1, fun _ hx => hx, hnodup, ?_, ?_⟩
    · intro x
      rw [hmem]
      constructor
      · rintro ⟨a, b⟩
        refine ⟨a, fun y hy hd => ?_⟩
        rw [b y hy] at hd; exact absurd hd (by simp)
      · rintro ⟨a, b⟩
        refine ⟨a, fun y hy => ?_⟩
        by_contra hd
        have := b y hy (by simpa using hd)
        exact this.2 this.1
    · intro x hx
      obtain ⟨t, ht, hc⟩ := hinv.cnt x
      rw [hc]
      congr 2
      ext y
      rw [ht]
      simp only [Finset.mem_filter, Finset.mem_range]
      constructor
      · rintro ⟨a, b, c, d⟩; exact ⟨a, d, fun h => h.2 h.1⟩
      · rintro ⟨a, d, _⟩
        refine ⟨a, hx, ?_, d⟩
        have : y ≠ x := by rintro rfl; rw [irr] at d; exact absurd d (by simp)
        unfold Done; omega
  have hnd0 : ∀ x, n ≤ x → s.1.nDominated x = 0 := by
    intro x hx
    obtain ⟨t, ht, hc⟩ := hinv.cnt x
    rw [hc]
    have : t = ∅ := by
      apply Finset.eq_empty_of_forall_notMem
      intro y hy
      have := ((ht y).1 hy).2.1
      omega
    simp [this]
  obtain ⟨new, h1, h2⟩ := peelLoop_spec s.1.isDominating asymm trans hinv.nodup hD fuel [s.2] hp hnd0 (by omega)
  refine ⟨s.2 :: new, by rw [h1]; simp, ⟨?_, hnodup, ?_, by simpa using h2⟩, by simp [hn]⟩
  · have hm : ∀ x, x ∈ s.2 ↔ (x < n ∧ x ∉ ([] : List Nat) ∧ ∀ y, y < n → dom y x = true → y ∈ ([] : List Nat)) := by
      intro x
      rw [hmem]; simp
    exact pass_progress asymm trans hm (x := 0) (by omega) (by simp)
  · intro x
    rw [hmem]; simp

end Skfolio.Sorting
