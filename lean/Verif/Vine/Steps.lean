import Verif.Vine.Complete

/-! From the order of sampling to its steps. -/
set_option autoImplicit false

namespace Skfolio.Vine
open Skfolio.Copula (Inside IsInverse)

theorem clip_inside {eps t : ℝ} (h0 : 0 < eps) (h1 : eps < 1 / 2) : Inside (clip eps t) := by
  unfold clip
  constructor
  · exact lt_min (lt_max_of_lt_right h0) (by linarith)
  · exact min_lt_of_right_lt (by linarith)

/-- The entries whose variable is not conditioned. -/
def free {K : Type} (cond : ℕ → Option K) (e : Node × Bool) : Bool := (cond (own e.1 e.2)).isNone

theorem init_exists (listing : Finset ℕ → List ℕ) (hl : ∀ s, (listing s).Nodup ∧ ∀ a, a ∈ listing s ↔ a ∈ s) (eps : ℝ) (cond : ℕ → Option ℝ) (order : List (Node × Bool)) (hg : ∀ e ∈ order, Good e.1) (rand : List ℝ)
    (hr : (order.filter (free cond)).length = rand.length) :
    ∃ inits, initSamples listing eps cond order rand = some inits ∧ inits.map (fun e => (e.1, e.2.1)) = order ∧ (∀ e ∈ inits, ∀ t, cond (own e.1 e.2.1) = some t → e.2.2 = clip eps t) ∧
      (∀ e ∈ inits, ∃ t, e.2.2 = clip eps t) ∧ (inits.filter fun e => free cond (e.1, e.2.1)).map (fun e => e.2.2) = rand.map (clip eps) := by
  induction order generalizing rand with
  | nil =>
    have : rand = [] := List.length_eq_zero_iff.1 hr.symm
    subst this
    exact ⟨[], rfl, rfl, by simp, by simp, rfl⟩
  | cons a as ih =>
    obtain ⟨n, b⟩ := a
    have g := good_getVar listing hl (hg (n, b) (by simp)) b
    cases hc : cond (own n b) with
    | some t =>
      have hf : free cond (n, b) = false := by simp [free, hc]
      rw [List.filter_cons_of_neg (by simp [hf])] at hr
      obtain ⟨inits, e1, e2, e3, e4, e5⟩ := ih (fun e he => hg e (by simp [he])) rand hr
      refine ⟨(n, b, clip eps t) :: inits, ?_, by simp [e2], ?_, ?_, ?_⟩
      · rw [initSamples, g, Option.bind_some, hc]
        simp [e1]
      · intro e he u hu
        rcases List.mem_cons.1 he with rfl | he
        · rw [hc] at hu
          cases hu
          rfl
        · exact e3 e he u hu
      · intro e he
        rcases List.mem_cons.1 he with rfl | he
        · exact ⟨t, rfl⟩
        · exact e4 e he
      · rw [List.filter_cons_of_neg (by simp [hf]), e5]
    | none =>
      have hf : free cond (n, b) = true := by simp [free, hc]
      rw [List.filter_cons_of_pos hf] at hr
      match rand with
      | [] => simp at hr
      | t :: rand =>
        obtain ⟨inits, e1, e2, e3, e4, e5⟩ := ih (fun e he => hg e (by simp [he])) rand (by simpa using hr)
        refine ⟨(n, b, clip eps t) :: inits, ?_, by simp [e2], ?_, ?_, ?_⟩
        · rw [initSamples, g, Option.bind_some, hc]
          simp [e1]
        · intro e he u hu
          rcases List.mem_cons.1 he with rfl | he
          · rw [hc] at hu
            cases hu
          · exact e3 e he u hu
        · intro e he
          rcases List.mem_cons.1 he with rfl | he
          · exact ⟨t, rfl⟩
          · exact e4 e he
        · rw [List.filter_cons_of_pos (by simpa using hf), List.map_cons, e5, List.map_cons]

theorem filter_split {α : Type} (p : α → Bool) (L pre post : List α) (e : α) (h : L.filter p = pre ++ e :: post) : ∃ A B, L = A ++ e :: B ∧ A.filter p = pre := by
  induction L generalizing pre with
  | nil => simp at h
  | cons a as ih =>
    by_cases ha : p a = true
    · rw [List.filter_cons_of_pos ha] at h
      cases pre with
      | nil =>
        rw [List.nil_append, List.cons.injEq] at h
        exact ⟨[], as, by simp [h.1], rfl⟩
      | cons q qs =>
        rw [List.cons_append, List.cons.injEq] at h
        obtain ⟨A, B, e1, e2⟩ := ih qs h.2
        exact ⟨a :: A, B, by simp [e1], by rw [List.filter_cons_of_pos ha, e2, h.1]⟩
    · rw [List.filter_cons_of_neg ha] at h
      obtain ⟨A, B, e1, e2⟩ := ih pre h
      exact ⟨a :: A, B, by simp [e1], by rw [List.filter_cons_of_neg ha, e2]⟩

theorem elim_append {A B : List (Node × Bool)} (h : Elim (A ++ B)) : Elim B := by
  induction A with
  | nil => exact h
  | cons a as ih => exact ih h.2.2.2

/-- The nodes of an entry that is not replaced. -/
theorem replaced_free {K : Type} (cond : ℕ → Option K) (e : Node × Bool) (h : free cond e = true) : replaced (fun i => (cond i).isSome) e = e := by
  simp only [free, Option.isNone_iff_eq_none] at h
  simp [replaced, h]

theorem free_replaced {K : Type} (cond : ℕ → Option K) (e : Node × Bool) : free cond (replaced (fun i => (cond i).isSome) e) = free cond e := by
  rw [free, own_replaced, free]

/-- The steps of an order. -/
def stepsOf {K : Type} (cond : ℕ → Option K) (order : List (Node × Bool)) : List (ℕ × Node) := (order.filter (free cond)).map fun e => (own e.1 e.2, e.1)

/-- Propagation along an order that `_sampling_order` gives. -/
theorem sample_of_elim (listing : Finset ℕ → List ℕ) (hl : ∀ s, (listing s).Nodup ∧ ∀ a, a ∈ listing s ↔ a ∈ s) {eps : ℝ} (h0 : 0 < eps) (h1 : eps < 1 / 2) {cop : Node → Cop ℝ}
    (hc : ∀ n, IsInverse (cop n).partialDerivative (cop n).inversePartialDerivative) (cond : ℕ → Option ℝ) (rand : List ℝ) (n : ℕ) (edges : List Node) (P : List (Node × Bool)) (hP : Elim P)
    (hv : ∀ i, i ∈ P.map (fun e => own e.1 e.2) ↔ i < n) (hb : ∀ e ∈ P, ∃ m ∈ edges, Below e.1 m)
    (he : ∀ e ∈ P, free cond e = true → ∀ m ∈ rightEdges e.1 e.2, Exchangeable (cop m)) (hr : (P.filter (free cond)).length = rand.length) :
    ∃ inits s x, initSamples listing eps cond (P.map (replaced fun i => (cond i).isSome)).reverse rand = some inits ∧ propagate cop inits = some s ∧ (∀ i < n, s.pseudo i = some (x i)) ∧
      IsSample cop edges n (fun i => (cond i).map (clip eps)) (rand.map (clip eps)) x (stepsOf cond (P.map (replaced fun i => (cond i).isSome)).reverse) := by
  obtain ⟨order, ho⟩ : ∃ o, o = (P.map (replaced fun i => (cond i).isSome)).reverse := ⟨_, rfl⟩
  have hE := elim_replaced (fun i => (cond i).isSome) hP
  have hgood : ∀ e ∈ order, Good e.1 := by
    intro e he
    rw [ho, List.mem_reverse] at he
    exact elim_good hE e he
  have hmem : ∀ e ∈ order, free cond e = true → e ∈ P := by
    intro e he hf
    rw [ho, List.mem_reverse] at he
    obtain ⟨a, ha, rfl⟩ := List.mem_map.1 he
    rw [free_replaced] at hf
    rwa [replaced_free cond a hf]
  have hfl : (order.filter (free cond)).length = rand.length := by
    rw [← hr, ho, List.filter_reverse, List.length_reverse, List.filter_map, List.length_map]
    congr 1
    refine List.filter_congr fun a _ => ?_
    simp [free_replaced]
  have hown : ∀ i, i ∈ order.map (fun e => own e.1 e.2) ↔ i < n := by
    intro i
    rw [ho, List.map_reverse, List.mem_reverse, map_own_replaced]
    exact hv i
  have hnod : (order.map fun e => own e.1 e.2).Nodup := by
    rw [ho, List.map_reverse, List.nodup_reverse]
    exact elim_nodup hE
  obtain ⟨r1, r2⟩ := elim_order (fun i => (cond i).isSome) hP
  obtain ⟨inits, i1, i2, i3, i4, i5⟩ := init_exists listing hl eps cond order hgood rand hfl
  rw [← ho] at r1 r2 ⊢
  have hin : ∀ e ∈ inits, (e.1, e.2.1) ∈ order := by
    intro e he
    rw [← i2]
    exact List.mem_map_of_mem (f := fun e : Node × Bool × ℝ => (e.1, e.2.1)) he
  have hrootEx : ∀ e ∈ inits, ∀ m ∈ rightEdges e.1 e.2.1, Exchangeable (cop m) := by
    intro e hei m hm
    by_cases hf : free cond (e.1, e.2.1) = true
    · exact he _ (hmem _ (hin e hei) hf) hf m hm
    · have := hin e hei
      rw [ho, List.mem_reverse] at this
      obtain ⟨a, ha, hae⟩ := List.mem_map.1 this
      have hf' : free cond a ≠ true := by rw [← free_replaced, hae]; exact hf
      have : (cond (own a.1 a.2)).isSome = true := by
        rw [free] at hf'
        cases hh : cond (own a.1 a.2) <;> simp [hh] at hf' ⊢
      rw [replaced, if_pos this] at hae
      have e1 : e.1 = .root (own a.1 a.2) := (congrArg Prod.fst hae).symm
      rw [e1] at hm
      simp [rightEdges] at hm
  obtain ⟨s, x, s1, s2, s3⟩ := propagate_spec hc inits hrootEx (fun e he => hgood _ (hin e he)) (fun e he => by obtain ⟨t, ht⟩ := i4 e he; rw [ht]; exact clip_inside h0 h1) (by rw [i2]; exact r1) (by rw [i2]; exact r2)
  refine ⟨inits, s, x, i1, s1, ?_, ?_, ?_, ?_, ?_, ?_, ?_, ?_⟩
  · intro i hi
    obtain ⟨a, ha, rfl⟩ := List.mem_map.1 ((hown i).2 hi)
    rw [← i2] at ha
    obtain ⟨e, he, rfl⟩ := List.mem_map.1 ha
    exact (s3 e he).1
  · intro i hi t ht
    obtain ⟨u, hu, rfl⟩ := Option.map_eq_some_iff.1 ht
    obtain ⟨a, ha, hae⟩ := List.mem_map.1 ((hown i).2 hi)
    have ha' := ha
    rw [← i2] at ha'
    obtain ⟨e, he, rfl⟩ := List.mem_map.1 ha'
    simp only at hae
    have hval := i3 e he u (by rw [hae]; exact hu)
    rw [← hval, ← (s3 e he).2, hae]
    have hroot : e.1 = .root i := by
      rw [ho, List.mem_reverse] at ha
      obtain ⟨c, hc', hce⟩ := List.mem_map.1 ha
      have hoc : own c.1 c.2 = i := by
        rw [← own_replaced (fun i => (cond i).isSome), hce]
        exact hae
      rw [replaced, if_pos (by rw [hoc, hu]; rfl), hoc] at hce
      exact (congrArg Prod.fst hce).symm
    rw [hroot]
    rfl
  · intro i
    simp only [stepsOf, List.map_map, List.mem_map, List.mem_filter, Function.comp, Option.map_eq_none_iff]
    constructor
    · rintro ⟨e, ⟨h, hf⟩, rfl⟩
      exact ⟨(hown _).1 (List.mem_map_of_mem (f := fun e : Node × Bool => own e.1 e.2) h), by simpa [free] using hf⟩
    · rintro ⟨hi, hn⟩
      obtain ⟨e, h, rfl⟩ := List.mem_map.1 ((hown i).2 hi)
      exact ⟨e, ⟨h, by simp [free, hn]⟩, rfl⟩
  · rw [stepsOf, List.map_map]
    exact ((List.filter_sublist).map _).nodup hnod
  · rw [stepsOf, List.length_map, List.length_map, hfl]
  · intro e hee
    obtain ⟨a, ha, rfl⟩ := List.mem_map.1 hee
    obtain ⟨h2, h3⟩ := List.mem_filter.1 ha
    exact ⟨hb a (hmem a h2 h3), own_mem (hgood a h2) a.2⟩
  · intro pre e post hsp i hi hne
    obtain ⟨l1, l2, e1, e2, e3⟩ := List.map_eq_append_iff.1 hsp
    obtain ⟨a, l3, e4, e5, e6⟩ := List.map_eq_cons_iff.1 e3
    rw [e4] at e1
    obtain ⟨A, B, f1, f2⟩ := filter_split _ _ _ _ _ e1
    have hrev : P.map (replaced fun i => (cond i).isSome) = B.reverse ++ a :: A.reverse := by
      rw [← List.reverse_reverse (P.map _), ← ho, f1]
      simp
    have hel := elim_append (hrev ▸ hE)
    rw [← e5] at hi hne
    have := hel.2.2.1 i hi hne
    rw [List.map_reverse, List.mem_reverse] at this
    by_cases hs : (cond i).isSome = true
    · left
      simpa using hs
    · right
      rw [← e2, List.map_map, ← f2]
      obtain ⟨c, hcA, rfl⟩ := List.mem_map.1 this
      refine List.mem_map.2 ⟨c, List.mem_filter.2 ⟨hcA, ?_⟩, rfl⟩
      cases hh : cond (own c.1 c.2) <;> simp [free, hh] at hs ⊢
  · rw [← i5, stepsOf, List.map_map, ← i2, List.filter_map, List.map_map]
    refine List.map_congr_left fun e he => ?_
    exact (s3 e (List.mem_filter.1 he).1).2

theorem steps_split {K : Type} (cond : ℕ → Option K) (P : List (Node × Bool)) {pre post : List (ℕ × Node)} {e : ℕ × Node} (h : stepsOf cond (P.map (replaced fun i => (cond i).isSome)).reverse = pre ++ e :: post) :
    ∃ B a A, P = B ++ a :: A ∧ free cond a = true ∧ e = (own a.1 a.2, a.1) ∧ pre = stepsOf cond (A.map (replaced fun i => (cond i).isSome)).reverse := by
  obtain ⟨l1, l2, e1, e2, e3⟩ := List.map_eq_append_iff.1 h
  obtain ⟨a, l3, e4, e5, e6⟩ := List.map_eq_cons_iff.1 e3
  rw [e4] at e1
  have hfa : free cond a = true := by
    have : a ∈ List.filter (free cond) (P.map (replaced fun i => (cond i).isSome)).reverse := by rw [e1]; simp
    exact (List.mem_filter.1 this).2
  obtain ⟨A, B, f1, f2⟩ := filter_split _ _ _ _ _ e1
  have hrev : P.map (replaced fun i => (cond i).isSome) = B.reverse ++ a :: A.reverse := by
    rw [← List.reverse_reverse (P.map _), f1]
    simp
  obtain ⟨P1, P2, g1, g2, g3⟩ := List.map_eq_append_iff.1 hrev
  obtain ⟨a', P3, g4, g5, g6⟩ := List.map_eq_cons_iff.1 g3
  have : a' = a := by
    rw [← g5, free_replaced] at hfa
    rw [← g5, replaced_free cond a' hfa]
  subst this
  refine ⟨P1, a', P3, by rw [g1, g4], hfa, e5.symm, ?_⟩
  rw [g6, List.reverse_reverse, stepsOf, f2, e2]

theorem steps_own {K : Type} (cond : ℕ → Option K) (A : List (Node × Bool)) (i : ℕ) : i ∈ (stepsOf cond (A.map (replaced fun i => (cond i).isSome)).reverse).map Prod.fst ↔ i ∈ A.map (fun e => own e.1 e.2) ∧ cond i = none := by
  simp only [stepsOf, List.map_map, List.mem_map, List.mem_filter, List.mem_reverse, Function.comp]
  constructor
  · rintro ⟨e, ⟨⟨a, ha, rfl⟩, hf⟩, rfl⟩
    refine ⟨⟨a, ha, (own_replaced _ _).symm⟩, ?_⟩
    simpa [free] using hf
  · rintro ⟨⟨a, ha, rfl⟩, hn⟩
    refine ⟨_, ⟨⟨a, ha, rfl⟩, ?_⟩, own_replaced _ _⟩
    rw [free_replaced, free, hn]
    rfl

/-- In a full vine the node of a step has all variables of the steps before. -/
theorem steps_full {K : Type} (cond : ℕ → Option K) (P : List (Node × Bool)) (hfull : ∀ B a A, P = B ++ a :: A → ∀ i ∈ A.map (fun e => own e.1 e.2), i ∈ vars a.1) {pre post : List (ℕ × Node)} {e : ℕ × Node}
    (h : stepsOf cond (P.map (replaced fun i => (cond i).isSome)).reverse = pre ++ e :: post) : ∀ i ∈ pre.map Prod.fst, i ∈ vars e.2 := by
  obtain ⟨B, a, A, e1, e2, rfl, rfl⟩ := steps_split cond P h
  intro i hi
  exact hfull B a A e1 i ((steps_own cond A i).1 hi).1

end Skfolio.Vine
