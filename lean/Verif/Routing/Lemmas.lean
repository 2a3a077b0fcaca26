import Verif.Routing.Spec
import Mathlib.Tactic.ByContra
import Mathlib.Tactic.SplitIfs
import Mathlib.Logic.Basic
import Mathlib.Data.List.Nodup

set_option autoImplicit false

namespace Skfolio.Routing

variable {V : Type}

/-! Dictionaries. -/

theorem lookup_none_iff {α : Type} (d : List (String × α)) (k : String) : d.lookup k = none ↔ k ∉ d.map Prod.fst := by
  induction d with
  | nil => simp
  | cons a l ih =>
    obtain ⟨x, v⟩ := a
    by_cases h : k = x
    · subst h; simp
    · have hb : (k == x) = false := by simpa using h
      simp only [List.lookup_cons, hb, List.map_cons, List.mem_cons, h, false_or]
      exact ih

theorem lookup_mem {α : Type} (d : List (String × α)) (k : String) (v : α) (h : d.lookup k = some v) : (k, v) ∈ d := by
  induction d with
  | nil => simp at h
  | cons a l ih =>
    obtain ⟨x, w⟩ := a
    by_cases hk : k = x
    · subst hk; simp at h; simp [h]
    · have hb : (k == x) = false := by simpa using hk
      simp only [List.lookup_cons, hb] at h
      exact List.mem_cons_of_mem _ (ih h)

theorem lookup_of_mem {α : Type} (d : List (String × α)) (hn : (d.map Prod.fst).Nodup) (k : String) (v : α) (h : (k, v) ∈ d) : d.lookup k = some v := by
  induction d with
  | nil => simp at h
  | cons a l ih =>
    obtain ⟨x, w⟩ := a
    simp only [List.map_cons, List.nodup_cons] at hn
    rcases List.mem_cons.1 h with h | h
    · cases h; simp
    · have hk : k ≠ x := by
        intro hkx
        exact hn.1 (List.mem_map.2 ⟨(k, v), h, hkx⟩)
      have hb : (k == x) = false := by simpa using hk
      simp only [List.lookup_cons, hb]
      exact ih hn.2 h

theorem lookup_append {α : Type} (a b : List (String × α)) (k : String) : (a ++ b).lookup k = (a.lookup k).or (b.lookup k) := by
  induction a with
  | nil => simp
  | cons x l ih =>
    obtain ⟨y, w⟩ := x
    by_cases hk : k = y
    · subst hk; simp
    · have hb : (k == y) = false := by simpa using hk
      simp only [List.cons_append, List.lookup_cons, hb]
      exact ih

theorem lookup_childParams (ns : List String) (kw : Kw V) (k : String) : (childParams ns kw).lookup k = if k ∈ ns then kw.lookup k else none := by
  unfold childParams
  induction kw with
  | nil => simp
  | cons x l ih =>
    obtain ⟨y, w⟩ := x
    by_cases hy : y ∈ ns
    · rw [List.filter_cons_of_pos (by simpa using hy)]
      by_cases hk : k = y
      · subst hk; simp [hy]
      · have hb : (k == y) = false := by simpa using hk
        simp only [List.lookup_cons, hb]
        exact ih
    · rw [List.filter_cons_of_neg (by simpa using hy)]
      by_cases hk : k = y
      · subst hk
        rw [ih]; simp [hy]
      · have hb : (k == y) = false := by simpa using hk
        simp only [List.lookup_cons, hb]
        exact ih

theorem consume_key (req : List (String × String)) (kw : Kw V) (k : String) (h : k ∈ (consume req kw).map Prod.fst) : k ∈ req.map Prod.fst := by
  unfold consume at h
  obtain ⟨⟨a, v⟩, ha, rfl⟩ := List.mem_map.1 h
  obtain ⟨r, hr, hv⟩ := List.mem_filterMap.1 ha
  cases hl : kw.lookup r.2 with
  | none => rw [hl] at hv; simp at hv
  | some w =>
    rw [hl] at hv
    simp only [Option.map_some, Option.some.injEq, Prod.mk.injEq] at hv
    exact List.mem_map.2 ⟨r, hr, hv.1⟩

theorem lookup_consume (req : List (String × String)) (hn : (req.map Prod.fst).Nodup) (kw : Kw V) (r : String × String) (hr : r ∈ req) :
    (consume req kw).lookup r.1 = kw.lookup r.2 := by
  induction req with
  | nil => simp at hr
  | cons a l ih =>
    simp only [List.map_cons, List.nodup_cons] at hn
    have hc : consume (a :: l) kw = (match kw.lookup a.2 with | none => [] | some v => [(a.1, v)]) ++ consume l kw := by
      unfold consume
      rw [List.filterMap_cons]
      cases kw.lookup a.2 <;> rfl
    rw [hc, lookup_append]
    rcases List.mem_cons.1 hr with h | h
    · subst h
      cases hl : kw.lookup r.2 with
      | some v => simp
      | none =>
        simp only [List.lookup_nil, Option.none_or]
        rw [lookup_none_iff]
        exact fun h => hn.1 (consume_key _ _ _ h)
    · have hne : r.1 ≠ a.1 := fun hx => hn.1 (List.mem_map.2 ⟨r, h, hx⟩)
      have hb : (r.1 == a.1) = false := by simpa using hne
      rw [ih hn.2 h]
      cases kw.lookup a.2 with
      | none => simp
      | some v => simp [hb, List.lookup_cons]

theorem lookup_consume_none (req : List (String × String)) (kw : Kw V) (k : String) (hk : k ∉ req.map Prod.fst) : (consume req kw).lookup k = none := by
  rw [lookup_none_iff]; exact fun h => hk (consume_key _ _ _ h)

theorem eq_nil_of_lookup (d : Kw V) (h : ∀ k, d.lookup k = none) : d = [] := by
  cases d with
  | nil => rfl
  | cons a l => have := h a.1; simp [List.lookup_cons] at this

/-! The tables. -/

theorem use_eq_route (c : Cls) (hc : c ≠ .syntheticData) (s : String) : useName c s = routeName c s := by
  cases c <;> first | rfl | exact absurd rfl hc

theorem route_eq (c : Cls) (hc : c ≠ .syntheticData) (s n : String) (h : routeName c s = some n) : n = s := by
  cases c <;> simp only [routeName] at h <;> first | exact absurd rfl hc | (split_ifs at h <;> simp_all)

/-- An attribute of a class is registered unless it is left out. -/
theorem route_some (c : Cls) (s : String) (hl : ∀ l, slots c = some l → s ∈ l) : (routeName c s).isSome = !(leftOut (some c) s) := by
  cases c <;> simp only [slots, Option.some.injEq, forall_eq', List.mem_cons, List.not_mem_nil, or_false] at hl <;>
    simp only [routeName, leftOut] <;>
    first
    | (rcases hl with rfl | rfl | rfl | rfl <;> decide)
    | (rcases hl with rfl | rfl | rfl <;> decide)
    | (rcases hl with rfl | rfl <;> decide)
    | (subst hl; decide)
    | (by_cases h : s = "final_estimator" <;> simp [h])

/-! Sequences of fits. -/

theorem sequence_ok {α β : Type} (f : α → Except Err (List β)) (l : List α) (h : ∀ a ∈ l, ∃ b, f a = .ok b) :
    ∃ bs, sequence f l = .ok bs ∧ ∀ x, x ∈ bs ↔ ∃ a ∈ l, ∃ b, f a = .ok b ∧ x ∈ b := by
  induction l with
  | nil => exact ⟨[], rfl, by simp⟩
  | cons a l ih =>
    obtain ⟨b, hb⟩ := h a (by simp)
    obtain ⟨bs, hbs, hx⟩ := ih fun a' ha' => h a' (by simp [ha'])
    refine ⟨b ++ bs, by simp only [sequence, hb, hbs], ?_⟩
    intro x
    rw [List.mem_append, hx]
    constructor
    · rintro (h | ⟨a', ha', h⟩)
      · exact ⟨a, by simp, b, hb, h⟩
      · exact ⟨a', by simp [ha'], h⟩
    · rintro ⟨a', ha', b', hb', h⟩
      rcases List.mem_cons.1 ha' with rfl | ha'
      · rw [hb] at hb'; cases hb'; exact .inl h
      · exact .inr ⟨a', ha', b', hb', h⟩

theorem sequence_inv {α β : Type} (f : α → Except Err (List β)) (l : List α) (bs : List β) (h : sequence f l = .ok bs) : ∀ a ∈ l, ∃ b, f a = .ok b := by
  induction l generalizing bs with
  | nil => simp
  | cons a l ih =>
    intro a' ha'
    simp only [sequence] at h
    cases hf : f a with
    | error x => simp [hf] at h
    | ok b =>
      simp only [hf] at h
      cases hs : sequence f l with
      | error x => simp [hs] at h
      | ok bs' =>
        rcases List.mem_cons.1 ha' with rfl | ha'
        · exact ⟨b, hf⟩
        · exact ih _ hs a' ha'

end Skfolio.Routing
