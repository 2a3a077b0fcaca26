import Verif.Routing.Lemmas

set_option autoImplicit false

namespace Skfolio.Routing

variable {V : Type} [DecidableEq V]

mutual
theorem Est.induct (P : Est → Prop) (h : ∀ c req kids, (∀ s e, (s, e) ∈ kids.toList → P e) → P (.mk c req kids)) : (e : Est) → P e
  | .mk c req kids => h c req kids (Kids.induct P h kids)
theorem Kids.induct (P : Est → Prop) (h : ∀ c req kids, (∀ s e, (s, e) ∈ kids.toList → P e) → P (.mk c req kids)) : (kids : Kids) → ∀ s e, (s, e) ∈ kids.toList → P e
  | .nil => fun _ _ hm => by simp [Kids.toList] at hm
  | .cons s' e' rest => fun s e hm => by
    simp only [Kids.toList, List.mem_cons, Prod.mk.injEq] at hm
    rcases hm with ⟨_, rfl⟩ | hm
    · exact Est.induct P h _
    · exact Kids.induct P h rest s e hm
end

theorem kidNames_iff (c : Cls) (n : String) : (kids : Kids) → (n ∈ kidNames c kids ↔ ∃ s e, (s, e) ∈ kids.toList ∧ (routeName c s).isSome ∧ n ∈ names e)
  | .nil => by simp [kidNames, Kids.toList]
  | .cons s e rest => by
    rw [kidNames, List.mem_append, kidNames_iff c n rest]
    simp only [Kids.toList, List.mem_cons, Prod.mk.injEq]
    constructor
    · rintro (h | ⟨s', e', h⟩)
      · split_ifs at h with hs
        · exact ⟨s, e, .inl ⟨rfl, rfl⟩, hs, h⟩
        · simp at h
      · exact ⟨s', e', .inr h.1, h.2⟩
    · rintro ⟨s', e', ⟨rfl, rfl⟩ | hm, h⟩
      · exact .inl (by rw [if_pos h.1]; exact h.2)
      · exact .inr ⟨s', e', hm, h⟩

theorem mem_get (c : Option Cls) (req : List (String × String)) (kids : Kids) (hx : (Est.mk c req kids).Exists) (s : String) (e : Est) :
    (s, e) ∈ kids.toList ↔ (Est.mk c req kids).get? s = some e :=
  ⟨fun h => lookup_of_mem _ (hx [] c req kids rfl).1 _ _ h, fun h => lookup_mem _ _ _ h⟩

theorem at_cons (e : Est) (s : String) (p : List String) : e.at? (s :: p) = (e.get? s).bind fun e' => e'.at? p := by
  cases e; rfl

theorem at_cons_of (e e' : Est) (s : String) (h : e.get? s = some e') (p : List String) : e.at? (s :: p) = e'.at? p := by
  rw [at_cons, h]; rfl

theorem at_nil (e : Est) : e.at? [] = some e := by cases e; rfl

theorem reached_cons (e e' : Est) (s : String) (h : e.get? s = some e') (p : List String) : e.reached (s :: p) ↔ leftOut e.cls s = false ∧ e'.reached p := by
  cases e
  simp only [Est.reached]
  constructor
  · exact fun hh => ⟨hh.1, hh.2 _ h⟩
  · rintro ⟨h1, h2⟩
    refine ⟨h1, ?_⟩
    intro e'' h'
    rw [h] at h'; cases h'; exact h2

theorem Exists_kid (e e' : Est) (s : String) (h : e.get? s = some e') (hx : e.Exists) : e'.Exists := by
  intro p c req kids hp
  exact hx (s :: p) c req kids (by rw [at_cons_of e e' s h]; exact hp)

theorem Plain_kid (e e' : Est) (s : String) (h : e.get? s = some e') (hx : e.PlainNames) : e'.PlainNames := by
  refine ⟨?_, ?_⟩
  · intro p a s' b hp
    exact hx.1 (s :: p) a s' b (by rw [at_cons_of e e' s h]; exact hp)
  · intro p a hp
    exact hx.2 (s :: p) a (by rw [at_cons_of e e' s h]; exact hp)

omit [DecidableEq V] in
theorem NoSynthetic_kid (e e' : Est) (kw : Kw V) (s : String) (h : e.get? s = some e') (hl : leftOut e.cls s = false) (hx : e.NoSynthetic kw) : e'.NoSynthetic kw := by
  intro p a hp hr
  exact hx (s :: p) a (by rw [at_cons_of e e' s h]; exact hp) ((reached_cons e e' s h p).2 ⟨hl, hr⟩)

theorem Wants_iff (e : Est) (n : String) : e.Wants n ↔ n ∈ e.asksFor.map Prod.snd ∨ e.WantsBelow n := by
  constructor
  · rintro ⟨p, e', hp, hr, hn⟩
    cases p with
    | nil => rw [at_nil] at hp; cases hp; exact .inl hn
    | cons s p =>
      cases hg : e.get? s with
      | none => rw [at_cons, hg] at hp; cases hp
      | some e'' =>
        rw [at_cons_of e e'' s hg] at hp
        rw [reached_cons e e'' s hg] at hr
        exact .inr ⟨s, e'', hg, hr.1, p, e', hp, hr.2, hn⟩
  · rintro (h | ⟨s, e', hg, hl, p, e'', hp, hr, hn⟩)
    · exact ⟨[], e, at_nil e, by cases e; trivial, h⟩
    · exact ⟨s :: p, e'', by rw [at_cons_of e e' s hg]; exact hp, (reached_cons e e' s hg p).2 ⟨hl, hr⟩, hn⟩

theorem asks_self (c : Cls) (req : List (String × String)) (kids : Kids) : (if selfRequest c then req else []) = (Est.mk (some c) req kids).asksFor := by
  cases c <;> rfl

theorem route_of_get (c : Cls) (req : List (String × String)) (kids : Kids) (hx : (Est.mk (some c) req kids).Exists) (s : String) (e : Est) (h : (s, e) ∈ kids.toList) :
    (routeName c s).isSome = true ↔ leftOut (some c) s = false := by
  rw [route_some c s fun l hl => (hx [] (some c) req kids rfl).2.2.2 c rfl l hl s (List.mem_map.2 ⟨_, h, rfl⟩)]
  simp

theorem names_iff (e : Est) : e.Exists → ∀ n, n ∈ names e ↔ e.Wants n := by
  refine Est.induct (fun e => e.Exists → ∀ n, n ∈ names e ↔ e.Wants n) ?_ e
  intro c req kids ih hx n
  rw [Wants_iff]
  cases c with
  | none =>
    have hk : kids.toList = [] := (hx [] none req kids rfl).2.2.1 rfl
    simp only [names, Est.asksFor]
    constructor
    · exact .inl
    · rintro (h | ⟨s, e', hg, -⟩)
      · exact h
      · rw [← mem_get _ _ _ hx, hk] at hg; simp at hg
  | some c =>
    rw [names, List.mem_append, kidNames_iff, ← asks_self c req kids]
    refine or_congr (by split_ifs <;> simp) ?_
    constructor
    · rintro ⟨s, e', hm, hr, hn⟩
      have hg := (mem_get _ _ _ hx s e').1 hm
      exact ⟨s, e', hg, (route_of_get c req kids hx s e' hm).1 hr, (ih s e' hm (Exists_kid _ _ _ hg hx) n).1 hn⟩
    · rintro ⟨s, e', hg, hl, hn⟩
      have hm := (mem_get _ _ _ hx s e').2 hg
      exact ⟨s, e', hm, (route_of_get c req kids hx s e' hm).2 hl, (ih s e' hm (Exists_kid _ _ _ hg hx) n).2 hn⟩

theorem kidNames_below (c : Cls) (req : List (String × String)) (kids : Kids) (hx : (Est.mk (some c) req kids).Exists) (n : String) :
    n ∈ kidNames c kids ↔ (Est.mk (some c) req kids).WantsBelow n := by
  rw [kidNames_iff]
  constructor
  · rintro ⟨s, e', hm, hr, hn⟩
    have hg := (mem_get _ _ _ hx s e').1 hm
    exact ⟨s, e', hg, (route_of_get c req kids hx s e' hm).1 hr, (names_iff e' (Exists_kid _ _ _ hg hx) n).1 hn⟩
  · rintro ⟨s, e', hg, hl, hn⟩
    have hm := (mem_get _ _ _ hx s e').2 hg
    exact ⟨s, e', hm, (route_of_get c req kids hx s e' hm).2 hl, (names_iff e' (Exists_kid _ _ _ hg hx) n).2 hn⟩

/-! What an estimator is given. -/

/-- What is needed for the nested estimators to get their keywords. -/
def Passes : Est → Kw V → Kw V → Prop
  | .mk none _ _, _, _ => True
  | .mk (some c) req kids, kw, d => (∀ k ∈ d.map Prod.fst, k ∈ allowed c req kids) ∧ ∀ n ∈ kidNames c kids, d.lookup n = kw.lookup n

omit [DecidableEq V] in
theorem Passes_empty (e : Est) (kw : Kw V) (h : ∀ n ∈ names e, kw.lookup n = none) : Passes e kw [] ∧ Delivered e kw [] := by
  obtain ⟨c, req, kids⟩ := e
  cases c with
  | none =>
    refine ⟨trivial, ?_, ?_⟩
    · intro r hr
      rw [h r.2 (by simp only [names]; exact List.mem_map.2 ⟨r, hr, rfl⟩)]; rfl
    · intro _ k _; rfl
  | some c =>
    refine ⟨⟨by simp, ?_⟩, ?_, ?_⟩
    · intro n hn
      rw [h n (by rw [names, List.mem_append]; exact .inr hn)]; rfl
    · intro r hr
      rw [← asks_self c req kids] at hr
      rw [h r.2 (by rw [names, List.mem_append]; left; split_ifs at hr ⊢ <;> simp at hr ⊢; exact ⟨_, hr⟩)]; rfl
    · intro hc; cases hc

theorem routeTo_ok (e : Est) (hx : e.Exists) (hp : e.PlainNames) (kw d : Kw V) (h : ∀ n ∈ names e, d.lookup n = kw.lookup n) :
    ∃ d', routeTo e d = .ok d' ∧ Passes e kw d' ∧ Delivered e kw d' := by
  obtain ⟨c, req, kids⟩ := e
  have hnd := (hx [] c req kids rfl).2.1
  cases c with
  | none =>
    refine ⟨_, rfl, trivial, ?_, ?_⟩
    · intro r hr
      rw [lookup_consume req hnd d r hr]
      exact h _ (by simp only [names]; exact List.mem_map.2 ⟨r, hr, rfl⟩)
    · intro _ k hk
      exact lookup_consume_none _ _ _ hk
  | some c =>
    have hsame : ∀ r ∈ (Est.mk (some c) req kids).asksFor, r.1 ∈ kidNames c kids → r.1 = r.2 := by
      intro r hr hk
      rw [kidNames_below c req kids hx] at hk
      by_cases hc : c = .implied
      · exact hp.2 [] _ (at_nil _) (by rw [hc]; rfl) r hr hk
      · exfalso
        rw [← asks_self] at hr
        cases c <;> first | exact absurd rfl hc | simp [selfRequest] at hr
    rw [← asks_self] at hsame
    have hown : ∀ r ∈ (if selfRequest c then req else []), ((if selfRequest c then consume req d else []) : Kw V).lookup r.1 = d.lookup r.2 := by
      intro r hr
      split_ifs at hr ⊢ with hs
      · exact lookup_consume req hnd d r hr
      · simp at hr
    have hkey : ∀ k, k ∉ ((if selfRequest c then req else []) : List (String × String)).map Prod.fst → ((if selfRequest c then consume req d else []) : Kw V).lookup k = none := by
      intro k hk
      split_ifs at hk ⊢ with hs
      · exact lookup_consume_none _ _ _ hk
      · rfl
    have hcf : (((if selfRequest c then consume req d else []) : Kw V).all fun p => ((childParams (kidNames c kids) d).lookup p.1).all fun v => v = p.2) = true := by
      rw [List.all_eq_true]
      rintro ⟨k, v⟩ hkv
      have hmem : k ∈ ((if selfRequest c then req else []) : List (String × String)).map Prod.fst := by
        split_ifs at hkv ⊢ with hs
        · exact consume_key _ _ _ (List.mem_map.2 ⟨_, hkv, rfl⟩)
        · simp at hkv
      obtain ⟨r, hr, rfl⟩ := List.mem_map.1 hmem
      rw [lookup_childParams]
      by_cases hk : r.1 ∈ kidNames c kids
      · rw [if_pos hk]
        have hv : d.lookup r.2 = some v := by
          split_ifs at hkv hr with hs
          · unfold consume at hkv
            obtain ⟨r', hr', hv⟩ := List.mem_filterMap.1 hkv
            cases hl : d.lookup r'.2 with
            | none => rw [hl] at hv; simp at hv
            | some w =>
              rw [hl] at hv
              simp only [Option.map_some, Option.some.injEq, Prod.mk.injEq] at hv
              have : r' = r := List.inj_on_of_nodup_map hnd hr' hr hv.1
              subst this; rw [hl, hv.2]
          · simp at hr
        have : d.lookup r.1 = some v := by rw [hsame r hr hk]; exact hv
        simp [this]
      · simp [hk]
    refine ⟨_, by simp only [routeTo]; rw [if_pos hcf], ⟨?_, ?_⟩, ?_, ?_⟩
    · intro k hk
      rw [List.map_append, List.mem_append] at hk
      rw [allowed, List.mem_append]
      rcases hk with hk | hk
      · left
        split_ifs at hk ⊢ with hs
        · exact consume_key _ _ _ hk
        · simp at hk
      · right
        by_contra hn
        have := lookup_childParams (kidNames c kids) d k
        rw [if_neg hn, lookup_none_iff] at this
        exact this hk
    · intro n hn
      rw [lookup_append, lookup_childParams, if_pos hn]
      have hd := h n (by rw [names, List.mem_append]; exact .inr hn)
      by_cases hk : n ∈ ((if selfRequest c then req else []) : List (String × String)).map Prod.fst
      · obtain ⟨r, hr, rfl⟩ := List.mem_map.1 hk
        rw [hown r hr, ← hsame r hr hn, hd]
        cases kw.lookup r.1 <;> rfl
      · rw [hkey n hk, Option.none_or, hd]
    · intro r hr
      rw [← asks_self] at hr
      rw [lookup_append, hown r hr, lookup_childParams]
      have hd := h r.2 (by
        rw [names, List.mem_append]; left
        split_ifs at hr ⊢ with hs
        · exact List.mem_map.2 ⟨r, hr, rfl⟩
        · simp at hr)
      split_ifs with hk
      · rw [hsame r hr hk, hd]; cases kw.lookup r.2 <;> rfl
      · rw [hd, Option.or_none]
    · intro hc; cases hc

end Skfolio.Routing
