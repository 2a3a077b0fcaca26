import Verif.Routing.Fit

set_option autoImplicit false

namespace Skfolio.Routing

variable {V : Type} [DecidableEq V]

theorem again_ok (e : Est) (hx : e.Exists) (hp : e.PlainNames) (hr : ∀ r ∈ e.asksFor, r.1 = r.2) (kw d : Kw V) (h1 : Passes e kw d) (h2 : Delivered e kw d) :
    ∃ d', again e d = .ok d' ∧ Passes e kw d' ∧ Delivered e kw d' := by
  by_cases hd : d = []
  · subst hd; exact ⟨[], rfl, h1, h2⟩
  have hn : ∀ n ∈ names e, d.lookup n = kw.lookup n := by
    intro n hn
    obtain ⟨c, req, kids⟩ := e
    cases c with
    | none =>
      simp only [names] at hn
      obtain ⟨r, hm, rfl⟩ := List.mem_map.1 hn
      rw [← h2.1 r hm, hr r hm]
    | some c =>
      rw [names, List.mem_append] at hn
      rcases hn with hn | hn
      · have : n ∈ (Est.mk (some c) req kids).asksFor.map Prod.snd := by
          rw [← asks_self]; split_ifs at hn ⊢ <;> simpa using hn
        obtain ⟨r, hm, rfl⟩ := List.mem_map.1 this
        rw [← h2.1 r hm, hr r hm]
      · exact h1.2 n hn
  have hk : (d.all fun p => p.1 ∈ names e) = true := by
    rw [List.all_eq_true]
    intro p hpd
    have hpk : p.1 ∈ d.map Prod.fst := List.mem_map.2 ⟨p, hpd, rfl⟩
    simp only [decide_eq_true_eq]
    obtain ⟨c, req, kids⟩ := e
    cases c with
    | none =>
      by_contra hnn
      have : p.1 ∉ req.map Prod.fst := by
        intro hm
        obtain ⟨r, hrm, hre⟩ := List.mem_map.1 hm
        apply hnn
        simp only [names]
        exact List.mem_map.2 ⟨r, hrm, by rw [← hr r hrm]; exact hre⟩
      have := h2.2 rfl p.1 this
      rw [lookup_none_iff] at this
      exact this hpk
    | some c =>
      have := h1.1 p.1 hpk
      rw [allowed, List.mem_append] at this
      rw [names, List.mem_append]
      rcases this with this | this
      · left
        have hs := asks_self c req kids
        split_ifs at this hs ⊢ with hc
        · obtain ⟨r, hrm, hre⟩ := List.mem_map.1 this
          exact List.mem_map.2 ⟨r, hrm, by rw [← hr r (by rw [← hs]; exact hrm)]; exact hre⟩
        · simp at this
      · exact .inr this
  obtain ⟨d', h⟩ := routeTo_ok e hx hp kw d hn
  refine ⟨d', ?_, h.2⟩
  unfold again
  rw [if_neg (by simpa using hd), if_pos hk]
  exact h.1

theorem routeAll_ok (c : Cls) (hc : c ≠ .syntheticData) (kw : Kw V) : (kids : Kids) → (kids.toList.map Prod.fst).Nodup →
    (∀ s e, (s, e) ∈ kids.toList → (routeName c s).isSome → ∃ d, routeTo e kw = .ok d) →
    ∃ ds, routeAll c kw kids = .ok ds ∧ (∀ s, s ∉ kids.toList.map Prod.fst → ds.lookup s = none) ∧
      ∀ s e, (s, e) ∈ kids.toList → (routeName c s).isSome → ∃ d, routeTo e kw = .ok d ∧ ds.lookup s = some d
  | .nil, _, _ => ⟨[], rfl, fun _ _ => rfl, fun s e h => by simp [Kids.toList] at h⟩
  | .cons s e rest, hn, h => by
    simp only [Kids.toList, List.map_cons, List.nodup_cons] at hn
    obtain ⟨ds, hds, h1, h2⟩ := routeAll_ok c hc kw rest hn.2 fun s' e' hm => h s' e' (by simp [Kids.toList, hm])
    cases hr : routeName c s with
    | none =>
      refine ⟨ds, by simp only [routeAll, hr, hds], ?_, ?_⟩
      · intro s' hs'
        simp only [Kids.toList, List.map_cons, List.mem_cons, not_or] at hs'
        exact h1 s' hs'.2
      · intro s' e' hm hrs
        simp only [Kids.toList, List.mem_cons, Prod.mk.injEq] at hm
        rcases hm with ⟨rfl, rfl⟩ | hm
        · rw [hr] at hrs; cases hrs
        · exact h2 s' e' hm hrs
    | some n =>
      have hns := route_eq c hc s n hr
      subst hns
      obtain ⟨d, hd⟩ := h n e (by simp [Kids.toList]) (by rw [hr]; rfl)
      refine ⟨(n, d) :: ds, by simp only [routeAll, hr, hds, hd], ?_, ?_⟩
      · intro s' hs'
        simp only [Kids.toList, List.map_cons, List.mem_cons, not_or] at hs'
        have hb : (s' == n) = false := by simpa using hs'.1
        simp only [List.lookup_cons, hb]
        exact h1 s' hs'.2
      · intro s' e' hm hrs
        simp only [Kids.toList, List.mem_cons, Prod.mk.injEq] at hm
        rcases hm with ⟨rfl, rfl⟩ | hm
        · exact ⟨d, hd, by simp⟩
        · obtain ⟨d', hd', hl⟩ := h2 s' e' hm hrs
          have hne : s' ≠ n := by
            intro hx
            exact hn.1 (List.mem_map.2 ⟨_, hm, hx⟩)
          have hb : (s' == n) = false := by simpa using hne
          exact ⟨d', hd', by simp only [List.lookup_cons, hb]; exact hl⟩

theorem fitKids_ok (c : Cls) (r : Option (List (String × Kw V))) : (kids : Kids) →
    (∀ s e, (s, e) ∈ kids.toList → ∃ d ds, kwOf c s r = .ok d ∧ calls c s e d = .ok ds ∧ ∀ d' ∈ ds, ∃ log, fit e d' = .ok log) →
    ∃ log, fitKids c r kids = .ok log ∧ ∀ p d', (p, d') ∈ log ↔ ∃ s e p', p = s :: p' ∧ (s, e) ∈ kids.toList ∧
      ∃ d ds dx l, kwOf c s r = .ok d ∧ calls c s e d = .ok ds ∧ dx ∈ ds ∧ fit e dx = .ok l ∧ (p', d') ∈ l
  | .nil, _ => ⟨[], rfl, fun p d' => by simp [Kids.toList]⟩
  | .cons s e rest, h => by
    obtain ⟨logs, hl, hlogs⟩ := fitKids_ok c r rest fun s' e' hm => h s' e' (by simp [Kids.toList, hm])
    obtain ⟨d, ds, hd, hds, hf⟩ := h s e (by simp [Kids.toList])
    obtain ⟨log, hlog, hmem⟩ := sequence_ok (fit e) ds hf
    refine ⟨log.map (fun p => (s :: p.1, p.2)) ++ logs, by simp only [fitKids, hd, hds, hlog, hl], ?_⟩
    intro p d'
    rw [List.mem_append, hlogs]
    constructor
    · rintro (hm | ⟨s', e', p', hp, hm, hx⟩)
      · obtain ⟨⟨p', dx⟩, hm', heq⟩ := List.mem_map.1 hm
        simp only [Prod.mk.injEq] at heq
        obtain ⟨a, ha, l, hl', hin⟩ := (hmem _).1 hm'
        refine ⟨s, e, p', heq.1.symm, by simp [Kids.toList], d, ds, a, l, hd, hds, ha, hl', ?_⟩
        rw [← heq.2]; exact hin
      · exact ⟨s', e', p', hp, by simp [Kids.toList, hm], hx⟩
    · rintro ⟨s', e', p', hp, hm, d₂, ds₂, dx, l, hx⟩
      simp only [Kids.toList, List.mem_cons, Prod.mk.injEq] at hm
      rcases hm with ⟨rfl, rfl⟩ | hm
      · left
        rw [hd] at hx
        obtain ⟨h1, h2, h3, h4, h5⟩ := hx
        cases h1
        rw [hds] at h2
        cases h2
        exact List.mem_map.2 ⟨(p', d'), (hmem _).2 ⟨dx, h3, l, h4, h5⟩, by rw [hp]⟩
      · exact .inr ⟨s', e', p', hp, hm, d₂, ds₂, dx, l, hx⟩

omit [DecidableEq V] in
theorem again_empty [DecidableEq V] (e : Est) : again e ([] : Kw V) = .ok [] := rfl

theorem calls_empty (c : Cls) (s : String) (e : Est) : ∃ ds, calls c s e ([] : Kw V) = .ok ds ∧ ds ≠ [] ∧ ∀ d ∈ ds, d = [] := by
  unfold calls
  cases c <;> simp only [again_empty, Except.map]
  case loadingRegression => exact ⟨_, rfl, by simp, by simp⟩
  case nestedClusters => split_ifs <;> exact ⟨_, rfl, by simp, by simp⟩
  case stacking => split_ifs <;> exact ⟨_, rfl, by simp, by simp⟩
  all_goals exact ⟨_, rfl, by simp, by simp⟩

theorem kwOf_none (c : Cls) (s : String) : kwOf c s (none : Option (List (String × Kw V))) = .ok [] := by
  unfold kwOf lookupRouted
  cases useName c s <;> rfl

/-- Without keywords every `fit` is called without keywords. -/
theorem fit_empty (e : Est) : e.Exists → ∃ log, fit e ([] : Kw V) = .ok log ∧ (∀ p, (∃ d, (p, d) ∈ log) ↔ (e.at? p).isSome) ∧ ∀ p d, (p, d) ∈ log → d = [] := by
  refine Est.induct (fun e => e.Exists → ∃ log, fit e ([] : Kw V) = .ok log ∧ (∀ p, (∃ d, (p, d) ∈ log) ↔ (e.at? p).isSome) ∧ ∀ p d, (p, d) ∈ log → d = []) ?_ e
  intro c req kids ih hx
  cases c with
  | none =>
    have hk : kids.toList = [] := (hx [] none req kids rfl).2.2.1 rfl
    refine ⟨[([], [])], rfl, ?_, by simp⟩
    intro p
    cases p with
    | nil => simp [at_nil]
    | cons s p =>
      rw [at_cons]
      simp [Est.get?, hk]
  | some c =>
    have key : ∀ s e, (s, e) ∈ kids.toList → ∃ d ds, kwOf c s (none : Option (List (String × Kw V))) = .ok d ∧ calls c s e d = .ok ds ∧ ∀ d' ∈ ds, ∃ log, fit e d' = .ok log := by
      intro s e hm
      obtain ⟨ds, hds, -, hall⟩ := calls_empty (V := V) c s e
      refine ⟨[], ds, kwOf_none c s, hds, ?_⟩
      intro d' hd'
      rw [hall d' hd']
      obtain ⟨log, hlog, -⟩ := ih s e hm (Exists_kid _ _ s ((mem_get _ _ _ hx s e).1 hm) hx)
      exact ⟨log, hlog⟩
    obtain ⟨log, hlog, hmem⟩ := fitKids_ok c none kids key
    refine ⟨([], []) :: log, by simp only [fit, processRouting, List.isEmpty_nil, if_true, hlog], ?_, ?_⟩
    · intro p
      cases p with
      | nil => simp [at_nil]
      | cons s p =>
        constructor
        · rintro ⟨d, hd⟩
          simp only [List.mem_cons, Prod.mk.injEq, reduceCtorEq, false_and, false_or] at hd
          obtain ⟨s', e, p', hp, hm, d₁, ds, dx, l, h1, h2, h3, h4, h5⟩ := (hmem _ _).1 hd
          cases hp
          have hg := (mem_get _ _ _ hx s e).1 hm
          rw [at_cons_of _ _ s hg]
          obtain ⟨l', hl', hc, -⟩ := ih s e hm (Exists_kid _ _ s hg hx)
          rw [kwOf_none] at h1; cases h1
          obtain ⟨ds', hds', -, hall⟩ := calls_empty (V := V) c s e
          rw [hds'] at h2; cases h2
          rw [hall dx h3, hl'] at h4; cases h4
          exact (hc p).1 ⟨d, h5⟩
        · intro hs
          cases hg : (Est.mk (some c) req kids).get? s with
          | none => rw [at_cons, hg] at hs; cases hs
          | some e =>
            rw [at_cons_of _ _ s hg] at hs
            have hm := (mem_get _ _ _ hx s e).2 hg
            obtain ⟨l', hl', hc, -⟩ := ih s e hm (Exists_kid _ _ s hg hx)
            obtain ⟨d, hd⟩ := (hc p).2 hs
            obtain ⟨ds', hds', hne, hall⟩ := calls_empty (V := V) c s e
            obtain ⟨dx, hdx⟩ := List.exists_mem_of_ne_nil _ hne
            refine ⟨d, List.mem_cons_of_mem _ ((hmem _ _).2 ⟨s, e, p, rfl, hm, [], ds', dx, l', kwOf_none c s, hds', hdx, ?_, hd⟩)⟩
            rw [hall dx hdx]; exact hl'
    · intro p d hd
      rcases List.mem_cons.1 hd with h | h
      · cases h; rfl
      · obtain ⟨s, e, p', -, hm, d₁, ds, dx, l, h1, h2, h3, h4, h5⟩ := (hmem _ _).1 h
        rw [kwOf_none] at h1; cases h1
        obtain ⟨ds', hds', -, hall⟩ := calls_empty (V := V) c s e
        rw [hds'] at h2; cases h2
        obtain ⟨l', hl', -, hem⟩ := ih s e hm (Exists_kid _ _ s ((mem_get _ _ _ hx s e).1 hm) hx)
        rw [hall dx h3, hl'] at h4; cases h4
        exact hem p' d h5

theorem calls_ok (c : Cls) (req : List (String × String)) (kids : Kids) (s : String) (e : Est) (hg : (Est.mk (some c) req kids).get? s = some e)
    (hx : (Est.mk (some c) req kids).Exists) (hp : (Est.mk (some c) req kids).PlainNames) (kw d : Kw V) (h1 : Passes e kw d) (h2 : Delivered e kw d) :
    ∃ ds, calls c s e d = .ok ds ∧ ds ≠ [] ∧ ∀ d' ∈ ds, Passes e kw d' ∧ Delivered e kw d' := by
  have hx' := Exists_kid _ _ s hg hx
  have hp' := Plain_kid _ _ s hg hp
  have hag : passedTwice (some c) s → ∃ d', again e d = .ok d' ∧ Passes e kw d' ∧ Delivered e kw d' := fun ht =>
    again_ok e hx' hp' (hp.1 [] _ s e (at_nil _) hg ht) kw d h1 h2
  unfold calls
  cases c
  case loadingRegression =>
    obtain ⟨d', hd', h⟩ := hag trivial
    simp only [hd', Except.map]
    exact ⟨_, rfl, by simp, by simpa using h⟩
  case nestedClusters =>
    by_cases hs : s = "inner_estimator"
    · obtain ⟨d', hd', h⟩ := hag hs
      simp only [hd', Except.map, if_pos hs]
      refine ⟨_, rfl, by simp, ?_⟩
      intro d'' hd''
      simp only [List.mem_cons, List.not_mem_nil, or_false] at hd''
      rcases hd'' with rfl | rfl
      · exact ⟨h1, h2⟩
      · exact h
    · simp only [if_neg hs]
      exact ⟨_, rfl, by simp, by simpa using ⟨h1, h2⟩⟩
  case stacking =>
    by_cases hs : s = "final_estimator"
    · simp only [if_pos hs]
      exact ⟨_, rfl, by simp, by simpa using ⟨h1, h2⟩⟩
    · obtain ⟨d', hd', h⟩ := hag trivial
      simp only [hd', Except.map, if_neg hs]
      refine ⟨_, rfl, by simp, ?_⟩
      intro d'' hd''
      simp only [List.mem_cons, List.not_mem_nil, or_false] at hd''
      rcases hd'' with rfl | rfl
      · exact ⟨h1, h2⟩
      · exact h
  all_goals exact ⟨_, rfl, by simp, by simpa using ⟨h1, h2⟩⟩

/-- The keywords with which a registered estimator is fitted. -/
theorem kwOf_ok (c : Cls) (req : List (String × String)) (kids : Kids) (hx : (Est.mk (some c) req kids).Exists) (hp : (Est.mk (some c) req kids).PlainNames)
    (kw d : Kw V) (hsyn : c = .syntheticData → ∀ n ∈ kidNames c kids, kw.lookup n = none) (h : Passes (.mk (some c) req kids) kw d) :
    ∃ r, processRouting c req kids d = .ok r ∧ ∀ s e, (s, e) ∈ kids.toList → ∃ d', kwOf c s r = .ok d' ∧
      (leftOut (some c) s = false → Passes e kw d' ∧ Delivered e kw d') ∧ (leftOut (some c) s = true → d' = []) := by
  by_cases hd : d = []
  · subst hd
    refine ⟨none, rfl, ?_⟩
    intro s e hm
    refine ⟨[], kwOf_none c s, ?_, fun _ => rfl⟩
    intro hl
    refine Passes_empty e kw ?_
    intro n hn
    have := h.2 n ((kidNames_iff c n kids).2 ⟨s, e, hm, (route_of_get c req kids hx s e hm).2 hl, hn⟩)
    simpa using this.symm
  have hc : c ≠ .syntheticData := by
    rintro rfl
    apply hd
    apply eq_nil_of_lookup
    intro k
    by_contra hk
    have hkm : k ∈ d.map Prod.fst := by
      by_contra hkm; exact hk ((lookup_none_iff d k).2 hkm)
    have ha := h.1 k hkm
    have hk2 : k ∈ kidNames .syntheticData kids := by simpa [allowed, selfRequest] using ha
    rw [h.2 k hk2, hsyn rfl k hk2] at hk
    exact hk rfl
  have hall : (d.all fun p => p.1 ∈ allowed c req kids) = true := by
    rw [List.all_eq_true]
    intro p hpd
    simpa using h.1 p.1 (List.mem_map.2 ⟨p, hpd, rfl⟩)
  have hrt : ∀ s e, (s, e) ∈ kids.toList → (routeName c s).isSome → ∃ d', routeTo e d = .ok d' ∧ Passes e kw d' ∧ Delivered e kw d' := by
    intro s e hm hr
    have hg := (mem_get _ _ _ hx s e).1 hm
    refine routeTo_ok e (Exists_kid _ _ s hg hx) (Plain_kid _ _ s hg hp) kw d ?_
    intro n hn
    exact h.2 n ((kidNames_iff c n kids).2 ⟨s, e, hm, hr, hn⟩)
  obtain ⟨ds, hds, -, h2⟩ := routeAll_ok c hc d kids (hx [] _ req kids rfl).1 fun s e hm hr => by
    obtain ⟨d', hd', -⟩ := hrt s e hm hr
    exact ⟨d', hd'⟩
  refine ⟨some ds, by unfold processRouting; rw [if_neg (by simpa using hd), if_pos hall, hds]; rfl, ?_⟩
  intro s e hm
  have hiff := route_of_get c req kids hx s e hm
  cases hl : leftOut (some c) s with
  | true =>
    have hr : routeName c s = none := by
      cases hr : routeName c s with
      | none => rfl
      | some n => rw [hr] at hiff; rw [hiff.1 rfl] at hl; cases hl
    refine ⟨[], ?_, by simp, fun _ => rfl⟩
    unfold kwOf
    rw [use_eq_route c hc, hr]
  | false =>
    have hr := hiff.2 hl
    obtain ⟨d', hd', hlk⟩ := h2 s e hm hr
    obtain ⟨d'', hd'', hres⟩ := hrt s e hm hr
    rw [hd''] at hd'; cases hd'
    obtain ⟨n, hn⟩ := Option.isSome_iff_exists.1 hr
    have := route_eq c hc s n hn
    subst this
    refine ⟨d', ?_, fun _ => hres, by simp⟩
    unfold kwOf lookupRouted
    rw [use_eq_route c hc, hn]
    simp only [hlk]

/-- The main induction. -/
theorem fit_ok (e : Est) : ∀ kw d : Kw V, e.Exists → e.PlainNames → e.NoSynthetic kw → Passes e kw d →
    ∃ log, fit e d = .ok log ∧ (∀ p, (∃ d', (p, d') ∈ log) ↔ (e.at? p).isSome) ∧ (∀ d', ([], d') ∈ log → d' = d) ∧
      ∀ p d' e', p ≠ [] → (p, d') ∈ log → e.at? p = some e' → (e.reached p → Delivered e' kw d') ∧ (¬ e.reached p → d' = []) := by
  refine Est.induct (fun e => ∀ kw d : Kw V, e.Exists → e.PlainNames → e.NoSynthetic kw → Passes e kw d →
    ∃ log, fit e d = .ok log ∧ (∀ p, (∃ d', (p, d') ∈ log) ↔ (e.at? p).isSome) ∧ (∀ d', ([], d') ∈ log → d' = d) ∧
      ∀ p d' e', p ≠ [] → (p, d') ∈ log → e.at? p = some e' → (e.reached p → Delivered e' kw d') ∧ (¬ e.reached p → d' = [])) ?_ e
  intro c req kids ih kw d hx hp hns h
  cases c with
  | none =>
    have hk : kids.toList = [] := (hx [] none req kids rfl).2.2.1 rfl
    refine ⟨[([], d)], rfl, ?_, by simp, ?_⟩
    · intro p
      cases p with
      | nil => simp [at_nil]
      | cons s p => rw [at_cons]; simp [Est.get?, hk]
    · intro p d' e' hpn hm
      simp only [List.mem_cons, List.not_mem_nil, or_false, Prod.mk.injEq] at hm
      exact absurd hm.1 hpn
  | some c =>
    have hsyn : c = .syntheticData → ∀ n ∈ kidNames c kids, kw.lookup n = none := by
      intro hc n hn
      exact hns [] _ (at_nil _) trivial (by rw [hc]; rfl) n ((kidNames_below c req kids hx n).1 hn)
    obtain ⟨r, hr, hkw⟩ := kwOf_ok c req kids hx hp kw d hsyn h
    have kid : ∀ s e, (s, e) ∈ kids.toList → ∃ d₁ ds, kwOf c s r = .ok d₁ ∧ calls c s e d₁ = .ok ds ∧ ds ≠ [] ∧
        ∀ d' ∈ ds, ∃ log, fit e d' = .ok log ∧ (∀ p, (∃ d', (p, d') ∈ log) ↔ (e.at? p).isSome) ∧
          ∀ p d' e', (p, d') ∈ log → e.at? p = some e' → (leftOut (some c) s = false ∧ e.reached p → Delivered e' kw d') ∧ (¬ (leftOut (some c) s = false ∧ e.reached p) → d' = []) := by
      intro s e hm
      have hg := (mem_get _ _ _ hx s e).1 hm
      have hx' := Exists_kid _ _ s hg hx
      have hp' := Plain_kid _ _ s hg hp
      obtain ⟨d₁, hd₁, hin, hout⟩ := hkw s e hm
      cases hl : leftOut (some c) s with
      | true =>
        have hd := hout hl
        subst hd
        obtain ⟨ds, hds, hne, hall⟩ := calls_empty (V := V) c s e
        refine ⟨[], ds, hd₁, hds, hne, ?_⟩
        intro d' hd'
        rw [hall d' hd']
        obtain ⟨log, hlog, hcov, hem⟩ := fit_empty (V := V) e hx'
        refine ⟨log, hlog, hcov, ?_⟩
        intro p d'' e' hmem _
        exact ⟨by simp, fun _ => hem p d'' hmem⟩
      | false =>
        obtain ⟨h1, h2⟩ := hin hl
        obtain ⟨ds, hds, hne, hall⟩ := calls_ok c req kids s e hg hx hp kw d₁ h1 h2
        refine ⟨d₁, ds, hd₁, hds, hne, ?_⟩
        intro d' hd'
        obtain ⟨hpa, hde⟩ := hall d' hd'
        obtain ⟨log, hlog, hcov, hroot, hbel⟩ := ih s e hm kw d' hx' hp' (NoSynthetic_kid _ _ kw s hg hl hns) hpa
        refine ⟨log, hlog, hcov, ?_⟩
        intro p d'' e' hmem hat
        simp only [true_and]
        by_cases hpn : p = []
        · subst hpn
          rw [at_nil] at hat; cases hat
          rw [hroot d'' hmem]
          refine ⟨fun _ => hde, fun hh => absurd ?_ hh⟩
          cases e; trivial
        · exact hbel p d'' e' hpn hmem hat
    obtain ⟨log, hlog, hmem⟩ := fitKids_ok c r kids fun s e hm => by
      obtain ⟨d₁, ds, h1, h2, -, h3⟩ := kid s e hm
      refine ⟨d₁, ds, h1, h2, ?_⟩
      intro d' hd'
      obtain ⟨l, hl, -⟩ := h3 d' hd'
      exact ⟨l, hl⟩
    refine ⟨([], d) :: log, by simp only [fit, hr, hlog], ?_, ?_, ?_⟩
    · intro p
      cases p with
      | nil => simp [at_nil]
      | cons s p =>
        constructor
        · rintro ⟨d', hd⟩
          simp only [List.mem_cons, Prod.mk.injEq, reduceCtorEq, false_and, false_or] at hd
          obtain ⟨s', e, p', hpp, hm, d₁, ds, dx, l, h1, h2, h3, h4, h5⟩ := (hmem _ _).1 hd
          cases hpp
          have hg := (mem_get _ _ _ hx s e).1 hm
          rw [at_cons_of _ _ s hg]
          obtain ⟨d₂, ds₂, k1, k2, -, k3⟩ := kid s e hm
          rw [h1] at k1; cases k1
          rw [h2] at k2; cases k2
          obtain ⟨l', hl', hc, -⟩ := k3 dx h3
          rw [h4] at hl'; cases hl'
          exact (hc p).1 ⟨d', h5⟩
        · intro hs
          cases hg : (Est.mk (some c) req kids).get? s with
          | none => rw [at_cons, hg] at hs; cases hs
          | some e =>
            rw [at_cons_of _ _ s hg] at hs
            have hm := (mem_get _ _ _ hx s e).2 hg
            obtain ⟨d₂, ds₂, k1, k2, hne, k3⟩ := kid s e hm
            obtain ⟨dx, hdx⟩ := List.exists_mem_of_ne_nil _ hne
            obtain ⟨l', hl', hc, -⟩ := k3 dx hdx
            obtain ⟨d', hd'⟩ := (hc p).2 hs
            exact ⟨d', List.mem_cons_of_mem _ ((hmem _ _).2 ⟨s, e, p, rfl, hm, d₂, ds₂, dx, l', k1, k2, hdx, hl', hd'⟩)⟩
    · intro d' hd'
      rcases List.mem_cons.1 hd' with h | h
      · cases h; rfl
      · obtain ⟨s, e, p', hpp, -⟩ := (hmem _ _).1 h
        cases hpp
    · intro p d' e' hpn hd' hat
      rcases List.mem_cons.1 hd' with h | h
      · cases h; exact absurd rfl hpn
      · obtain ⟨s, e, p', rfl, hm, d₁, ds, dx, l, h1, h2, h3, h4, h5⟩ := (hmem _ _).1 h
        have hg := (mem_get _ _ _ hx s e).1 hm
        rw [at_cons_of _ _ s hg] at hat
        rw [reached_cons _ _ s hg]
        obtain ⟨d₂, ds₂, k1, k2, -, k3⟩ := kid s e hm
        rw [h1] at k1; cases k1
        rw [h2] at k2; cases k2
        obtain ⟨l', hl', -, hres⟩ := k3 dx h3
        rw [h4] at hl'; cases hl'
        exact hres p' d' e' h5 hat

end Skfolio.Routing
