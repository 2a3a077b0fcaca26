import Verif.Routing.FitOk

set_option autoImplicit false

namespace Skfolio.Routing

variable {V : Type} [DecidableEq V]

/-- **C91.** Each nested estimator gets what it has asked for. If every keyword passed to `fit` is asked for by some nested estimator that is reached (or is the keyword of the estimator itself), then `fit` succeeds, all the nested estimators and only they are fitted, and every call of a nested `fit` gets exactly the keywords its estimator has asked for, with the values passed; the four kinds of sub-estimator left out get none. What is missing from the claim: the sub-estimators left out, `SyntheticData`, and names that clash. -/
theorem C91_delivered_partial (t : Est) (kw : Kw V) (hc : t.cls ≠ none) (hx : t.Exists) (hp : t.PlainNames) (hs : t.NoSynthetic kw)
    (hk : ∀ k ∈ kw.map Prod.fst, t.WantsBelow k ∨ k ∈ t.asksFor.map Prod.fst) :
    ∃ log, fit t kw = .ok log ∧ (∀ p, (∃ d, (p, d) ∈ log) ↔ (t.at? p).isSome) ∧
      ∀ p d e, p ≠ [] → (p, d) ∈ log → t.at? p = some e → (t.reached p → Delivered e kw d) ∧ (¬ t.reached p → d = []) := by
  obtain ⟨c, req, kids⟩ := t
  cases c with
  | none => exact absurd rfl hc
  | some c =>
    have hpass : Passes (.mk (some c) req kids) kw kw := by
      refine ⟨?_, fun _ _ => rfl⟩
      intro k hkm
      rw [allowed, List.mem_append]
      rcases hk k hkm with h | h
      · exact .inr ((kidNames_below c req kids hx k).2 h)
      · left
        rw [← asks_self] at h
        split_ifs at h ⊢ <;> simpa using h
    obtain ⟨log, h1, h2, -, h4⟩ := fit_ok _ kw kw hx hp hs hpass
    exact ⟨log, h1, h2, h4⟩

/-- **C91.** A keyword that no nested estimator reached has asked for is refused: in particular one that only a sub-estimator left out has asked for. -/
theorem C91_unasked (t : Est) (kw : Kw V) (hc : t.cls ≠ none) (hx : t.Exists) (k : String) (hk : k ∈ kw.map Prod.fst) (hw : ¬ t.WantsBelow k)
    (ho : k ∉ t.asksFor.map Prod.fst) : fit t kw = .error .unexpected := by
  obtain ⟨c, req, kids⟩ := t
  cases c with
  | none => exact absurd rfl hc
  | some c =>
    have hna : k ∉ allowed c req kids := by
      rw [allowed, List.mem_append]
      rintro (h | h)
      · apply ho
        rw [← asks_self]
        split_ifs at h ⊢ <;> simpa using h
      · exact hw ((kidNames_below c req kids hx k).1 h)
    have hne : kw.isEmpty = false := by
      cases kw with
      | nil => simp at hk
      | cons a l => rfl
    have hall : (kw.all fun p => p.1 ∈ allowed c req kids) = false := by
      by_contra hcon
      rw [Bool.not_eq_false, List.all_eq_true] at hcon
      obtain ⟨p, hp, rfl⟩ := List.mem_map.1 hk
      exact hna (by simpa using hcon p hp)
    simp only [fit, processRouting, hne, hall]
    rfl

theorem key_routeTo (e : Est) (d d' : Kw V) (h : routeTo e d = .ok d') (n : String) (hk : n ∈ d.map Prod.fst) (c : Cls) (req : List (String × String)) (kids : Kids)
    (he : e = .mk (some c) req kids) (hn : n ∈ kidNames c kids) : n ∈ d'.map Prod.fst := by
  subst he
  simp only [routeTo] at h
  split_ifs at h
  all_goals
    cases h
    rw [List.map_append, List.mem_append]
    right
    by_contra hc
    have := (lookup_none_iff _ _).2 hc
    rw [lookup_childParams, if_pos hn, lookup_none_iff] at this
    exact this hk

theorem routeAll_inv (c : Cls) (kw : Kw V) : (kids : Kids) → ∀ ds, routeAll c kw kids = .ok ds → (kids.toList.map Prod.fst).Nodup → c ≠ .syntheticData →
    ∀ s e, (s, e) ∈ kids.toList → (routeName c s).isSome → ∃ d, ds.lookup s = some d ∧ routeTo e kw = .ok d
  | .nil, _, _, _, _ => fun s e hm => by simp [Kids.toList] at hm
  | .cons s e rest, ds, h, hn, hc => by
    simp only [Kids.toList, List.map_cons, List.nodup_cons] at hn
    intro s' e' hm hr
    simp only [Kids.toList, List.mem_cons, Prod.mk.injEq] at hm
    cases hrs : routeName c s with
    | none =>
      simp only [routeAll, hrs] at h
      rcases hm with ⟨rfl, rfl⟩ | hm
      · rw [hrs] at hr; cases hr
      · exact routeAll_inv c kw rest ds h hn.2 hc s' e' hm hr
    | some n =>
      have := route_eq c hc s n hrs
      subst this
      simp only [routeAll, hrs] at h
      cases h1 : routeTo e kw with
      | error x => simp [h1] at h
      | ok d =>
        cases h2 : routeAll c kw rest with
        | error x => simp [h1, h2] at h
        | ok ds' =>
          simp only [h1, h2, Except.ok.injEq] at h
          subst h
          rcases hm with ⟨rfl, rfl⟩ | hm
          · exact ⟨d, by simp, h1⟩
          · obtain ⟨d', hd', hr'⟩ := routeAll_inv c kw rest ds' h2 hn.2 hc s' e' hm hr
            have hne : s' ≠ n := fun hx => hn.1 (List.mem_map.2 ⟨_, hm, hx⟩)
            have hb : (s' == n) = false := by simpa using hne
            exact ⟨d', by simp only [List.lookup_cons, hb]; exact hd', hr'⟩

theorem routeAll_synthetic (kw : Kw V) : (kids : Kids) → ∀ ds, routeAll .syntheticData kw kids = .ok ds → ds.lookup "distribution_estimator" = none
  | .nil, ds, h => by simp only [routeAll, Except.ok.injEq] at h; subst h; rfl
  | .cons s e rest, ds, h => by
    simp only [routeAll, routeName] at h
    by_cases hs : s = "distribution_estimator"
    · simp only [hs, if_true] at h
      cases h1 : routeTo e kw with
      | error x => simp [h1] at h
      | ok d =>
        cases h2 : routeAll .syntheticData kw rest with
        | error x => simp [h1, h2] at h
        | ok ds' =>
          simp only [h1, h2, Except.ok.injEq] at h
          subst h
          simp only [List.lookup_cons, show (("distribution_estimator" : String) == "distance_estimator") = false from by decide]
          exact routeAll_synthetic kw rest ds' h2
    · simp only [if_neg hs] at h
      exact routeAll_synthetic kw rest ds h

theorem fitKids_inv (c : Cls) (r : Option (List (String × Kw V))) : (kids : Kids) → ∀ log, fitKids c r kids = .ok log →
    ∀ s e, (s, e) ∈ kids.toList → ∃ d ds, kwOf c s r = .ok d ∧ calls c s e d = .ok ds ∧ ∀ d' ∈ ds, ∃ l, fit e d' = .ok l
  | .nil, _, _ => fun s e hm => by simp [Kids.toList] at hm
  | .cons s e rest, log, h => by
    intro s' e' hm
    simp only [fitKids] at h
    cases h1 : kwOf c s r with
    | error x => simp [h1] at h
    | ok d =>
      simp only [h1] at h
      cases h2 : calls c s e d with
      | error x => simp [h2] at h
      | ok ds =>
        simp only [h2] at h
        cases h3 : sequence (fit e) ds with
        | error x => simp [h3] at h
        | ok l =>
          simp only [h3] at h
          cases h4 : fitKids c r rest with
          | error x => simp [h4] at h
          | ok logs =>
            simp only [Kids.toList, List.mem_cons, Prod.mk.injEq] at hm
            rcases hm with ⟨rfl, rfl⟩ | hm
            · exact ⟨d, ds, h1, h2, sequence_inv _ _ _ h3⟩
            · exact fitKids_inv c r rest logs h4 s' e' hm

theorem calls_key (c : Cls) (s : String) (e : Est) (d : Kw V) (ds : List (Kw V)) (h : calls c s e d = .ok ds) (n : String) (hk : n ∈ d.map Prod.fst)
    (c' : Cls) (req : List (String × String)) (kids : Kids) (he : e = .mk (some c') req kids) (hn : n ∈ kidNames c' kids) : ∃ d' ∈ ds, n ∈ d'.map Prod.fst := by
  have hag : ∀ d', again e d = .ok d' → n ∈ d'.map Prod.fst := by
    intro d' h'
    unfold again at h'
    split_ifs at h' with h1 h2
    · rw [List.isEmpty_iff] at h1; subst h1; simp at hk
    · exact key_routeTo e d d' h' n hk c' req kids he hn
  unfold calls at h
  cases c
  case loadingRegression =>
    cases ha : again e d with
    | error x => simp [ha, Except.map] at h
    | ok d' => simp only [ha, Except.map, Except.ok.injEq] at h; subst h; exact ⟨d', by simp, hag d' ha⟩
  case nestedClusters =>
    simp only at h
    split_ifs at h
    · cases ha : again e d with
      | error x => simp [ha, Except.map] at h
      | ok d' => simp only [ha, Except.map, Except.ok.injEq] at h; subst h; exact ⟨d, by simp, hk⟩
    · cases h; exact ⟨d, by simp, hk⟩
  case stacking =>
    simp only at h
    split_ifs at h
    · cases h; exact ⟨d, by simp, hk⟩
    · cases ha : again e d with
      | error x => simp [ha, Except.map] at h
      | ok d' => simp only [ha, Except.map, Except.ok.injEq] at h; subst h; exact ⟨d, by simp, hk⟩
  all_goals (cases h; exact ⟨d, by simp, hk⟩)

theorem Wants_of_below (e : Est) (n : String) (hw : e.WantsBelow n) (p : List String) : ∀ a : Est, a.at? p = some e → a.reached p → a.Wants n := by
  induction p with
  | nil =>
    intro a ha _
    rw [at_nil] at ha
    cases ha
    exact (Wants_iff _ n).2 (.inr hw)
  | cons q p ihp =>
    intro a ha hr
    cases hq : a.get? q with
    | none => rw [at_cons, hq] at ha; cases ha
    | some b =>
      rw [at_cons_of _ _ q hq] at ha
      rw [reached_cons _ _ q hq] at hr
      exact (Wants_iff a n).2 (.inr ⟨q, b, hq, hr.1, ihp b ha hr.2⟩)

/-- **C91.** `SyntheticData` registers its distribution estimator under the name `distance_estimator` and then looks for `distribution_estimator`: wherever it is nested, `fit` fails as soon as its distribution estimator, or something nested in it, has asked for one of the keywords passed. -/
theorem C91_synthetic_fails (p : List String) : ∀ (t : Est) (kw : Kw V) (e : Est) (n : String), t.Exists → t.at? p = some e → t.reached p → e.cls = some .syntheticData →
    e.WantsBelow n → n ∈ kw.map Prod.fst → ∀ log, fit t kw ≠ .ok log := by
  induction p with
  | nil =>
    intro t kw e n hx hat _ hc hw hk log hf
    rw [at_nil] at hat; cases hat
    obtain ⟨c, req, kids⟩ := t
    simp only [Est.cls] at hc
    subst hc
    simp only [fit, processRouting] at hf
    have hne : kw.isEmpty = false := by
      cases kw with
      | nil => simp at hk
      | cons a l => rfl
    rw [hne] at hf
    simp only [Bool.false_eq_true, if_false] at hf
    split_ifs at hf
    · cases hr : routeAll .syntheticData kw kids with
      | error x => simp [hr, Except.map] at hf
      | ok ds =>
        simp only [hr, Except.map] at hf
        obtain ⟨s, e', hg, -⟩ := hw
        have hm := (mem_get _ _ _ hx s e').2 hg
        have hs : s = "distribution_estimator" := by
          have := (hx [] _ req kids rfl).2.2.2 _ rfl _ rfl s (List.mem_map.2 ⟨_, hm, rfl⟩)
          simpa using this
        cases hfk : fitKids .syntheticData (some ds) kids with
        | error x => simp [hfk] at hf
        | ok l =>
          obtain ⟨d, -, hd, -⟩ := fitKids_inv _ _ kids l hfk s e' hm
          rw [hs] at hd
          simp only [kwOf, useName, lookupRouted, if_true, routeAll_synthetic kw kids ds hr] at hd
          cases hd
  | cons s p ih =>
    intro t kw e n hx hat hre hc hw hk log hf
    obtain ⟨c, req, kids⟩ := t
    cases hg : (Est.mk c req kids).get? s with
    | none => rw [at_cons, hg] at hat; cases hat
    | some e' =>
      rw [at_cons_of _ _ s hg] at hat
      rw [reached_cons _ _ s hg] at hre
      have hm := (mem_get _ _ _ hx s e').2 hg
      have hx' := Exists_kid _ _ s hg hx
      have hwe' : e'.Wants n := by
        exact Wants_of_below e n hw p e' hat hre.2
      cases c with
      | none =>
        have := (hx [] none req kids rfl).2.2.1 rfl
        rw [this] at hm; simp at hm
      | some c =>
        have hro := (route_of_get c req kids hx s e' hm).2 hre.1
        have hne : kw.isEmpty = false := by
          cases kw with
          | nil => simp at hk
          | cons a l => rfl
        by_cases hcs : c = .syntheticData
        · subst hcs
          simp only [fit, processRouting, hne, Bool.false_eq_true, if_false] at hf
          split_ifs at hf
          · cases hr : routeAll .syntheticData kw kids with
            | error x => simp [hr, Except.map] at hf
            | ok ds =>
              simp only [hr, Except.map] at hf
              have hs : s = "distribution_estimator" := by
                have := (hx [] _ req kids rfl).2.2.2 _ rfl _ rfl s (List.mem_map.2 ⟨_, hm, rfl⟩)
                simpa using this
              cases hfk : fitKids .syntheticData (some ds) kids with
              | error x => simp [hfk] at hf
              | ok l =>
                obtain ⟨d, -, hd, -⟩ := fitKids_inv _ _ kids l hfk s e' hm
                rw [hs] at hd
                simp only [kwOf, useName, lookupRouted, if_true, routeAll_synthetic kw kids ds hr] at hd
                cases hd
        simp only [fit, processRouting, hne, Bool.false_eq_true, if_false] at hf
        split_ifs at hf
        · cases hr : routeAll c kw kids with
          | error x => simp [hr, Except.map] at hf
          | ok ds =>
            simp only [hr, Except.map] at hf
            cases hfk : fitKids c (some ds) kids with
            | error x => simp [hfk] at hf
            | ok l =>
              obtain ⟨d, dsx, hd, hcal, hfit⟩ := fitKids_inv _ _ kids l hfk s e' hm
              obtain ⟨d₀, hl₀, hr₀⟩ := routeAll_inv c kw kids ds hr (hx [] _ req kids rfl).1 hcs s e' hm hro
              obtain ⟨m, hmn⟩ := Option.isSome_iff_exists.1 hro
              have := route_eq c hcs s m hmn
              subst this
              have hdd : d = d₀ := by
                simp only [kwOf, use_eq_route c hcs, hmn, lookupRouted, hl₀, Except.ok.injEq] at hd
                exact hd.symm
              subst hdd
              have hcls : ∃ c' req' kids', e' = .mk (some c') req' kids' ∧ n ∈ kidNames c' kids' := by
                obtain ⟨ce, re, ke⟩ := e'
                cases ce with
                | none =>
                  exfalso
                  have hke := (hx' [] none re ke rfl).2.2.1 rfl
                  cases p with
                  | nil => rw [at_nil] at hat; cases hat; cases hc
                  | cons q p => rw [at_cons] at hat; simp [Est.get?, hke] at hat
                | some ce =>
                  refine ⟨ce, re, ke, rfl, ?_⟩
                  rw [kidNames_below ce re ke hx']
                  cases p with
                  | nil => rw [at_nil] at hat; cases hat; exact hw
                  | cons q p =>
                    cases hq : (Est.mk (some ce) re ke).get? q with
                    | none => rw [at_cons, hq] at hat; cases hat
                    | some b =>
                      rw [at_cons_of _ _ q hq] at hat
                      rw [reached_cons _ _ q hq] at hre
                      refine ⟨q, b, hq, hre.2.1, ?_⟩
                      exact Wants_of_below e n hw p b hat hre.2.2
              obtain ⟨c', req', kids', he', hn'⟩ := hcls
              have hkd : n ∈ d.map Prod.fst := key_routeTo e' kw d hr₀ n hk c' req' kids' he' hn'
              obtain ⟨d', hd', hkd'⟩ := calls_key c m e' d dsx hcal n hkd c' req' kids' he' hn'
              obtain ⟨l', hl'⟩ := hfit d' hd'
              exact ih e' d' e n hx' hat hre.2 hc hw hkd' l' hl'

end Skfolio.Routing
