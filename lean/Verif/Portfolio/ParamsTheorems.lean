import Verif.Portfolio.ParamsModel
import Verif.Portfolio.CacheTheorems
import Mathlib.Tactic.ByContra
import Mathlib.Logic.Basic
import Batteries.Tactic.Init

/-!
Claim C88: `Population.set_portfolio_params` sets the parameters of all portfolios.
-/

set_option autoImplicit false

namespace Skfolio.Portfolio

variable {V : Type}

/-! ### specification -/

/-- The name of a keyword argument. -/
inductive Key | param (p : Param) | fitness | unknown (key : String)

def Setting.key : Setting V → Key
  | .param p _ => .param p
  | .fitness _ => .fitness
  | .unknown k => .unknown k

/-- An argument every portfolio accepts: a parameter other than the returns and the observations, or a non-empty list of fitness measures. -/
def Setting.Settable : Setting V → Prop
  | .param p _ => p ≠ .returns ∧ p ≠ .observations
  | .fitness l => l ≠ []
  | .unknown _ => False

/-- `s'` is `s` with the settings. -/
structure Updated (settings : List (Setting V)) (s s' : State V) : Prop where
  set : ∀ p v, .param p v ∈ settings → s'.params p = v
  fit : ∀ l, .fitness l ∈ settings → s'.fitnessMeasures = l
  params : ∀ p, (∀ v, .param p v ∉ settings) → s'.params p = s.params p
  fitness : (∀ l, .fitness l ∉ settings) → s'.fitnessMeasures = s.fitnessMeasures

/-! ### one portfolio -/

theorem assign_ok (s : State V) (x : Setting V) (hx : x.Settable) :
    ∃ s1, assign s x = .ok s1 ∧ Updated [x] s s1 := by
  cases x with
  | unknown k => exact absurd hx (by simp [Setting.Settable])
  | fitness l =>
    refine ⟨{ s with fitnessMeasures := l }.del .fitness, by simp only [assign, setFitnessMeasures]; rw [if_neg hx], ⟨?_, ?_, ?_, ?_⟩⟩
    · intro p v h; simp at h
    · intro l' h; simp only [List.mem_singleton, Setting.fitness.injEq] at h; exact h.symm
    · intro p _; rfl
    · intro h; exact absurd (List.mem_singleton.2 rfl) (h l)
  | param p v =>
    have h := C25_assignment_takes_effect s p v
    rw [if_neg fun e => e.elim hx.1 hx.2] at h
    obtain ⟨s1, h1, h2, h3, h4⟩ := h
    refine ⟨s1, h1, ⟨?_, ?_, ?_, ?_⟩⟩
    · intro q w h
      simp only [List.mem_singleton, Setting.param.injEq] at h
      rw [h.1, h.2]; exact h2
    · intro l h; simp at h
    · intro q hq
      refine h3 q fun e => ?_
      subst e
      exact hq v (List.mem_singleton.2 rfl)
    · intro _; exact h4

theorem assign_error (s : State V) (x : Setting V) (hx : ¬ x.Settable) : ∃ e, assign s x = .error e := by
  cases x with
  | unknown k => exact ⟨_, rfl⟩
  | fitness l =>
    have : l = [] := not_not.1 hx
    exact ⟨_, by simp only [assign, setFitnessMeasures]; rw [if_pos this]⟩
  | param p v =>
    have h : p = .returns ∨ p = .observations := by
      by_contra hc
      exact hx ⟨fun e => hc (Or.inl e), fun e => hc (Or.inr e)⟩
    have := C25_assignment_takes_effect s p v
    rw [if_pos h] at this
    exact ⟨_, this⟩

theorem assignAll_ok : ∀ (settings : List (Setting V)) (s : State V), (∀ x ∈ settings, x.Settable) → (settings.map Setting.key).Nodup →
    ∃ s', assignAll s settings = (s', none) ∧ Updated settings s s' := by
  intro settings
  induction settings with
  | nil =>
    intro s _ _
    exact ⟨s, rfl, ⟨fun p v h => by simp at h, fun l h => by simp at h, fun _ _ => rfl, fun _ => rfl⟩⟩
  | cons x xs ih =>
    intro s hx hn
    obtain ⟨s1, h1, u1⟩ := assign_ok s x (hx x List.mem_cons_self)
    rw [List.map_cons, List.nodup_cons] at hn
    obtain ⟨s', h2, u2⟩ := ih s1 (fun y hy => hx y (List.mem_cons_of_mem _ hy)) hn.2
    refine ⟨s', by simp only [assignAll, h1]; exact h2, ⟨?_, ?_, ?_, ?_⟩⟩
    · intro p v h
      rcases List.mem_cons.1 h with e | h
      · rw [u2.params p fun w hw => hn.1 (by rw [← e]; exact List.mem_map.2 ⟨_, hw, rfl⟩)]
        exact u1.set p v (by rw [e]; exact List.mem_singleton.2 rfl)
      · exact u2.set p v h
    · intro l h
      rcases List.mem_cons.1 h with e | h
      · rw [u2.fitness fun w hw => hn.1 (by rw [← e]; exact List.mem_map.2 ⟨_, hw, rfl⟩)]
        exact u1.fit l (by rw [e]; exact List.mem_singleton.2 rfl)
      · exact u2.fit l h
    · intro p h
      rw [u2.params p fun v hv => h v (List.mem_cons_of_mem _ hv)]
      exact u1.params p fun v hv => h v (by rw [List.mem_singleton.1 hv]; exact List.mem_cons_self)
    · intro h
      rw [u2.fitness fun v hv => h v (List.mem_cons_of_mem _ hv)]
      exact u1.fitness fun v hv => h v (by rw [List.mem_singleton.1 hv]; exact List.mem_cons_self)

theorem assignAll_error : ∀ (settings : List (Setting V)) (s : State V), (∃ x ∈ settings, ¬ x.Settable) → ∃ s' e, assignAll s settings = (s', some e) := by
  intro settings
  induction settings with
  | nil => rintro s ⟨x, hx, _⟩; simp at hx
  | cons x xs ih =>
    intro s h
    cases ha : assign s x with
    | error e => exact ⟨s, e, by simp only [assignAll, ha]⟩
    | ok s1 =>
      obtain ⟨y, hy, hn⟩ := h
      rcases List.mem_cons.1 hy with rfl | hy
      · obtain ⟨e, he⟩ := assign_error s y hn
        rw [he] at ha; cases ha
      · obtain ⟨s', e, h'⟩ := ih s1 ⟨y, hy, hn⟩
        exact ⟨s', e, by simp only [assignAll, ha]; exact h'⟩

/-! ### all portfolios -/

theorem Updated.trans {settings : List (Setting V)} {s s1 s2 : State V} (h1 : Updated settings s s1) (h2 : Updated settings s1 s2) : Updated settings s s2 :=
  ⟨h2.set, h2.fit, fun p h => (h2.params p h).trans (h1.params p h), fun h => (h2.fitness h).trans (h1.fitness h)⟩

theorem assignLoop_ok (settings : List (Setting V)) (hs : ∀ x ∈ settings, x.Settable) (hn : (settings.map Setting.key).Nodup) :
    ∀ (population : List Nat) (heap : List (State V)), ∃ heap', assignLoop settings heap population = (heap', none) ∧
      (∀ i ∉ population, heap'[i]? = heap[i]?) ∧
      ∀ i ∈ population, ∀ s, heap[i]? = some s → ∃ s', heap'[i]? = some s' ∧ Updated settings s s' := by
  intro population
  induction population with
  | nil => exact fun heap => ⟨heap, rfl, fun _ _ => rfl, fun i hi => by simp at hi⟩
  | cons j rest ih =>
    intro heap
    cases hj : heap[j]? with
    | none =>
      obtain ⟨heap', h1, h2, h3⟩ := ih heap
      refine ⟨heap', by simp only [assignLoop, hj]; exact h1, fun i hi => h2 i fun h => hi (List.mem_cons_of_mem _ h), fun i hi s hs => ?_⟩
      rcases List.mem_cons.1 hi with rfl | hi
      · rw [hj] at hs; cases hs
      · exact h3 i hi s hs
    | some t =>
      obtain ⟨t', ht, ut⟩ := assignAll_ok settings t hs hn
      obtain ⟨heap', h1, h2, h3⟩ := ih (heap.set j t')
      have hlt : j < heap.length := (List.getElem?_eq_some_iff.1 hj).1
      have hset : ∀ i, (heap.set j t')[i]? = if j = i then some t' else heap[i]? := by
        intro i
        rw [List.getElem?_set]
        by_cases e : j = i
        · rw [if_pos e, if_pos e, if_pos (e ▸ hlt)]
        · rw [if_neg e, if_neg e]
      refine ⟨heap', by simp only [assignLoop, hj, ht]; exact h1, fun i hi => ?_, fun i hi s hs => ?_⟩
      · rw [h2 i fun h => hi (List.mem_cons_of_mem _ h), hset, if_neg fun e => hi (by rw [e]; exact List.mem_cons_self)]
      · by_cases hir : i ∈ rest
        · by_cases e : j = i
          · subst e
            rw [hj] at hs; cases hs
            obtain ⟨s', h4, u⟩ := h3 j hir t' (by rw [hset, if_pos rfl])
            exact ⟨s', h4, ut.trans u⟩
          · exact h3 i hir s (by rw [hset, if_neg e]; exact hs)
        · rcases List.mem_cons.1 hi with rfl | hi
          · rw [hj] at hs; cases hs
            exact ⟨t', by rw [h2 i hir, hset, if_pos rfl], ut⟩
          · exact absurd hi hir

/-- **C88.** With parameters of a portfolio other than the returns and the observations, every portfolio of the population has the new values and keeps its other parameters, and no
other portfolio changes. -/
theorem C88_sets_parameters (heap : List (State V)) (population : List Nat) (settings : List (Setting V)) (hs : ∀ x ∈ settings, x.Settable)
    (hn : (settings.map Setting.key).Nodup) :
    let r := setPortfolioParams heap population settings
    (r.2 = .self ∨ r.2 = .none) ∧ (∀ i ∉ population, r.1[i]? = heap[i]?) ∧
    ∀ i ∈ population, ∀ s, heap[i]? = some s → ∃ s', r.1[i]? = some s' ∧ Updated settings s s' := by
  intro r
  by_cases h0 : settings.isEmpty
  · have hr : r = (heap, .self) := by simp only [r, setPortfolioParams]; rw [if_pos h0]
    rw [hr]
    have : settings = [] := List.isEmpty_iff.1 h0
    subst this
    exact ⟨Or.inl rfl, fun _ _ => rfl, fun i _ s h => ⟨s, h, ⟨fun p v h => by simp at h, fun l h => by simp at h, fun _ _ => rfl, fun _ => rfl⟩⟩⟩
  · have hu : ¬ settings.any Setting.isUnknown := by
      intro h
      obtain ⟨x, hx, hk⟩ := List.any_eq_true.1 h
      have := hs x hx
      cases x <;> simp_all [Setting.isUnknown, Setting.Settable]
    obtain ⟨heap', h1, h2, h3⟩ := assignLoop_ok settings hs hn population heap
    have hr : r = (heap', .none) := by simp only [r, setPortfolioParams]; rw [if_neg h0, if_neg hu, h1]
    rw [hr]
    exact ⟨Or.inr rfl, h2, h3⟩

theorem fresh_assign {L : Lib V} {s s1 : State V} (h : Fresh L s) (x : Setting V) (ha : assign s x = .ok s1) : Fresh L s1 := by
  cases x with
  | unknown k => cases ha
  | param p v =>
    have := fresh_stepOne h (.set 0 p v) trivial
    simp only [assign] at ha
    simpa only [stepOne, ha] using this
  | fitness l =>
    have := fresh_stepOne h (.setFitnessMeasures 0 l) trivial
    simp only [assign] at ha
    simpa only [stepOne, ha] using this

theorem fresh_assignAll {L : Lib V} : ∀ (settings : List (Setting V)) (s : State V), Fresh L s → Fresh L (assignAll s settings).1 := by
  intro settings
  induction settings with
  | nil => exact fun s h => h
  | cons x xs ih =>
    intro s h
    unfold assignAll
    cases ha : assign s x with
    | error e => exact h
    | ok s1 => exact ih s1 (fresh_assign h x ha)

theorem fresh_assignLoop {L : Lib V} (settings : List (Setting V)) : ∀ (population : List Nat) (heap : List (State V)), (∀ s ∈ heap, Fresh L s) →
    ∀ s ∈ (assignLoop settings heap population).1, Fresh L s := by
  intro population
  induction population with
  | nil => exact fun heap h => h
  | cons j rest ih =>
    intro heap h
    unfold assignLoop
    cases hj : heap[j]? with
    | none => exact ih heap h
    | some t =>
      have ht := fresh_assignAll (L := L) settings t (h t (List.mem_of_getElem? hj))
      have hset : ∀ s ∈ heap.set j (assignAll t settings).1, Fresh L s := by
        intro s hs
        rcases List.mem_or_eq_of_mem_set hs with hs | rfl
        · exact h s hs
        · exact ht
      cases ha : assignAll t settings with
      | mk t' o =>
        rw [ha] at hset
        simp only [ha]
        cases o with
        | none => exact ih _ hset
        | some e => exact hset

/-- **C88.** Whatever the outcome, no measure is stale afterwards: every measure of every portfolio is computed from its parameters after the call. -/
theorem C88_never_stale (L : Lib V) (heap : List (State V)) (population : List Nat) (settings : List (Setting V)) (hf : ∀ s ∈ heap, Fresh L s) :
    ∀ s ∈ (setPortfolioParams heap population settings).1, ∀ m, ∃ s', readMeasure L s m = .ok (value L s.params m, s') := by
  have : ∀ s ∈ (setPortfolioParams heap population settings).1, Fresh L s := by
    unfold setPortfolioParams
    by_cases h0 : settings.isEmpty
    · rw [if_pos h0]; exact hf
    · rw [if_neg h0]
      by_cases hu : settings.any Setting.isUnknown
      · rw [if_pos hu]; exact hf
      · rw [if_neg hu]
        have h := fresh_assignLoop (L := L) settings population heap hf
        cases hl : assignLoop settings heap population with
        | mk heap' o =>
          rw [hl] at h
          cases o with
          | none => exact h
          | some e => exact h
  exact fun s hs m => (readMeasure_spec (this s hs) m).imp fun _ h => h.1

/-- **C88.** An invalid name raises a `ValueError` and leaves every portfolio as it is. -/
theorem C88_invalid_name (heap : List (State V)) (population : List Nat) (settings : List (Setting V)) :
    ((∃ k, .unknown k ∈ settings) → setPortfolioParams heap population settings = (heap, .invalidName)) ∧
    ((setPortfolioParams heap population settings).2 = .invalidName → ∃ k, .unknown k ∈ settings) := by
  have hu : settings.any Setting.isUnknown = true ↔ ∃ k, .unknown k ∈ settings := by
    rw [List.any_eq_true]
    constructor
    · rintro ⟨x, hx, hk⟩
      cases x with
      | unknown k => exact ⟨k, hx⟩
      | param p v => cases hk
      | fitness l => cases hk
    · rintro ⟨k, hk⟩; exact ⟨_, hk, rfl⟩
  unfold setPortfolioParams
  constructor
  · intro h
    have hne : ¬ settings.isEmpty := by
      obtain ⟨k, hk⟩ := h
      intro h0
      rw [List.isEmpty_iff.1 h0] at hk
      simp at hk
    rw [if_neg hne, if_pos (hu.2 h)]
  · intro h
    by_cases h0 : settings.isEmpty
    · rw [if_pos h0] at h; cases h
    · rw [if_neg h0] at h
      by_cases h1 : settings.any Setting.isUnknown
      · exact hu.1 h1
      · rw [if_neg h1] at h
        revert h
        cases assignLoop settings heap population with
        | mk heap' o => cases o <;> simp

/-- **C88** (negated). The population itself is returned exactly if there is no parameter to set; otherwise the call gives `None` or raises. -/
theorem C88_returns_self_iff (heap : List (State V)) (population : List Nat) (settings : List (Setting V)) :
    (setPortfolioParams heap population settings).2 = .self ↔ settings = [] := by
  unfold setPortfolioParams
  by_cases h0 : settings.isEmpty
  · rw [if_pos h0]; exact ⟨fun _ => List.isEmpty_iff.1 h0, fun _ => rfl⟩
  · rw [if_neg h0]
    refine ⟨fun h => ?_, fun h => absurd (List.isEmpty_iff.2 h) h0⟩
    by_cases h1 : settings.any Setting.isUnknown
    · rw [if_pos h1] at h; cases h
    · rw [if_neg h1] at h
      revert h
      cases assignLoop settings heap population with
      | mk heap' o => cases o <;> simp

/-- **C88.** With valid names only, the call raises exactly if the population has a portfolio and one of the names is `returns` or `observations` or the list of fitness measures is
empty. -/
theorem C88_raises_iff (heap : List (State V)) (population : List Nat) (hp : ∀ i ∈ population, i < heap.length) (settings : List (Setting V))
    (hk : ∀ k, .unknown k ∉ settings) (hn : (settings.map Setting.key).Nodup) :
    (∃ e, (setPortfolioParams heap population settings).2 = .raised e) ↔ population ≠ [] ∧ ∃ x ∈ settings, ¬ x.Settable := by
  constructor
  · rintro ⟨e, he⟩
    constructor
    · rintro rfl
      revert he
      unfold setPortfolioParams
      by_cases h0 : settings.isEmpty
      · rw [if_pos h0]; simp
      · rw [if_neg h0]
        by_cases h1 : settings.any Setting.isUnknown
        · rw [if_pos h1]; simp
        · rw [if_neg h1]; simp [assignLoop]
    · by_contra hc
      have hs : ∀ x ∈ settings, x.Settable := by
        intro x hx
        by_contra hx'
        exact hc ⟨x, hx, hx'⟩
      rcases (C88_sets_parameters heap population settings hs hn).1 with h | h <;> rw [h] at he <;> cases he
  · rintro ⟨hne, hx⟩
    have h0 : ¬ settings.isEmpty := by
      obtain ⟨x, hx, _⟩ := hx
      intro h0
      rw [List.isEmpty_iff.1 h0] at hx
      simp at hx
    have h1 : ¬ settings.any Setting.isUnknown := by
      intro h
      obtain ⟨x, hx, hk'⟩ := List.any_eq_true.1 h
      cases x with
      | unknown k => exact hk k hx
      | param p v => cases hk'
      | fitness l => cases hk'
    unfold setPortfolioParams
    rw [if_neg h0, if_neg h1]
    cases population with
    | nil => exact absurd rfl hne
    | cons j rest =>
      have hj := hp j List.mem_cons_self
      obtain ⟨s', e, h⟩ := assignAll_error settings heap[j] hx
      exact ⟨e, by simp only [assignLoop, List.getElem?_eq_getElem hj, h]⟩

/-! ### concrete cases -/

/-- Two portfolios, one held twice: both get the rate, and the third portfolio, which is not in the population, keeps its own. -/
example : ((setPortfolioParams [construct toyParams none, construct toyParams none, construct toyParams none] [1, 0, 1] [.param .riskFreeRate 7, .param .compounded 9]).1.map
    fun s => (s.params .riskFreeRate, s.params .compounded, s.params .cvarBeta)) = [(7, 9, 1), (7, 9, 1), (1, 1, 1)] := by decide

/-- **C88** (negated). `returns` passes the check of the names although it cannot be set: the call raises after it has changed the first portfolio only. -/
theorem C88_not_atomic :
    let r := setPortfolioParams [construct toyParams none, construct toyParams none] [0, 1] [.param .riskFreeRate 7, .param .returns 2]
    r.2 = .raised .attributeError ∧ (r.1.map fun s => s.params .riskFreeRate) = [7, 1] := by
  exact ⟨rfl, by decide⟩

end Skfolio.Portfolio
