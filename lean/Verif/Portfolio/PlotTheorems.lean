import Verif.Portfolio.PlotModel
import Verif.Measures.DispersionLemmas
import Verif.Selection.BootTheorems
import Verif.Sorting.Theorems
import Mathlib.Data.List.Nodup
import Mathlib.Tactic.Push
import Mathlib.Tactic.Linarith
import Mathlib.Tactic.NormNum

/-!
# C127: what the plots show
-/

set_option autoImplicit false

namespace Skfolio.Portfolio.Plot

/-! ### Specification -/

/-- A bound of a Python slice, counted from the end when negative. -/
def bound (n : ℕ) (v : ℤ) : ℤ := if v < 0 then n + v else v

/-- Position `k` of a sequence of length `n` belongs to `[a:b]`. -/
def InSlice (n : ℕ) (a b : Option ℤ) (k : ℕ) : Prop :=
  k < n ∧ (∀ v, a = some v → bound n v ≤ k) ∧ ∀ v, b = some v → (k : ℤ) < bound n v

variable {Obs K : Type}

/-! ### Selection of positions -/

theorem mem_slice {n : ℕ} {a b : Option ℤ} {k : ℕ} :
    (k < n ∧ lower n a ≤ k ∧ k < upper n b) ↔ InSlice n a b k := by
  have h1 : lower n a ≤ k ∨ n ≤ k ↔ (∀ v, a = some v → bound n v ≤ k) ∨ n ≤ k := by
    cases a with
    | none => simp [lower]
    | some v =>
      simp only [lower, Pop.clamp, Option.some.injEq, forall_eq', bound]
      split <;> omega
  have h2 : k < upper n b ∧ k < n ↔ (∀ v, b = some v → (k : ℤ) < bound n v) ∧ k < n := by
    cases b with
    | none => simp [upper]
    | some v =>
      simp only [upper, Pop.clamp, Option.some.injEq, forall_eq', bound]
      split <;> omega
  unfold InSlice
  constructor
  · rintro ⟨h, ha, hb⟩
    refine ⟨h, ?_, (h2.1 ⟨hb, h⟩).1⟩
    rcases h1.1 (Or.inl ha) with h' | h'
    · exact h'
    · omega
  · rintro ⟨h, ha, hb⟩
    refine ⟨h, ?_, (h2.2 ⟨hb, h⟩).1⟩
    rcases h1.2 (Or.inl ha) with h' | h'
    · exact h'
    · omega

/-- The elements of a list at valid positions. -/
theorem filterMap_get {α : Type} (l : List α) (ks : List ℕ) (h : ∀ k ∈ ks, k < l.length) :
    (ks.filterMap fun k => l[k]?).map some = ks.map fun k => l[k]? := by
  induction ks with
  | nil => rfl
  | cons k ks ih =>
    have hk := h k (by simp)
    rw [List.filterMap_cons]
    simp only [List.getElem?_eq_getElem hk, List.map_cons]
    rw [ih fun j hj => h j (by simp [hj])]

theorem pick_slice {α : Type} (l : List α) (a b : Option ℤ) :
    ∃ (pts : List α) (ks : List ℕ), (Sel.slice a b).pick l = .ok pts ∧ ks.Pairwise (· < ·) ∧ (∀ k, k ∈ ks ↔ InSlice l.length a b k) ∧
      pts.map some = ks.map fun k => l[k]? := by
  refine ⟨_, (List.range l.length).filter fun k => decide (lower l.length a ≤ k) && decide (k < upper l.length b),
    rfl, ?_, ?_, ?_⟩
  · exact List.Pairwise.filter _ List.pairwise_lt_range
  · intro k
    rw [← mem_slice, List.mem_filter]
    simp
  · apply filterMap_get
    intro k hk
    exact List.mem_range.1 (List.mem_filter.1 hk).1

theorem pick_all {α : Type} (l : List α) : Sel.all.pick l = .ok l := by
  obtain ⟨pts, ks, h1, h2, h3, h4⟩ := pick_slice l none none
  rw [Sel.all, h1]
  have e : ks = List.range l.length := by
    apply List.Perm.eq_of_pairwise (le := (· < ·)) (fun a b _ _ h h' => absurd h (by omega)) h2 List.pairwise_lt_range
    apply (List.perm_ext_iff_of_nodup (h2.imp fun h => Nat.ne_of_lt h) List.nodup_range).2
    intro k
    rw [h3, List.mem_range]
    simp [InSlice]
  have : pts.map some = l.map some := by
    rw [h4, e]
    apply List.ext_getElem
    · simp
    · intro i hi hi'
      simp only [List.getElem_map, List.getElem_range]
      rw [List.getElem?_eq_getElem (by simpa using hi)]
  rw [List.map_injective_iff.2 (Option.some_injective _) this]

theorem slice_length {α : Type} (l : List α) (a b : Option ℤ) (pts : List α) (h : (Sel.slice a b).pick l = .ok pts) :
    pts.length = l.length ↔ ∀ k < l.length, InSlice l.length a b k := by
  obtain ⟨pts', ks, h1, h2, h3, h4⟩ := pick_slice l a b
  rw [h] at h1
  obtain rfl : pts = pts' := by simpa using h1
  have hlen : pts.length = ks.length := by simpa using congrArg List.length h4
  have hnd : ks.Nodup := h2.imp fun h => Nat.ne_of_lt h
  have hsub : ks ⊆ List.range l.length := fun k hk => List.mem_range.2 ((h3 k).1 hk).1
  have hsp : ks.Subperm (List.range l.length) := hnd.subperm hsub
  constructor
  · intro e k hk
    have := hsp.perm_of_length_le (by simp; omega)
    exact (h3 k).1 (this.mem_iff.2 (List.mem_range.2 hk))
  · intro hall
    have : (List.range l.length).Subperm ks :=
      List.nodup_range.subperm fun k hk => (h3 k).2 (hall k (List.mem_range.1 hk))
    have h5 := this.length_le
    have h6 := hsp.length_le
    simp at h5 h6
    omega

theorem slice_full {α : Type} (l : List α) (a b : Option ℤ) (h : ∀ k < l.length, InSlice l.length a b k) :
    (Sel.slice a b).pick l = .ok l := by
  rw [← pick_all l]
  simp only [Sel.pick, Sel.indices, Sel.all]
  congr 2
  apply List.filter_congr
  intro k hk
  have hk' := List.mem_range.1 hk
  have h1 := (mem_slice.2 (h k hk')).2
  have h2 : lower l.length none ≤ k ∧ k < upper l.length none := ⟨Nat.zero_le _, hk'⟩
  simp [h1, h2]

theorem index_bound {n : ℕ} {p : ℤ} {k : ℕ} : Pop.index n p = some k ↔ k < n ∧ bound n p = k := by
  simp only [Pop.index, bound]
  by_cases hp : p < 0
  · simp only [hp, if_true]
    split
    · simp only [Option.some.injEq]
      omega
    · simp only [reduceCtorEq, false_iff]
      omega
  · simp only [hp, if_false]
    split
    · simp only [Option.some.injEq]
      omega
    · simp only [reduceCtorEq, false_iff]
      omega

/-- An array of positions: the elements at the positions (negative ones counted from the end), or `IndexError`. -/
theorem pick_positions {α : Type} (l : List α) (ps : List ℤ) :
    (∀ pts, (Sel.positions ps).pick l = .ok pts ↔
      List.Forall₂ (fun p x => ∃ k : ℕ, bound l.length p = k ∧ l[k]? = some x) ps pts) ∧
    ((∃ p ∈ ps, ∀ k : ℕ, k < l.length → bound l.length p ≠ k) → (Sel.positions ps).pick l = .error .index) := by
  simp only [Sel.pick, Sel.indices]
  constructor
  · intro pts
    induction ps generalizing pts with
    | nil => simp [eq_comm]
    | cons p ps ih =>
      rw [List.mapM_cons]
      cases hp : Pop.index l.length p with
      | none =>
        simp only [Option.bind_eq_bind, Option.bind_none, reduceCtorEq, false_iff]
        rintro (_ | ⟨⟨k, hk, hx⟩, _⟩)
        have hlt : k < l.length := (List.getElem?_eq_some_iff.1 hx).1
        rw [index_bound.2 ⟨hlt, hk⟩] at hp
        cases hp
      | some k =>
        obtain ⟨hlt, hb⟩ := index_bound.1 hp
        simp only [Option.bind_eq_bind, Option.bind_some]
        cases hr : ps.mapM (Pop.index l.length) with
        | none =>
          simp only [Option.bind_none, reduceCtorEq, false_iff]
          rintro (_ | ⟨_, h⟩)
          have := (ih _).2 h
          rw [hr] at this
          cases this
        | some ks =>
          rw [hr] at ih
          simp only [Option.bind_some, Option.pure_def, Except.ok.injEq]
          rw [List.filterMap_cons]
          simp only [List.getElem?_eq_getElem hlt]
          constructor
          · rintro rfl
            exact .cons ⟨k, hb, List.getElem?_eq_getElem hlt⟩ ((ih _).1 rfl)
          · intro h
            cases h with
            | @cons _ x _ rest h1 h2 =>
              obtain ⟨k', hk', hx⟩ := h1
              have : k = k' := by
                have := hb.symm.trans hk'
                exact_mod_cast this
              subst this
              rw [List.getElem?_eq_getElem hlt] at hx
              have h3 := (ih _).2 h2
              simp only [Except.ok.injEq] at h3
              rw [h3, Option.some.inj hx]
  · rintro ⟨p, hp, hno⟩
    have : ps.mapM (Pop.index l.length) = none := by
      induction ps with
      | nil => simp at hp
      | cons q ps ih =>
        rw [List.mapM_cons]
        rcases List.mem_cons.1 hp with rfl | hp
        · have : Pop.index l.length p = none := by
            rw [Option.eq_none_iff_forall_ne_some]
            intro k hk
            obtain ⟨h1, h2⟩ := index_bound.1 hk
            exact hno k h1 h2
          simp [this]
        · rw [ih hp]
          cases Pop.index l.length q <;> simp
    rw [this]

/-! ### The curves of one portfolio -/

section field
variable [Field K]

theorem cumulativeDf_get (p : Ptf Obs K) (hl : p.observations.length = p.returns.length) (k : ℕ) :
    p.cumulativeDf[k]? = p.observations[k]?.map fun o => (o, Measures.wealth p.returns p.compounded k) := by
  rw [Ptf.cumulativeDf, List.zip, List.getElem?_zipWith]
  by_cases hk : k < p.returns.length
  · rw [Measures.cumulativeReturns_get _ _ _ hk, List.getElem?_eq_getElem (by omega : k < p.observations.length)]
    rfl
  · rw [List.getElem?_eq_none (by omega : p.observations.length ≤ k)]
    rfl

theorem length_cumulativeDf (p : Ptf Obs K) (hl : p.observations.length = p.returns.length) :
    p.cumulativeDf.length = p.observations.length := by
  rw [Ptf.cumulativeDf, List.length_zip, Measures.length_cumulativeReturns]
  omega

/-- **C127.** `Portfolio.plot_cumulative_returns(idx=slice(a, b))` draws, in order, exactly the observations of the slice, each
with the wealth reached after it. -/
theorem C127_portfolio_slice (p : Ptf Obs K) (hl : p.observations.length = p.returns.length) (logScale : Bool)
    (hs : p.compounded = true ∨ logScale = false) (a b : Option ℤ) :
    ∃ (pts : List (Obs × K)) (ks : List ℕ), p.plotCumulative logScale (some (.slice a b)) = .ok pts ∧
      ks.Pairwise (· < ·) ∧ (∀ k, k ∈ ks ↔ InSlice p.observations.length a b k) ∧
      pts.map some = ks.map fun k => p.observations[k]?.map fun o => (o, Measures.wealth p.returns p.compounded k) := by
  obtain ⟨pts, ks, h1, h2, h3, h4⟩ := pick_slice p.cumulativeDf a b
  refine ⟨pts, ks, ?_, h2, ?_, ?_⟩
  · rw [Ptf.plotCumulative, Option.getD_some, h1]
    rcases hs with h | h <;> simp [h]
  · rw [← length_cumulativeDf p hl]
    exact h3
  · rw [h4]
    simp only [cumulativeDf_get p hl]

/-- **C127.** Without `idx` all observations are drawn. -/
theorem C127_portfolio_all (p : Ptf Obs K) (hl : p.observations.length = p.returns.length) (logScale : Bool)
    (hs : p.compounded = true ∨ logScale = false) :
    ∃ pts : List (Obs × K), p.plotCumulative logScale none = .ok pts ∧ pts.length = p.observations.length ∧
      ∀ k : ℕ, pts[k]? = p.observations[k]?.map fun o => (o, Measures.wealth p.returns p.compounded k) := by
  refine ⟨p.cumulativeDf, ?_, length_cumulativeDf p hl, cumulativeDf_get p hl⟩
  rw [Ptf.plotCumulative, Option.getD_none, pick_all]
  rcases hs with h | h <;> simp [h]

/-- **C127.** `Portfolio.plot_cumulative_returns(idx=array)` draws the observations at the positions of the array (negative
ones counted from the end); a position out of range raises `IndexError`. -/
theorem C127_portfolio_positions (p : Ptf Obs K) (hl : p.observations.length = p.returns.length) (logScale : Bool)
    (hs : p.compounded = true ∨ logScale = false) (ps : List ℤ) :
    (∀ pts, p.plotCumulative logScale (some (.positions ps)) = .ok pts ↔
      List.Forall₂ (fun q x => ∃ k : ℕ, bound p.observations.length q = k ∧
        ∃ o, p.observations[k]? = some o ∧ x = (o, Measures.wealth p.returns p.compounded k)) ps pts) ∧
    ((∃ q ∈ ps, ∀ k : ℕ, k < p.observations.length → bound p.observations.length q ≠ k) →
      p.plotCumulative logScale (some (.positions ps)) = .error .index) := by
  have h := pick_positions p.cumulativeDf ps
  rw [length_cumulativeDf p hl] at h
  have hc : (!p.compounded && logScale) = false := by rcases hs with h | h <;> simp [h]
  constructor
  · intro pts
    rw [Ptf.plotCumulative, Option.getD_some]
    have e : ∀ (q : ℤ) (x : Obs × K), (∃ k : ℕ, bound p.observations.length q = k ∧ p.cumulativeDf[k]? = some x) ↔
        ∃ k : ℕ, bound p.observations.length q = k ∧
          ∃ o, p.observations[k]? = some o ∧ x = (o, Measures.wealth p.returns p.compounded k) := by
      intro q x
      simp only [cumulativeDf_get p hl, Option.map_eq_some_iff, eq_comm (a := x)]
    have h1 := h.1 pts
    simp only [e] at h1
    rw [← h1]
    cases (Sel.positions ps).pick p.cumulativeDf with
    | error e => simp
    | ok r => simp [hc]
  · intro hq
    rw [Ptf.plotCumulative, Option.getD_some, h.2 hq]

/-- **C127.** A logarithmic scale needs compounded returns. -/
theorem C127_portfolio_log (p : Ptf Obs K) (h : p.compounded = false) (a b : Option ℤ) :
    p.plotCumulative true (some (.slice a b)) = .error .value := by
  obtain ⟨pts, ks, h1, _⟩ := pick_slice p.cumulativeDf a b
  rw [Ptf.plotCumulative, Option.getD_some, h1]
  simp [h]

/-- **C127.** `Portfolio.plot_returns` draws exactly the observations of the slice, each with its return. -/
theorem C127_portfolio_returns (p : Ptf Obs K) (hl : p.observations.length = p.returns.length) (a b : Option ℤ) :
    ∃ (pts : List (Obs × K)) (ks : List ℕ), p.plotReturns (some (.slice a b)) = .ok pts ∧
      ks.Pairwise (· < ·) ∧ (∀ k, k ∈ ks ↔ InSlice p.observations.length a b k) ∧
      pts.map (fun x => some x.1) = ks.map (fun k => p.observations[k]?) ∧
      pts.map (fun x => some x.2) = ks.map (fun k => p.returns[k]?) := by
  obtain ⟨pts, ks, h1, h2, h3, h4⟩ := pick_slice p.returnsDf a b
  have hlen : p.returnsDf.length = p.observations.length := by rw [Ptf.returnsDf, List.length_zip]; omega
  have e : ∀ k : ℕ, p.returnsDf[k]?.map Prod.fst = p.observations[k]? ∧ p.returnsDf[k]?.map Prod.snd = p.returns[k]? := by
    intro k
    rw [Ptf.returnsDf, List.zip, List.getElem?_zipWith]
    by_cases hk : k < p.returns.length
    · rw [List.getElem?_eq_getElem hk, List.getElem?_eq_getElem (by omega : k < p.observations.length)]
      exact ⟨rfl, rfl⟩
    · rw [List.getElem?_eq_none (by omega : p.observations.length ≤ k), List.getElem?_eq_none (by omega : p.returns.length ≤ k)]
      exact ⟨rfl, rfl⟩
  refine ⟨pts, ks, h1, h2, hlen ▸ h3, ?_, ?_⟩
  · have := congrArg (List.map (Option.map Prod.fst)) h4
    rw [List.map_map, List.map_map] at this
    simpa [Function.comp_def, e] using this
  · have := congrArg (List.map (Option.map Prod.snd)) h4
    rw [List.map_map, List.map_map] at this
    simpa [Function.comp_def, e] using this

/-- **C127 (finding).** The curve of a portfolio does not start at 0 (or 1000), as documented, but after its first return. -/
theorem C127_start (p : Ptf Obs K) (o : Obs) (r : K) (os : List Obs) (rs : List K) (ho : p.observations = o :: os)
    (hr : p.returns = r :: rs) (logScale : Bool) (hs : p.compounded = true ∨ logScale = false) :
    ∃ pts, p.plotCumulative logScale none = .ok ((o, if p.compounded then 1000 * (1 + r) else r) :: pts) := by
  refine ⟨p.cumulativeDf.tail, ?_⟩
  rw [Ptf.plotCumulative, Option.getD_none, pick_all]
  have e : p.cumulativeDf = (o, if p.compounded then 1000 * (1 + r) else r) :: p.cumulativeDf.tail := by
    rw [Ptf.cumulativeDf, ho, hr]
    unfold Measures.cumulativeReturns
    cases p.compounded <;> simp [Measures.cumsumFrom, Measures.cumprodFrom]
  rw [← e]
  rcases hs with h | h <;> simp [h]

/-! ### The curves of a population -/

variable [LinearOrder Obs]

theorem rows_spec (ss : List (List (Obs × K))) :
    (rows ss).Pairwise (· < ·) ∧ ∀ o, o ∈ rows ss ↔ ∃ s ∈ ss, ∃ v, (o, v) ∈ s := by
  constructor
  · have h1 : (rows ss).Pairwise (· ≤ ·) := List.pairwise_insertionSort _ _
    have h2 : (rows ss).Nodup := (List.perm_insertionSort _ _).nodup_iff.2 (List.nodup_dedup _)
    exact (h1.and h2).imp fun h => lt_of_le_of_ne h.1 h.2
  · intro o
    rw [rows, (List.perm_insertionSort _ _).mem_iff, List.mem_dedup, List.mem_map]
    constructor
    · rintro ⟨⟨o', v⟩, h, rfl⟩
      obtain ⟨s, hs, h⟩ := List.mem_flatten.1 h
      exact ⟨s, hs, v, h⟩
    · rintro ⟨s, hs, v, h⟩
      exact ⟨(o, v), List.mem_flatten.2 ⟨s, hs, h⟩, rfl⟩

omit [Field K] in
theorem lookup_iff (s : List (Obs × K)) (hs : (s.map Prod.fst).Nodup) (o : Obs) (v : K) :
    s.lookup o = some v ↔ (o, v) ∈ s := by
  induction s with
  | nil => simp
  | cons x s ih =>
    obtain ⟨o', v'⟩ := x
    rw [List.map_cons, List.nodup_cons] at hs
    rw [List.lookup_cons]
    by_cases h : o = o'
    · subst h
      simp only [beq_self_eq_true, List.mem_cons, Prod.mk.injEq, true_and, Option.some.injEq]
      constructor
      · rintro rfl
        exact Or.inl rfl
      · rintro (h | h)
        · exact h.symm
        · exact absurd (List.mem_map.2 ⟨_, h, rfl⟩) hs.1
    · have : (o == o') = false := by simpa using h
      rw [this]
      simp only [List.mem_cons, Prod.mk.injEq, h, false_and, false_or]
      exact ih hs.2

/-- What is drawn when the checks pass: without `idx`, and with it in terms of that. -/
theorem plotPopulation_ok (pop : List (Ptf Obs K)) (c : Bool) (hne : pop ≠ []) (hc : ∀ p ∈ pop, p.compounded = c)
    (logScale : Bool) (hs : c = true ∨ logScale = false) (idx : Option Sel) :
    plotPopulation pop logScale idx =
      match (idx.getD .all).pick ((pop.map Ptf.cumulativeDf).map (column (rows (pop.map Ptf.cumulativeDf)))) with
      | .error e => .error e
      | .ok cols => if pop.length ≠ cols.length then .error .value
        else .ok ((Selection.deduplicateNames (pop.map Ptf.label)).zip cols) := by
  have hd : (pop.map Ptf.compounded).dedup = [c] := by
    have : pop.map Ptf.compounded = List.replicate pop.length c := by
      rw [List.eq_replicate_iff]
      refine ⟨by simp, ?_⟩
      intro b hb
      obtain ⟨p, hp, rfl⟩ := List.mem_map.1 hb
      exact hc p hp
    rw [this]
    exact List.replicate_dedup (by simpa using hne)
  have hlen : (Selection.deduplicateNames (pop.map Ptf.label)).length = pop.length := by
    rw [Selection.deduplicateNames, Selection.length_dedupLoop, List.length_map]
  have hg : (!c && logScale) = false := by rcases hs with h | h <;> simp [h]
  simp only [plotPopulation, hd, List.length_singleton, OfNat.one_ne_ofNat, if_false, hg, Bool.false_eq_true, hlen]
  rfl

/-- **C127 (all observations).** Without `idx`, `Population.plot_cumulative_returns` draws one curve per portfolio, in order and
under its own (de-duplicated) name, over all the observations of the population in increasing order; a curve has a value
exactly at the observations of its portfolio, and this is the wealth of that portfolio. -/
theorem C127_population_all_partial (pop : List (Ptf Obs K)) (c : Bool) (hne : pop ≠ [])
    (hc : ∀ p ∈ pop, p.compounded = c) (logScale : Bool) (hs : c = true ∨ logScale = false)
    (hl : ∀ p ∈ pop, p.observations.length = p.returns.length) (hn : ∀ p ∈ pop, p.observations.Nodup) :
    ∃ (lines : List (String × List (Obs × Option K))) (index : List Obs),
      plotPopulation pop logScale none = .ok lines ∧ lines.length = pop.length ∧
      lines.map Prod.fst = Selection.deduplicateNames (pop.map Ptf.label) ∧
      index.Pairwise (· < ·) ∧ (∀ o, o ∈ index ↔ ∃ p ∈ pop, o ∈ p.observations) ∧
      ∀ (i : ℕ) (p : Ptf Obs K) (line : String × List (Obs × Option K)), pop[i]? = some p → lines[i]? = some line →
        line.2.map Prod.fst = index ∧
        ∀ o v, (o, some v) ∈ line.2 ↔
          ∃ k, p.observations[k]? = some o ∧ v = Measures.wealth p.returns p.compounded k := by
  have hlen : (Selection.deduplicateNames (pop.map Ptf.label)).length = pop.length := by
    rw [Selection.deduplicateNames, Selection.length_dedupLoop, List.length_map]
  have hfst : ∀ p ∈ pop, p.cumulativeDf.map Prod.fst = p.observations := by
    intro p hp
    rw [Ptf.cumulativeDf, List.map_fst_zip]
    rw [Measures.length_cumulativeReturns, hl p hp]
  have hmem : ∀ p ∈ pop, ∀ o v, (o, v) ∈ p.cumulativeDf ↔
      ∃ k, p.observations[k]? = some o ∧ v = Measures.wealth p.returns p.compounded k := by
    intro p hp o v
    rw [List.mem_iff_getElem?]
    simp only [cumulativeDf_get p (hl p hp), Option.map_eq_some_iff, Prod.mk.injEq]
    constructor
    · rintro ⟨k, o', h1, rfl, rfl⟩
      exact ⟨k, h1, rfl⟩
    · rintro ⟨k, h1, rfl⟩
      exact ⟨k, o, h1, rfl, rfl⟩
  have hr := rows_spec (pop.map Ptf.cumulativeDf)
  have hidx : ∀ o, o ∈ rows (pop.map Ptf.cumulativeDf) ↔ ∃ p ∈ pop, o ∈ p.observations := by
    intro o
    rw [hr.2]
    constructor
    · rintro ⟨s, hs', v, hv⟩
      obtain ⟨p, hp, rfl⟩ := List.mem_map.1 hs'
      exact ⟨p, hp, hfst p hp ▸ List.mem_map.2 ⟨_, hv, rfl⟩⟩
    · rintro ⟨p, hp, ho⟩
      rw [← hfst p hp] at ho
      obtain ⟨⟨o', v⟩, hv, rfl⟩ := List.mem_map.1 ho
      exact ⟨_, List.mem_map.2 ⟨p, hp, rfl⟩, v, hv⟩
  refine ⟨(Selection.deduplicateNames (pop.map Ptf.label)).zip
    ((pop.map Ptf.cumulativeDf).map (column (rows (pop.map Ptf.cumulativeDf)))),
    rows (pop.map Ptf.cumulativeDf), ?_, ?_, ?_, hr.1, hidx, ?_⟩
  · rw [plotPopulation_ok pop c hne hc logScale hs, Option.getD_none, pick_all]
    simp
  · rw [List.length_zip, hlen]
    simp
  · rw [List.map_fst_zip]
    rw [hlen]
    simp
  · intro i p line hp hline
    have hp' : p ∈ pop := List.mem_of_getElem? hp
    rw [List.getElem?_zip_eq_some] at hline
    have h2 := hline.2
    rw [List.getElem?_map, List.getElem?_map, hp] at h2
    have h3 : line.2 = column (rows (pop.map Ptf.cumulativeDf)) p.cumulativeDf := by simpa using h2.symm
    rw [h3]
    constructor
    · rw [column, List.map_map]
      exact List.map_id _
    · intro o v
      rw [← hmem p hp', ← lookup_iff p.cumulativeDf (by rw [hfst p hp']; exact hn p hp')]
      simp only [column, List.mem_map, Prod.mk.injEq]
      constructor
      · rintro ⟨o', _, rfl, h⟩
        exact h
      · intro h
        refine ⟨o, ?_, rfl, h⟩
        rw [lookup_iff _ (by rw [hfst p hp']; exact hn p hp')] at h
        exact (hidx o).2 ⟨p, hp', hfst p hp' ▸ List.mem_map.2 ⟨_, h, rfl⟩⟩

/-- **C127 (finding).** `idx`, documented as the observations to plot, selects portfolios: a slice that leaves one of the
PORTFOLIOS out raises `ValueError`, any other slice changes nothing, whatever the observations. -/
theorem C127_population_slice (pop : List (Ptf Obs K)) (logScale : Bool) (lines : List (String × List (Obs × Option K)))
    (h : plotPopulation pop logScale none = .ok lines) (a b : Option ℤ) :
    ((∀ k < pop.length, InSlice pop.length a b k) → plotPopulation pop logScale (some (.slice a b)) = .ok lines) ∧
    ((∃ k < pop.length, ¬ InSlice pop.length a b k) →
      plotPopulation pop logScale (some (.slice a b)) = .error .value) := by
  set cols := (pop.map Ptf.cumulativeDf).map (column (rows (pop.map Ptf.cumulativeDf))) with hcols
  have hlen : cols.length = pop.length := by simp [hcols]
  constructor
  · intro hall
    rw [← h]
    simp only [plotPopulation, Option.getD_some, Option.getD_none]
    rw [pick_all, slice_full _ a b (by rw [← hcols, hlen]; exact hall)]
  · rintro ⟨k, hk, hno⟩
    obtain ⟨pts, ks, h1, _⟩ := pick_slice cols a b
    have hne : pts.length ≠ pop.length := by
      rw [← hlen]
      intro e
      rw [slice_length cols a b pts h1, hlen] at e
      exact hno (e k hk)
    have hnames : (Selection.deduplicateNames (pop.map Ptf.label)).length = pop.length := by
      rw [Selection.deduplicateNames, Selection.length_dedupLoop, List.length_map]
    simp only [plotPopulation, Option.getD_some, Option.getD_none] at h ⊢
    rw [← hcols] at h ⊢
    rw [h1]
    split
    · rfl
    · rw [if_neg ‹_›] at h
      split
      · rename_i heq
        rw [heq] at h
        cases h
      · split
        · rfl
        · simp only [hnames]
          rw [if_pos (Ne.symm hne)]

/-- **C127 (finding).** An array `idx` of as many positions as there are portfolios shuffles the curves but not the legend:
curve `i` is that of portfolio `idx[i]` under the name of portfolio `i`. -/
theorem C127_population_positions (pop : List (Ptf Obs K)) (logScale : Bool)
    (lines : List (String × List (Obs × Option K))) (h : plotPopulation pop logScale none = .ok lines)
    (ks : List ℕ) (hk : ∀ k ∈ ks, k < pop.length) :
    (ks.length = pop.length → ∃ lines', plotPopulation pop logScale (some (.positions (ks.map Nat.cast))) = .ok lines' ∧
      lines'.map Prod.fst = lines.map Prod.fst ∧
      lines'.map (fun l => some l.2) = ks.map fun k => lines[k]?.map Prod.snd) ∧
    (ks.length ≠ pop.length → plotPopulation pop logScale (some (.positions (ks.map Nat.cast))) = .error .value) := by
  set cols := (pop.map Ptf.cumulativeDf).map (column (rows (pop.map Ptf.cumulativeDf))) with hcols
  have hlen : cols.length = pop.length := by simp [hcols]
  have hm : (ks.map (Nat.cast : ℕ → ℤ)).mapM (Pop.index pop.length) = some ks := by
    clear h
    induction ks with
    | nil => rfl
    | cons k ks ih =>
      have h1 : Pop.index pop.length (k : ℤ) = some k := by
        rw [index_bound]
        refine ⟨hk k (by simp), ?_⟩
        simp [bound]
      rw [List.map_cons, List.mapM_cons, h1, ih fun j hj => hk j (by simp [hj])]
      rfl
  have hpick : (Sel.positions (ks.map Nat.cast)).pick cols = .ok (ks.filterMap fun k => cols[k]?) := by
    rw [Sel.pick, Sel.indices, hlen, hm]
  have hget := filterMap_get cols ks (by rw [hlen]; exact hk)
  have hplen : (ks.filterMap fun k => cols[k]?).length = ks.length := by simpa using congrArg List.length hget
  have hnames : (Selection.deduplicateNames (pop.map Ptf.label)).length = pop.length := by
    rw [Selection.deduplicateNames, Selection.length_dedupLoop, List.length_map]
  simp only [plotPopulation, Option.getD_some, Option.getD_none] at h ⊢
  rw [← hcols] at h ⊢
  rw [hpick]
  by_cases h2 : (pop.map Ptf.compounded).dedup.length = 2
  · rw [if_pos h2] at h
    cases h
  rw [if_neg h2] at h ⊢
  cases hd : (pop.map Ptf.compounded).dedup with
  | nil => rw [hd] at h; cases h
  | cons c rest =>
    rw [hd] at h
    simp only at h ⊢
    by_cases hb : (!c && logScale) = true
    · rw [if_pos hb] at h
      cases h
    rw [if_neg hb] at h ⊢
    rw [pick_all] at h
    simp only [hnames, hlen, hplen, ne_eq, not_true, if_false, Except.ok.injEq] at h ⊢
    constructor
    · intro e
      refine ⟨_, if_neg (by simp [e]), ?_, ?_⟩
      · rw [← h, List.map_fst_zip (by omega), List.map_fst_zip (by omega)]
      · have e1 : ((Selection.deduplicateNames (pop.map Ptf.label)).zip (ks.filterMap fun k => cols[k]?)).map
            (fun l => some l.2) = (ks.filterMap fun k => cols[k]?).map some := by
          conv_rhs => rw [← List.map_snd_zip (l₁ := Selection.deduplicateNames (pop.map Ptf.label))
            (l₂ := ks.filterMap fun k => cols[k]?) (by omega)]
          rw [List.map_map]
          rfl
        rw [e1, hget]
        apply List.map_congr_left
        intro k hk'
        have e2 : lines.map Prod.snd = cols := by
          rw [← h, List.map_snd_zip (by omega)]
        rw [← e2, List.getElem?_map]
    · intro e
      exact if_pos (Ne.symm e)

/-- **C127.** Portfolios of both kinds cannot be drawn together. -/
theorem C127_population_mixed (pop : List (Ptf Obs K)) (p q : Ptf Obs K) (hp : p ∈ pop) (hq : q ∈ pop)
    (hne : p.compounded ≠ q.compounded) (logScale : Bool) (idx : Option Sel) :
    plotPopulation pop logScale idx = .error .value := by
  have : (pop.map Ptf.compounded).dedup.Perm [true, false] := by
    apply (List.perm_ext_iff_of_nodup (List.nodup_dedup _) (by decide)).2
    have h1 : p.compounded ∈ (pop.map Ptf.compounded).dedup := List.mem_dedup.2 (List.mem_map.2 ⟨p, hp, rfl⟩)
    have h2 : q.compounded ∈ (pop.map Ptf.compounded).dedup := List.mem_dedup.2 (List.mem_map.2 ⟨q, hq, rfl⟩)
    intro b
    cases hb : p.compounded <;> cases hb' : q.compounded <;> rw [hb] at h1 hne <;> rw [hb'] at h2 hne <;>
      cases b <;> simp_all
  simp only [plotPopulation]
  rw [if_pos (by simpa using this.length_eq)]

end field

/-! ### Distributions, fronts and surfaces -/

section distribution
variable {α M : Type}

/-- **C127.** Without tags, `plot_distribution` shows for every measure its values for all portfolios. -/
theorem C127_distribution_all (pop : List α) (tag : α → Option String) (measure : M → α → K) (str value : M → String)
    (measures : List M) :
    plotDistribution pop tag measure str value measures none =
      .ok (measures.map fun m => (value m, pop.map (measure m))) := by
  have e : (measures.flatMap fun m => [(value m, pop.map (measure m))]) =
      measures.map fun m => (value m, pop.map (measure m)) := by
    induction measures with
    | nil => rfl
    | cons m ms ih => simp [ih]
  simp only [plotDistribution, e]
  cases measures with
  | nil => rfl
  | cons m ms =>
    simp only [List.map_cons]
    rw [if_pos]
    simp

/-- **C127 (finding).** With tags, `plot_distribution` shows for every measure and tag the values of the portfolios with
that tag if all tags have the same number of portfolios, and raises `ValueError` otherwise. -/
theorem C127_distribution_tags_partial (pop : List α) (tag : α → Option String) (measure : M → α → K)
    (str value : M → String) (measures : List M) (hm : measures ≠ []) (ts : List String) :
    let withTag := fun t => pop.filter fun p => decide (tag p = some t)
    ((∀ t ∈ ts, ∀ u ∈ ts, (withTag t).length = (withTag u).length) →
      plotDistribution pop tag measure str value measures (some ts) =
        .ok (measures.flatMap fun m => ts.map fun t => (str m ++ " - " ++ t, (withTag t).map (measure m)))) ∧
    ((∃ t ∈ ts, ∃ u ∈ ts, (withTag t).length ≠ (withTag u).length) →
      plotDistribution pop tag measure str value measures (some ts) = .error .value) := by
  intro withTag
  have e : ∀ cols, cols = (measures.flatMap fun m => ts.map fun t => (str m ++ " - " ++ t, (withTag t).map (measure m))) → plotDistribution pop tag measure str value measures (some ts) =
      match cols with
      | [] => .ok []
      | c :: _ => if cols.all fun d => d.2.length == c.2.length then .ok cols else .error .value := by
    rintro cols rfl
    rfl
  obtain ⟨cols, hcols⟩ : ∃ cols,
      cols = measures.flatMap fun m => ts.map fun t => (str m ++ " - " ++ t, (withTag t).map (measure m)) := ⟨_, rfl⟩
  have hmem : ∀ d ∈ cols, ∃ t ∈ ts, d.2.length = (withTag t).length := by
    intro d hd
    rw [hcols] at hd
    obtain ⟨m, _, hd⟩ := List.mem_flatMap.1 hd
    obtain ⟨t, ht, rfl⟩ := List.mem_map.1 hd
    exact ⟨t, ht, by simp⟩
  obtain ⟨m0, hm0⟩ := List.exists_mem_of_ne_nil _ hm
  have hmem' : ∀ t ∈ ts, ∃ d ∈ cols, d.2.length = (withTag t).length := by
    intro t ht
    rw [hcols]
    exact ⟨_, List.mem_flatMap.2 ⟨m0, hm0, List.mem_map.2 ⟨t, ht, rfl⟩⟩, by simp⟩
  rw [e cols hcols, ← hcols]
  clear hcols e
  constructor
  · intro h
    cases cols with
    | nil => rfl
    | cons c rest =>
      simp only
      rw [if_pos]
      rw [List.all_eq_true]
      intro d hd
      obtain ⟨t, ht, h1⟩ := hmem d hd
      obtain ⟨u, hu, h2⟩ := hmem c (by simp)
      rw [beq_iff_eq, h1, h2]
      exact h t ht u hu
  · rintro ⟨t, ht, u, hu, hne⟩
    obtain ⟨d, hd, h1⟩ := hmem' t ht
    obtain ⟨d', hd', h2⟩ := hmem' u hu
    cases cols with
    | nil => simp at hd
    | cons c rest =>
      simp only
      rw [if_neg]
      rw [List.all_eq_true]
      intro hall
      have h3 := beq_iff_eq.1 (hall d hd)
      have h4 := beq_iff_eq.1 (hall d' hd')
      omega

/-- **C127 (finding).** `plot_measures(to_surface=True)` raises `TypeError` exactly when one of the three measures is a
ratio. -/
theorem C127_surface (isRatio : M → Bool) (str : M → String) (x y z : M) :
    surfaceTemplate isRatio str x y z = .error .type ↔ isRatio x = true ∨ isRatio y = true ∨ isRatio z = true := by
  unfold surfaceTemplate
  cases hx : isRatio x <;> cases hy : isRatio y <;> cases hz : isRatio z <;> simp [hx, hy, hz]

/-! #### The column of fronts -/

theorem setAll_get (d : List ℤ) (f : List ℕ) (v : ℤ) (i : ℕ) :
    (f.foldl (fun d i => d.set i v) d)[i]? = if i ∈ f ∧ i < d.length then some v else d[i]? := by
  induction f generalizing d with
  | nil => simp
  | cons j f ih =>
    rw [List.foldl_cons, ih, List.length_set, List.getElem?_set]
    by_cases h1 : i ∈ f <;> by_cases h2 : i < d.length <;> by_cases h3 : j = i
    all_goals
      try subst h3
      simp_all
      try omega

theorem frontColumn_aux (fronts : List (List ℕ)) (n k0 : ℕ) (d : List ℤ) (hd : d.length = n) (i : ℕ) (hi : i < n) :
    ((fronts.zipIdx k0).foldl (fun df fk => fk.1.foldl (fun d i => d.set i (fk.2 : ℤ)) df) d).length = n ∧
    ((∀ f ∈ fronts, i ∉ f) →
      ((fronts.zipIdx k0).foldl (fun df fk => fk.1.foldl (fun d i => d.set i (fk.2 : ℤ)) df) d)[i]? = d[i]?) ∧
    (∀ k (hk : k < fronts.length), i ∈ fronts[k] → (∀ k' (hk' : k' < fronts.length), i ∈ fronts[k'] → k' = k) →
      ((fronts.zipIdx k0).foldl (fun df fk => fk.1.foldl (fun d i => d.set i (fk.2 : ℤ)) df) d)[i]? =
        some ((k0 + k : ℕ) : ℤ)) := by
  induction fronts generalizing k0 d with
  | nil => simp [hd]
  | cons f fronts ih =>
    rw [List.zipIdx_cons, List.foldl_cons]
    have hlen : (f.foldl (fun d i => d.set i (k0 : ℤ)) d).length = n := by
      rw [← hd]
      clear hd ih
      induction f generalizing d with
      | nil => rfl
      | cons j f ih => rw [List.foldl_cons, ih, List.length_set]
    obtain ⟨h1, h2, h3⟩ := ih (k0 + 1) _ hlen
    refine ⟨h1, ?_, ?_⟩
    · intro hno
      rw [h2 fun g hg => hno g (by simp [hg]), setAll_get, if_neg]
      exact fun h => hno f (by simp) h.1
    · intro k hk hik huniq
      cases k with
      | zero =>
        rw [h2, setAll_get, if_pos ⟨by simpa using hik, by omega⟩]
        · simp
        · intro g hg hig
          obtain ⟨k', hk', rfl⟩ := List.getElem_of_mem hg
          have := huniq (k' + 1) (by simpa using hk') (by simpa using hig)
          omega
      | succ k =>
        rw [h3 k (by simpa using hk) (by simpa using hik)]
        · congr 2
          omega
        · intro k' hk' hik'
          have := huniq (k' + 1) (by simpa using hk') (by simpa using hik')
          omega

variable {β : Type} [LinearOrder β]

open Sorting in
theorem rowDominates_lt {fits : List (List β)} {j i : ℕ} (h : RowDominates fits j i) : j < fits.length :=
  h.1

open Sorting in
/-- **C127.** The fronts highlighted by `plot_measures(show_fronts=True)`: every portfolio has a label, the label is `0`
exactly for the portfolios that none dominates, a portfolio has a larger label than those that dominate it, and a portfolio
with label `k + 1` is dominated by one with label `k`. -/
theorem C127_fronts {m : ℕ} (fits : List (List β)) (hr : Rectangular m fits) :
    ∃ label : List ℤ, plotFronts fits = some label ∧ label.length = fits.length ∧
      (∀ (i : ℕ) v, label[i]? = some v → 0 ≤ v) ∧
      (∀ i < fits.length, label[i]? = some 0 ↔ ¬ ∃ j, RowDominates fits j i) ∧
      (∀ (i j : ℕ) u v, label[i]? = some u → label[j]? = some v → RowDominates fits i j → u < v) ∧
      (∀ (i k : ℕ), label[i]? = some ((k : ℤ) + 1) → ∃ j : ℕ, label[j]? = some (k : ℤ) ∧ RowDominates fits j i) := by
  obtain ⟨F, hF, hlay⟩ := C02_fronts_are_pareto_layers fits hr fits.length le_rfl
  have hex : ∀ i < fits.length, ∃ k, ∃ hk : k < F.length, i ∈ F[k] := by
    intro i hi
    obtain ⟨f, hf, hif⟩ := List.mem_flatten.1 (hlay.cover.mem_iff.2 (List.mem_range.2 hi))
    obtain ⟨k, hk, rfl⟩ := List.getElem_of_mem hf
    exact ⟨k, hk, hif⟩
  have hearly : ∀ k' k (hk : k < F.length) (hk' : k' < F.length) i, k' < k → i ∈ F[k'] → i ∉ F[k] := by
    intro k' k hk hk' i hlt h1 h2
    apply ((hlay.layer k hk i).1 h2).2.1
    exact List.mem_flatten.2 ⟨F[k'], List.mem_take_iff_getElem.2 ⟨k', by omega, rfl⟩, h1⟩
  have huniq : ∀ k (hk : k < F.length) k' (hk' : k' < F.length) i, i ∈ F[k] → i ∈ F[k'] → k' = k := by
    intro k hk k' hk' i h1 h2
    rcases lt_trichotomy k' k with h | h | h
    · exact absurd h1 (hearly k' k hk hk' i h h2)
    · exact h
    · exact absurd h2 (hearly k k' hk' hk i h h1)
  have hlab : ∀ k (hk : k < F.length) i, i ∈ F[k] → (frontColumn fits.length F)[i]? = some (k : ℤ) := by
    intro k hk i hik
    have hi := ((hlay.layer k hk i).1 hik).1
    have := (frontColumn_aux F fits.length 0 (List.replicate fits.length (-1)) (by simp) i hi).2.2 k hk hik
      fun k' hk' h => huniq k hk k' hk' i hik h
    rw [Nat.zero_add] at this
    exact this
  have hlen : (frontColumn fits.length F).length = fits.length := by
    cases hn : fits.length with
    | zero =>
      have hFn : F = [] := by
        by_contra hne
        obtain ⟨f, hf⟩ := List.exists_mem_of_ne_nil _ hne
        obtain ⟨i, hi⟩ := List.exists_mem_of_ne_nil _ (hlay.nonempty f hf)
        have := hlay.cover.mem_iff.1 (List.mem_flatten.2 ⟨f, hf, hi⟩)
        rw [hn] at this
        simp at this
      rw [hFn]
      rfl
    | succ n =>
      rw [← hn]
      exact (frontColumn_aux F fits.length 0 (List.replicate fits.length (-1)) (by simp) 0 (by omega)).1
  have hof : ∀ (i : ℕ) v, (frontColumn fits.length F)[i]? = some v → ∃ k, ∃ hk : k < F.length, i ∈ F[k] ∧ v = (k : ℤ) := by
    intro i v hv
    have hi : i < fits.length := by
      rw [← hlen]
      exact (List.getElem?_eq_some_iff.1 hv).1
    obtain ⟨k, hk, hik⟩ := hex i hi
    rw [hlab k hk i hik] at hv
    exact ⟨k, hk, hik, (Option.some.inj hv).symm⟩
  refine ⟨frontColumn fits.length F, by rw [plotFronts, hF]; rfl, hlen, ?_, ?_, ?_, ?_⟩
  · intro i v hv
    obtain ⟨k, _, _, rfl⟩ := hof i v hv
    omega
  · intro i hi
    constructor
    · intro h0
      obtain ⟨k, hk, hik, h⟩ := hof i 0 h0
      obtain rfl : k = 0 := by omega
      rintro ⟨j, hd⟩
      have := ((hlay.layer 0 hk i).1 hik).2.2 j (rowDominates_lt hd) hd
      simp at this
    · intro hno
      obtain ⟨k, hk, hik⟩ := hex i hi
      have h0 : 0 < F.length := by omega
      exact hlab 0 h0 i ((hlay.layer 0 h0 i).2 ⟨hi, by simp, fun j _ hd => absurd ⟨j, hd⟩ hno⟩)
  · intro i j u v hu hv hd
    obtain ⟨k, hk, hik, rfl⟩ := hof i u hu
    obtain ⟨k', hk', hjk, rfl⟩ := hof j v hv
    have := ((hlay.layer k' hk' j).1 hjk).2.2 i ((hlay.layer k hk i).1 hik).1 hd
    obtain ⟨f, hf, hif⟩ := List.mem_flatten.1 this
    obtain ⟨k2, hk2, rfl⟩ := List.mem_take_iff_getElem.1 hf
    have := huniq k hk k2 (by omega) i hik hif
    omega
  · intro i k hv
    obtain ⟨k', hk', hik, h⟩ := hof i _ hv
    obtain rfl : k' = k + 1 := by omega
    obtain ⟨j, hj, hd⟩ := (C02_front_structure fits hr fits.length le_rfl F hF).2 k hk' i hik
    exact ⟨j, hlab k (by omega) j hj, hd⟩

end distribution

/-! ### Concrete cases -/

/-- Three observations, compounded. -/
def early : Ptf ℕ ℚ := ⟨"a", none, [0, 1, 2], [1 / 10, 0, -1 / 2], true⟩
/-- Three observations, the last two shared with `early`. -/
def late : Ptf ℕ ℚ := ⟨"a", some "t", [1, 2, 3], [0, 1, 0], true⟩

/-- The last two observations of one portfolio. -/
example : early.plotCumulative true (some (.slice (some (-2)) none)) = .ok [(1, 1100), (2, 550)] := by decide +kernel

/-- Positions, one from the end; one out of range. -/
example : early.plotCumulative false (some (.positions [2, -3])) = .ok [(2, 550), (0, 1100)] := by decide +kernel
example : early.plotCumulative false (some (.positions [3])) = .error .index := by decide +kernel

/-- The whole population: an observation that a portfolio lacks has no value. -/
example : plotPopulation [early, late] false none =
    .ok [("a", [(0, some 1100), (1, some 1100), (2, some 550), (3, none)]),
      ("a_t", [(0, none), (1, some 1000), (2, some 2000), (3, some 2000)])] := by decide +kernel

/-- Asking for the first two of four observations shows all four; asking for the first one raises. -/
example : plotPopulation [early, late] false (some (.slice none (some 2))) = plotPopulation [early, late] false none := by
  decide +kernel
example : plotPopulation [early, late] false (some (.slice none (some 1))) = .error .value := by decide +kernel

/-- Asking for observations 1 and 0 shows the curve of each portfolio under the name of the other. -/
example : plotPopulation [early, late] false (some (.positions [1, 0])) =
    .ok [("a", [(0, none), (1, some 1000), (2, some 2000), (3, some 2000)]),
      ("a_t", [(0, some 1100), (1, some 1100), (2, some 550), (3, none)])] := by decide +kernel

example : InSlice 4 (some (-2)) none 3 ∧ ¬ InSlice 4 (some (-2)) none 1 := by
  constructor
  · refine ⟨by decide, ?_, by simp⟩
    intro v hv
    cases hv
    decide
  · intro h
    have := h.2.1 _ rfl
    revert this
    decide

/-- The hypotheses on a population are met. -/
example : (∀ p ∈ [early, late], p.compounded = true) ∧ (∀ p ∈ [early, late], p.observations.length = p.returns.length) ∧
    ∀ p ∈ [early, late], p.observations.Nodup := by
  refine ⟨by decide, by decide, by decide⟩

/-- Two tags with as many portfolios, and two with different numbers. -/
example : plotDistribution [(some "u", 1), (some "v", 2), (none, 3)] (fun p : Option String × ℚ => p.1)
    (fun _ p => p.2) (fun m : String => m) (fun m => m) ["Mean"] (some ["u", "v"]) =
      .ok [("Mean - u", [1]), ("Mean - v", [2])] := by decide +kernel
example : plotDistribution [(some "u", 1), (some "v", 2), (some "v", 3)] (fun p : Option String × ℚ => p.1)
    (fun _ p => p.2) (fun m : String => m) (fun m => m) ["Mean"] (some ["u", "v"]) = .error .value := by decide +kernel

/-- Three portfolios, two of them incomparable and one dominated by both. -/
example : plotFronts [[(0 : ℚ), 0], [1, 2], [2, 1]] = some [1, 0, 0] := by decide +kernel
example : Sorting.Rectangular 2 [[(0 : ℚ), 0], [1, 2], [2, 1]] := by
  simp [Sorting.Rectangular]

end Skfolio.Portfolio.Plot
