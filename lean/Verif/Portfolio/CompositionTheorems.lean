import Verif.Portfolio.CompositionModel
import Mathlib.Data.List.GetD
import Mathlib.Tactic.Linarith
import Mathlib.Tactic.Ring
import Mathlib.Tactic.NormNum
import Mathlib.Tactic.Positivity
import Mathlib.Algebra.BigOperators.Group.List.Lemmas
import Mathlib.Data.Rat.Defs
import Mathlib.Algebra.Order.Ring.Rat

/-!
Claim C87: compositions show the invested weights.
-/

set_option autoImplicit false

namespace Skfolio.Portfolio

variable {K O : Type} [Field K] [LinearOrder K] [LinearOrder O]

/-! ### specification -/

/-- One weight for each asset, assets with distinct names. -/
def CPtf.Wf (p : CPtf K O) : Prop := p.assets.Nodup ∧ p.weights.length = p.assets.length

/-- The portfolio has the weight `w` in the asset `a`. -/
def CPtf.Holds (p : CPtf K O) (a : String) (w : K) : Prop := ∃ i : Nat, p.assets[i]? = some a ∧ p.weights[i]? = some w

/-- The weight shown for an asset: its weight if it is above 0.001% in absolute value, otherwise 0. -/
def Shown (p : CPtf K O) (a : String) (v : K) : Prop :=
  (p.Holds a v ∧ 1 / 10 ^ 5 < |v|) ∨ (v = 0 ∧ ∀ w, p.Holds a w → |w| ≤ 1 / 10 ^ 5)

/-! ### lemmas -/

theorem mem_zip_iff (p : CPtf K O) (a : String) (w : K) : (a, w) ∈ p.assets.zip p.weights ↔ p.Holds a w := by
  rw [List.mem_iff_getElem?]
  constructor
  · rintro ⟨i, hi⟩
    rw [List.getElem?_zip_eq_some] at hi
    exact ⟨i, hi⟩
  · rintro ⟨i, hi⟩
    exact ⟨i, by rw [List.getElem?_zip_eq_some]; exact hi⟩

theorem mem_rows_iff (p : CPtf K O) (a : String) (w : K) : (a, w) ∈ p.rows ↔ p.Holds a w ∧ 1 / 10 ^ 5 < |w| := by
  unfold CPtf.rows
  rw [List.mem_filter, mem_zip_iff]
  simp [zeroThreshold]

theorem rows_keys_nodup {p : CPtf K O} (h : p.Wf) : (p.rows.map Prod.fst).Nodup := by
  have h1 : ((p.assets.zip p.weights).map Prod.fst).Nodup := by
    rw [List.map_fst_zip (le_of_eq h.2.symm)]
    exact h.1
  exact h1.sublist (List.Sublist.map _ List.filter_sublist)

theorem lookup_of_mem {rows : List (String × K)} (h : (rows.map Prod.fst).Nodup) {a : String} {w : K} (hm : (a, w) ∈ rows) : rows.lookup a = some w := by
  induction rows with
  | nil => simp at hm
  | cons r rest ih =>
    rw [List.map_cons, List.nodup_cons] at h
    rcases List.mem_cons.1 hm with rfl | hm'
    · simp [List.lookup]
    · have hne : a ≠ r.1 := fun e => h.1 (e ▸ List.mem_map_of_mem (f := Prod.fst) hm')
      obtain ⟨x, y⟩ := r
      have : (a == x) = false := by simpa using hne
      simp only [List.lookup, this]
      exact ih h.2 hm'

theorem lookup_of_not_mem {rows : List (String × K)} {a : String} (h : a ∉ rows.map Prod.fst) : rows.lookup a = none := by
  induction rows with
  | nil => rfl
  | cons r rest ih =>
    rw [List.map_cons, List.mem_cons, not_or] at h
    obtain ⟨x, y⟩ := r
    have : (a == x) = false := by simpa using h.1
    simp only [List.lookup, this]
    exact ih h.2

theorem cell_of_mem {rows : List (String × K)} (h : (rows.map Prod.fst).Nodup) {a : String} {w : K} (hm : (a, w) ∈ rows) : cell rows a = w := by
  unfold cell
  rw [lookup_of_mem h hm]
  rfl

theorem cell_of_not_mem {rows : List (String × K)} {a : String} (h : a ∉ rows.map Prod.fst) : cell rows a = 0 := by
  unfold cell
  rw [lookup_of_not_mem h]
  rfl

theorem cell_shown {p : CPtf K O} (h : p.Wf) {rows : List (String × K)} (hp : rows.Perm p.rows) (a : String) : Shown p a (cell rows a) := by
  have hn : (rows.map Prod.fst).Nodup := (hp.map Prod.fst).nodup_iff.2 (rows_keys_nodup h)
  by_cases hm : a ∈ rows.map Prod.fst
  · obtain ⟨⟨x, w⟩, hxw, rfl⟩ := List.mem_map.1 hm
    rw [cell_of_mem hn hxw]
    exact Or.inl ((mem_rows_iff p x w).1 (hp.mem_iff.1 hxw))
  · rw [cell_of_not_mem hm]
    refine Or.inr ⟨rfl, fun w hw => ?_⟩
    by_contra hc
    exact hm (List.mem_map.2 ⟨(a, w), hp.mem_iff.2 ((mem_rows_iff p a w).2 ⟨hw, not_le.1 hc⟩), rfl⟩)

/-! ### the claims -/

/-- **C87.** The composition of a portfolio lists its assets with a weight above 0.001% in absolute value, once each, with their weights, in decreasing order of the weights. -/
theorem C87_composition (p : CPtf K O) (hp : p.Wf) (l : List (String × K)) (h : p.composition = .ok l) :
    (∀ a w, (a, w) ∈ l ↔ p.Holds a w ∧ 1 / 10 ^ 5 < |w|) ∧ (l.map Prod.fst).Nodup ∧ l.Pairwise fun r s => s.2 ≤ r.2 := by
  unfold CPtf.composition at h
  by_cases hn : p.name = "asset"
  · rw [if_pos hn] at h; cases h
  · rw [if_neg hn] at h
    cases h
    have hperm := List.mergeSort_perm p.rows fun a b => decide (b.2 ≤ a.2)
    refine ⟨fun a w => ?_, ?_, ?_⟩
    · rw [hperm.mem_iff, mem_rows_iff]
    · exact (hperm.map Prod.fst).nodup_iff.2 (rows_keys_nodup hp)
    · have := List.pairwise_mergeSort (le := fun a b : String × K => decide (b.2 ≤ a.2)) (by
        intro a b c h1 h2
        simp only [decide_eq_true_eq] at *
        exact h2.trans h1) (by
        intro a b
        simp only [Bool.or_eq_true, decide_eq_true_eq]
        exact le_total _ _) p.rows
      exact this.imp fun h => by simpa using h

/-- **C87** (negated). A portfolio with the name "asset" has no composition. -/
theorem C87_composition_fails (p : CPtf K O) : (∃ e, p.composition = .error e) ↔ p.name = "asset" := by
  unfold CPtf.composition
  by_cases hn : p.name = "asset"
  · simp [hn]
  · simp [hn]

theorem mapM_forall2 {A B E : Type} {f : A → Except E B} : ∀ {l : List A} {r : List B}, l.mapM f = .ok r → List.Forall₂ (fun a b => f a = .ok b) l r := by
  intro l
  induction l with
  | nil => intro r h; cases h; exact List.Forall₂.nil
  | cons a l ih =>
    intro r h
    rw [List.mapM_cons] at h
    cases h1 : f a with
    | error e => rw [h1] at h; cases h
    | ok b =>
      rw [h1] at h
      cases h2 : l.mapM f with
      | error e => rw [h2] at h; cases h
      | ok r' =>
        rw [h2] at h
        cases h
        exact List.Forall₂.cons h1 (ih h2)

/-- **C87.** The composition of a multi-period portfolio (or of a population) has one row for each asset that one of the portfolios is invested in, and one column for each
portfolio, with the weight of the asset in that portfolio, or 0. -/
theorem C87_multi_composition (ps : List (CPtf K O)) (hps : ∀ p ∈ ps, p.Wf) (l : List (String × List K)) (h : multiComposition ps = .ok l) :
    (l.map Prod.fst).Nodup ∧ (∀ a, a ∈ l.map Prod.fst ↔ ∃ p ∈ ps, ∃ w, p.Holds a w ∧ 1 / 10 ^ 5 < |w|) ∧
    ∀ a vs, (a, vs) ∈ l → List.Forall₂ (fun p v => Shown p a v) ps vs := by
  unfold multiComposition at h
  cases hc : ps.mapM CPtf.composition with
  | error e => rw [hc] at h; cases h
  | ok cols =>
    rw [hc] at h
    cases h
    have h2 := mapM_forall2 hc
    have hperm : List.Forall₂ (fun p c => List.Perm c (CPtf.rows p)) ps cols := by
      refine h2.imp fun p c hpc => ?_
      unfold CPtf.composition at hpc
      by_cases hn : p.name = "asset"
      · rw [if_pos hn] at hpc; cases hpc
      · rw [if_neg hn] at hpc
        cases hpc
        exact List.mergeSort_perm _ _
    have hfst : (concatColumns cols).map Prod.fst = (cols.flatMap fun c => c.map Prod.fst).dedup := by
      unfold concatColumns
      rw [List.map_map]
      exact List.map_id _
    refine ⟨?_, ?_, ?_⟩
    · rw [hfst]; exact List.nodup_dedup _
    · intro a
      rw [hfst, List.mem_dedup, List.mem_flatMap]
      clear hc h2 hfst hps
      induction hperm with
      | nil => simp
      | @cons p c ps cols hpc _ ih =>
        have e : a ∈ c.map Prod.fst ↔ ∃ w, p.Holds a w ∧ 1 / 10 ^ 5 < |w| := by
          constructor
          · intro hm
            obtain ⟨⟨x, w⟩, hxw, rfl⟩ := List.mem_map.1 hm
            exact ⟨w, (mem_rows_iff p x w).1 (hpc.mem_iff.1 hxw)⟩
          · rintro ⟨w, hw⟩
            exact List.mem_map.2 ⟨(a, w), hpc.mem_iff.2 ((mem_rows_iff p a w).2 hw), rfl⟩
        simp only [List.mem_cons, exists_eq_or_imp, e]
        rw [ih]
    · intro a vs hm
      unfold concatColumns at hm
      obtain ⟨x, -, hx⟩ := List.mem_map.1 hm
      cases hx
      clear hm hc h2 hfst
      induction hperm with
      | nil => exact List.Forall₂.nil
      | @cons p c ps cols hpc _ ih =>
        exact List.Forall₂.cons (cell_shown (hps p List.mem_cons_self) hpc a) (ih fun q hq => hps q (List.mem_cons_of_mem _ hq))

/-- **C87** (negated). A multi-period portfolio or a population has no composition exactly if one of its portfolios has the name "asset". -/
theorem C87_multi_composition_fails (ps : List (CPtf K O)) : (∃ e, multiComposition ps = .error e) ↔ ∃ p ∈ ps, p.name = "asset" := by
  have h : (∃ e, ps.mapM CPtf.composition = .error e) ↔ ∃ p ∈ ps, p.name = "asset" := by
    induction ps with
    | nil => simp [pure, Except.pure]
    | cons p ps ih =>
      rw [List.mapM_cons]
      simp only [List.mem_cons, exists_eq_or_imp]
      rw [← ih, ← C87_composition_fails]
      cases h1 : p.composition with
      | error e => simp [bind, Except.bind]
      | ok c =>
        cases h2 : ps.mapM CPtf.composition with
        | error e => simp [bind, Except.bind]
        | ok r => simp [bind, Except.bind, pure, Except.pure]
  rw [← h]
  unfold multiComposition
  cases ps.mapM CPtf.composition <;> simp [Except.map]

/-- **C87.** `weights_per_observation` has one row for each observation of each portfolio, in increasing order, with the weights of that portfolio; its columns are the assets
that one of the portfolios is invested in. -/
theorem C87_weights_per_observation (ps : List (CPtf K O)) (hps : ∀ p ∈ ps, p.Wf) :
    let T := weightsPerObservation ps
    T.1.Nodup ∧ (∀ a, a ∈ T.1 ↔ ∃ p ∈ ps, ∃ w, p.Holds a w ∧ 1 / 10 ^ 5 < |w|) ∧
    (T.2.map Prod.fst).Perm (ps.flatMap CPtf.obs) ∧ T.2.Pairwise (fun r s => r.1 ≤ s.1) ∧
    (∀ p ∈ ps, ∀ o ∈ p.obs, ∃ vs, (o, vs) ∈ T.2 ∧ List.Forall₂ (fun a v => Shown p a v) T.1 vs) ∧
    ∀ o vs, (o, vs) ∈ T.2 → ∃ p ∈ ps, o ∈ p.obs ∧ List.Forall₂ (fun a v => Shown p a v) T.1 vs := by
  intro T
  set columns := (ps.flatMap fun p => p.rows.map Prod.fst).dedup with hcol
  set body := ps.flatMap fun p => p.obs.map fun o => (o, columns.map fun a => cell p.rows a) with hbody
  have hT1 : T.1 = columns := rfl
  have hT2 : T.2 = body.mergeSort fun a b => decide (a.1 ≤ b.1) := rfl
  have hperm : T.2.Perm body := List.mergeSort_perm _ _
  have hrow : ∀ p ∈ ps, List.Forall₂ (fun a v => Shown p a v) columns (columns.map fun a => cell p.rows a) := by
    intro p hp
    rw [List.forall₂_map_right_iff, List.forall₂_same]
    exact fun a _ => cell_shown (hps p hp) (List.Perm.refl _) a
  have hmem : ∀ r, r ∈ body ↔ ∃ p ∈ ps, ∃ o ∈ p.obs, r = (o, columns.map fun a => cell p.rows a) := by
    intro r
    simp only [hbody, List.mem_flatMap, List.mem_map]
    constructor
    · rintro ⟨p, hp, o, ho, rfl⟩; exact ⟨p, hp, o, ho, rfl⟩
    · rintro ⟨p, hp, o, ho, rfl⟩; exact ⟨p, hp, o, ho, rfl⟩
  refine ⟨?_, ?_, ?_, ?_, ?_, ?_⟩
  · rw [hT1]; exact List.nodup_dedup _
  · intro a
    rw [hT1, hcol, List.mem_dedup, List.mem_flatMap]
    constructor
    · rintro ⟨p, hp, hm⟩
      obtain ⟨⟨x, w⟩, hxw, rfl⟩ := List.mem_map.1 hm
      exact ⟨p, hp, w, (mem_rows_iff p x w).1 hxw⟩
    · rintro ⟨p, hp, w, hw⟩
      exact ⟨p, hp, List.mem_map.2 ⟨(a, w), (mem_rows_iff p a w).2 hw, rfl⟩⟩
  · refine (hperm.map Prod.fst).trans ?_
    have : body.map Prod.fst = ps.flatMap CPtf.obs := by
      rw [hbody, List.map_flatMap]
      congr 1
      funext p
      rw [List.map_map]
      exact List.map_id _
    rw [this]
  · rw [hT2]
    have := List.pairwise_mergeSort (le := fun a b : O × List K => decide (a.1 ≤ b.1)) (by
      intro a b c h1 h2
      simp only [decide_eq_true_eq] at *
      exact h1.trans h2) (by
      intro a b
      simp only [Bool.or_eq_true, decide_eq_true_eq]
      exact le_total _ _) body
    exact this.imp fun h => by simpa using h
  · intro p hp o ho
    exact ⟨_, hperm.mem_iff.2 ((hmem _).2 ⟨p, hp, o, ho, rfl⟩), hrow p hp⟩
  · intro o vs hm
    obtain ⟨p, hp, o', ho, e⟩ := (hmem _).1 (hperm.mem_iff.1 hm)
    cases e
    exact ⟨p, hp, ho, hrow p hp⟩

/-- **C87.** `get_weight` is the weight of the asset of that name, and an `IndexError` exactly for other names. -/
theorem C87_get_weight (p : CPtf K O) (hp : p.Wf) (a : String) :
    (∀ w, p.getWeight a = .ok w ↔ p.Holds a w) ∧ ((∃ e, p.getWeight a = .error e) ↔ a ∉ p.assets) := by
  have hn : ((p.assets.zip p.weights).map Prod.fst).Nodup := by
    rw [List.map_fst_zip (le_of_eq hp.2.symm)]
    exact hp.1
  unfold CPtf.getWeight
  cases hf : (p.assets.zip p.weights).find? fun r => r.1 == a with
  | none =>
    rw [List.find?_eq_none] at hf
    have hno : a ∉ p.assets := by
      intro ha
      rw [← List.map_fst_zip (l₁ := p.assets) (l₂ := p.weights) (le_of_eq hp.2.symm)] at ha
      obtain ⟨r, hr, e⟩ := List.mem_map.1 ha
      exact hf r hr (by simpa using e)
    simp only [reduceCtorEq, false_iff]
    refine ⟨fun w hw => ?_, ⟨fun _ => hno, fun _ => ⟨_, rfl⟩⟩⟩
    obtain ⟨i, h1, _⟩ := hw
    exact hno (List.mem_of_getElem? h1)
  | some r =>
    have hr := List.mem_of_find?_eq_some hf
    have ha : r.1 = a := by simpa using List.find?_some hf
    obtain ⟨x, v⟩ := r
    simp only at ha
    subst ha
    have hv := (mem_zip_iff p x v).1 hr
    refine ⟨fun w => ?_, ?_⟩
    · simp only [Except.ok.injEq]
      constructor
      · rintro rfl; exact hv
      · intro hw
        have h1 := lookup_of_mem hn hr
        have h2 := lookup_of_mem hn ((mem_zip_iff p x w).2 hw)
        rw [h1] at h2
        exact Option.some_inj.1 h2
    · simp only [reduceCtorEq, exists_false, false_iff, not_not]
      obtain ⟨i, h1, _⟩ := hv
      exact List.mem_of_getElem? h1

/-! ### returns from the weights -/

theorem sum_indicator {columns : List String} (hn : columns.Nodup) {a : String} (ha : a ∈ columns) (v : K) :
    (columns.map fun c => if c = a then v else 0).sum = v := by
  induction columns with
  | nil => simp at ha
  | cons c cs ih =>
    rw [List.nodup_cons] at hn
    rw [List.map_cons, List.sum_cons]
    by_cases hc : c = a
    · subst hc
      have : (cs.map fun x => if x = c then v else 0) = cs.map fun _ => (0 : K) :=
        by
        refine List.map_congr_left fun x hx => if_neg ?_
        intro (e : x = c)
        exact hn.1 (e ▸ hx)
      rw [this]
      simp
    · have ha' : a ∈ cs := by
        rcases List.mem_cons.1 ha with e | h
        · exact absurd e.symm hc
        · exact h
      rw [if_neg hc, ih hn.2 ha', zero_add]

theorem sum_cells {rows : List (String × K)} (hr : (rows.map Prod.fst).Nodup) {columns : List String} (hn : columns.Nodup)
    (hsub : ∀ a ∈ rows.map Prod.fst, a ∈ columns) (X : String → K) :
    (columns.map fun c => cell rows c * X c).sum = (rows.map fun r => r.2 * X r.1).sum := by
  induction rows with
  | nil => simp [cell]
  | cons r rest ih =>
    obtain ⟨a, w⟩ := r
    rw [List.map_cons, List.nodup_cons] at hr
    have h1 : ∀ c, cell ((a, w) :: rest) c * X c = (if c = a then w * X a else 0) + cell rest c * X c := by
      intro c
      by_cases hc : c = a
      · subst hc
        rw [if_pos rfl, cell_of_not_mem hr.1]
        simp [cell, List.lookup]
      · rw [if_neg hc, zero_add]
        have : (c == a) = false := by simpa using hc
        simp [cell, List.lookup, this]
    simp only [h1]
    rw [List.sum_map_add, sum_indicator hn (hsub a (by simp)), ih hr.2 fun x hx => hsub x (by rw [List.map_cons]; exact List.mem_cons_of_mem _ hx)]
    simp

variable [IsStrictOrderedRing K]

theorem sum_dropped (l : List (String × K)) (X : String → K) :
    |((l.filter fun r => decide (zeroThreshold < |r.2|)).map fun r => r.2 * X r.1).sum - (l.map fun r => r.2 * X r.1).sum|
      ≤ zeroThreshold * (l.map fun r => |X r.1|).sum := by
  have hz : (0 : K) ≤ zeroThreshold := by unfold zeroThreshold; positivity
  induction l with
  | nil => simp
  | cons r l ih =>
    simp only [List.map_cons, List.sum_cons, mul_add]
    by_cases h : zeroThreshold < |r.2|
    · rw [List.filter_cons_of_pos (by simpa using h), List.map_cons, List.sum_cons, add_sub_add_left_eq_sub]
      exact ih.trans (le_add_of_nonneg_left (mul_nonneg hz (abs_nonneg _)))
    · rw [List.filter_cons_of_neg (by simpa using h)]
      have h2 : |r.2 * X r.1| ≤ zeroThreshold * |X r.1| := by
        rw [abs_mul]
        exact mul_le_mul_of_nonneg_right (not_lt.1 h) (abs_nonneg _)
      rw [← sub_sub, sub_right_comm]
      refine (abs_sub _ _).trans ?_
      rw [add_comm (zeroThreshold * |X r.1|)]
      exact add_le_add ih h2

/-- **C87.** The weights of an observation give back the return of the portfolio before costs: with the returns `X` of the assets at that observation, the sum over the columns of
weight times return is the sum over all assets, up to 0.001% of the absolute returns; and exactly so if every weight is 0 or above 0.001%. -/
theorem C87_weights_give_returns (ps : List (CPtf K O)) (hps : ∀ p ∈ ps, p.Wf) (o : O) (vs : List K) (h : (o, vs) ∈ (weightsPerObservation ps).2) (X : String → K) :
    ∃ p ∈ ps, o ∈ p.obs ∧
      |(((weightsPerObservation ps).1.zip vs).map fun r => r.2 * X r.1).sum - ((p.assets.zip p.weights).map fun r => r.2 * X r.1).sum|
        ≤ 1 / 10 ^ 5 * (p.assets.map fun a => |X a|).sum ∧
      ((∀ w ∈ p.weights, w = 0 ∨ 1 / 10 ^ 5 < |w|) →
        (((weightsPerObservation ps).1.zip vs).map fun r => r.2 * X r.1).sum = ((p.assets.zip p.weights).map fun r => r.2 * X r.1).sum) := by
  set columns := (ps.flatMap fun p => p.rows.map Prod.fst).dedup with hcol
  have hperm : (weightsPerObservation ps).2.Perm (ps.flatMap fun p => p.obs.map fun o => (o, columns.map fun a => cell p.rows a)) := List.mergeSort_perm _ _
  obtain ⟨p, hp, hm⟩ := List.mem_flatMap.1 (hperm.mem_iff.1 h)
  obtain ⟨o', ho, e⟩ := List.mem_map.1 hm
  cases e
  have hcols : (weightsPerObservation ps).1 = columns := rfl
  have hsum : (((weightsPerObservation ps).1.zip (columns.map fun a => cell p.rows a)).map fun r => r.2 * X r.1).sum = (p.rows.map fun r => r.2 * X r.1).sum := by
    have hz : ∀ cs : List String, ((cs.zip (cs.map fun a => cell p.rows a)).map fun r => r.2 * X r.1) = cs.map fun c => cell p.rows c * X c := by
      intro cs
      induction cs with
      | nil => rfl
      | cons c cs ih => simp only [List.map_cons, List.zip_cons_cons, ih]
    rw [hcols, hz]
    refine sum_cells (rows_keys_nodup (hps p hp)) (List.nodup_dedup _) (fun a ha => ?_) X
    · rw [List.mem_dedup, List.mem_flatMap]
      exact ⟨p, hp, ha⟩
  have habs : ((p.assets.zip p.weights).map fun r => |X r.1|) = p.assets.map fun a => |X a| := by
    have : ((p.assets.zip p.weights).map fun r => |X r.1|) = ((p.assets.zip p.weights).map Prod.fst).map fun a => |X a| := by
      rw [List.map_map]; rfl
    rw [this, List.map_fst_zip (le_of_eq (hps p hp).2.symm)]
  refine ⟨p, hp, ho, ?_, fun hw => ?_⟩
  · rw [hsum, ← habs]
    exact sum_dropped _ X
  · rw [hsum]
    unfold CPtf.rows
    have hw' : ∀ r ∈ p.assets.zip p.weights, r.2 = 0 ∨ 1 / 10 ^ 5 < |r.2| := fun r hr => hw r.2 (List.of_mem_zip hr).2
    generalize p.assets.zip p.weights = l at hw'
    induction l with
    | nil => rfl
    | cons r l ih =>
      have ih' := ih fun s hs => hw' s (List.mem_cons_of_mem _ hs)
      rcases hw' r List.mem_cons_self with h0 | h1
      · by_cases h2 : zeroThreshold < |r.2|
        · rw [List.filter_cons_of_pos (by simpa using h2), List.map_cons, List.map_cons, List.sum_cons, List.sum_cons, ih']
        · rw [List.filter_cons_of_neg (by simpa using h2), List.map_cons, List.sum_cons, h0, zero_mul, zero_add, ih']
      · rw [List.filter_cons_of_pos (by simpa [zeroThreshold] using h1), List.map_cons, List.map_cons, List.sum_cons, List.sum_cons, ih']

/-! ### a concrete case -/

def demoA : CPtf ℚ Nat := ⟨"a", ["x", "y", "z"], [1/4, 3/4, 1/1000000], [1, 2]⟩
def demoB : CPtf ℚ Nat := ⟨"b", ["z", "x"], [-1/2, 3/2], [3]⟩

theorem demoA_wf : demoA.Wf := ⟨by decide, rfl⟩
theorem demoB_wf : demoB.Wf := ⟨by decide, rfl⟩

/-- The hypotheses are met, the small weight is dropped, and the columns are those of both portfolios. -/
example : (∀ p ∈ [demoA, demoB], p.Wf) ∧ demoA.rows = [("x", 1/4), ("y", 3/4)] ∧ cell demoA.rows "z" = 0 ∧ cell demoB.rows "z" = -1/2 ∧
    (weightsPerObservation [demoA, demoB]).1 = ["y", "z", "x"] ∧ (demoB.getWeight "z").toOption = some (-1/2) ∧ (demoB.getWeight "y").toOption = none := by
  refine ⟨?_, by decide +kernel, by decide +kernel, by decide +kernel, by decide +kernel, by decide +kernel, by decide +kernel⟩
  intro p hp
  rcases List.mem_cons.1 hp with rfl | hp
  · exact demoA_wf
  · rw [List.mem_singleton.1 hp]; exact demoB_wf

end Skfolio.Portfolio
