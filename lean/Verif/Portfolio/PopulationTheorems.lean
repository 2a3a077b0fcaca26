import Verif.Portfolio.PopulationModel
import Verif.Portfolio.ArithTheorems
import Mathlib.Data.List.Sort

/-!
# Population: the claims
-/

set_option autoImplicit false

namespace Skfolio.Portfolio.Pop

open Skfolio.Portfolio.Arith

/-! ### C27: only portfolios -/

/-- A portfolio or multi-period portfolio. -/
def IsPortfolio (x : Item) : Prop := (∃ id, x = .single id) ∨ ∃ id inner, x = .multi id inner

/-- All members of all populations are portfolios. -/
def AllPortfolios (w : List (List Item)) : Prop := ∀ l ∈ w, ∀ x ∈ l, IsPortfolio x

/-- The operations covered: not `+=`, and a multi-period portfolio assigned to a slice holds portfolios only. -/
def Op.Checked : Op → Prop
  | .iadd _ _ => False
  | .setSlice _ _ _ (.multi _ inner) => ∀ e ∈ inner, ∃ id, e = .ptf id
  | _ => True

theorem valid_iff (x : Item) : valid x = true ↔ IsPortfolio x := by
  cases x <;> simp [valid, IsPortfolio]

theorem validPrefix_mem {items : List Item} {x : Item} (h : x ∈ (validPrefix items).1) : IsPortfolio x := by
  induction items with
  | nil => simp [validPrefix] at h
  | cons a items ih =>
    simp only [validPrefix] at h
    split at h
    · rename_i hv
      rcases List.mem_cons.mp h with rfl | h
      · exact (valid_iff _).mp hv
      · exact ih h
    · simp at h

theorem init_mem {items r : List Item} (h : init items = .ok r) : ∀ x ∈ r, IsPortfolio x := by
  unfold init at h
  split at h
  · simp only [Except.ok.injEq] at h
    subst h
    exact fun x => validPrefix_mem
  · simp at h

theorem spliceAt_mem {l new : List Item} {a b : ℤ} {x : Item} (h : x ∈ spliceAt l a b new) : x ∈ l ∨ x ∈ new := by
  simp only [spliceAt, List.mem_append] at h
  rcases h with (h | h) | h
  · exact .inl (List.mem_of_mem_take h)
  · exact .inr h
  · exact .inl (List.mem_of_mem_drop h)

theorem put_all {w : List (List Item)} (hw : AllPortfolios w) (i : ℕ) {l : List Item} (hl : ∀ x ∈ l, IsPortfolio x) :
    AllPortfolios (put w i l) := by
  intro l' hl' x hx
  rcases List.mem_or_eq_of_mem_set hl' with h | rfl
  · exact hw l' h x hx
  · exact hl x hx

theorem add_all {w : List (List Item)} (hw : AllPortfolios w) {l : List Item} (hl : ∀ x ∈ l, IsPortfolio x) :
    AllPortfolios (w ++ [l]) := by
  intro l' hl' x hx
  rcases List.mem_append.mp hl' with h | h
  · exact hw l' h x hx
  · rw [List.mem_singleton.mp h] at hx; exact hl x hx

theorem getD_all {w : List (List Item)} (hw : AllPortfolios w) (j : ℕ) : ∀ x ∈ w.getD j [], IsPortfolio x := by
  intro x hx
  rw [List.getD_eq_getElem?_getD] at hx
  cases h : w[j]? with
  | none => simp [h] at hx
  | some l => simp only [h, Option.getD_some] at hx; exact hw l (List.mem_of_getElem? h) x hx

theorem stepAt_all {w : List (List Item)} (hw : AllPortfolios w) (i : ℕ) (l : List Item) (hl : ∀ x ∈ l, IsPortfolio x)
    (op : Op) (hop : op.Checked) : AllPortfolios (stepAt w i l op).1 := by
  cases op with
  | new items => exact hw
  | append k x =>
    simp only [stepAt]
    split
    · rename_i hv
      refine put_all hw i fun y hy => ?_
      rcases List.mem_append.mp hy with h | h
      · exact hl y h
      · rw [List.mem_singleton.mp h]; exact (valid_iff _).mp hv
    · exact hw
  | insert k key x =>
    simp only [stepAt]
    split
    · rename_i hv
      refine put_all hw i fun y hy => ?_
      rcases spliceAt_mem hy with h | h
      · exact hl y h
      · rw [List.mem_singleton.mp h]; exact (valid_iff _).mp hv
    · exact hw
  | extend k items =>
    refine put_all hw i fun y hy => ?_
    rcases List.mem_append.mp hy with h | h
    · exact hl y h
    · exact validPrefix_mem h
  | extendPop k j =>
    refine put_all hw i fun y hy => ?_
    rcases List.mem_append.mp hy with h | h
    · exact hl y h
    · exact getD_all hw j y h
  | setItem k key x =>
    simp only [stepAt]
    split
    · rename_i hv
      split
      · exact hw
      · refine put_all hw i fun y hy => ?_
        rcases List.mem_or_eq_of_mem_set hy with h | rfl
        · exact hl y h
        · exact (valid_iff _).mp hv
    · exact hw
  | setSlice k a b x =>
    simp only [stepAt]
    split
    · exact hw
    · exact hw
    · rename_i id inner
      refine put_all hw i fun y hy => ?_
      rcases spliceAt_mem hy with h | h
      · exact hl y h
      · obtain ⟨e, he, rfl⟩ := List.mem_map.mp h
        obtain ⟨id', rfl⟩ := hop e he
        exact .inl ⟨id', rfl⟩
  | getSlice k a b =>
    simp only [stepAt]
    split
    · rename_i r hr; exact add_all hw (init_mem hr)
    · exact hw
  | add k j =>
    simp only [stepAt]
    split
    · rename_i r hr; exact add_all hw (init_mem hr)
    · exact hw
  | addOther k => exact hw
  | delItem k key =>
    simp only [stepAt]
    split
    · exact hw
    · exact put_all hw i fun y hy => hl y (List.mem_of_mem_eraseIdx hy)
  | delSlice k a b =>
    refine put_all hw i fun y hy => ?_
    rcases spliceAt_mem hy with h | h
    · exact hl y h
    · simp at h
  | reverse k => exact put_all hw i fun y hy => hl y (List.mem_reverse.mp hy)
  | clear k => exact put_all hw i (by simp)
  | imul k n =>
    refine put_all hw i fun y hy => ?_
    obtain ⟨l', h1, h2⟩ := List.mem_flatten.mp hy
    rw [(List.mem_replicate.mp h1).2] at h2
    exact hl y h2
  | iadd k items => exact hop.elim

theorem step_all {w : List (List Item)} (hw : AllPortfolios w) (op : Op) (hop : op.Checked) :
    AllPortfolios (step w op).1 := by
  have key : AllPortfolios (match w[op.target]? with
      | none => ((w, none) : List (List Item) × Option Err)
      | some l => stepAt w op.target l op).1 := by
    split
    · exact hw
    · rename_i l hl
      exact stepAt_all hw _ l (hw l (List.mem_of_getElem? hl)) op hop
  cases op with
  | new items =>
    simp only [step]
    split
    · rename_i r hr; exact add_all hw (init_mem hr)
    · exact hw
  | _ => exact key

/-- C27: after any history of constructions, appends, insertions, extensions, item and slice assignments, slicings, concatenations and
the other list operations, except `+=`, every member of every population is a portfolio.  (Missing: `+=`, see
`C27_iadd_bypasses_validation`, and a slice assigned a multi-period portfolio that itself holds something else.) -/
theorem C27_only_portfolios_partial (ops : List Op) (hops : ∀ op ∈ ops, op.Checked) : AllPortfolios (run ops) := by
  have : ∀ w, AllPortfolios w → AllPortfolios (ops.foldl (fun w op => (step w op).1) w) := by
    induction ops with
    | nil => exact fun w h => h
    | cons op ops ih => exact fun w h => ih (fun o ho => hops o (by simp [ho])) _ (step_all h op (hops op (by simp)))
  exact this [] (by simp [AllPortfolios])

/-- C27, finding: `population += [object]` accepts anything, since `list.__iadd__` is not overridden. -/
theorem C27_iadd_bypasses_validation :
    ¬ AllPortfolios (run [.new [.single 0], .iadd 0 [.other 1]]) ∧
    (step (run [.new [.single 0]]) (.iadd 0 [.other 1])).2 = none := by
  refine ⟨fun h => ?_, by decide⟩
  have := h [.single 0, .other 1] (by decide) (.other 1) (by decide)
  simp [IsPortfolio] at this

theorem validPrefix_eq (items : List Item) :
    validPrefix items = (items.takeWhile valid, items.all valid) := by
  induction items with
  | nil => rfl
  | cons a items ih =>
    simp only [validPrefix, ih]
    split
    · rename_i h; simp [h]
    · rename_i h; simp [Bool.not_eq_true _ ▸ h]

/-- C27: operations that raise change no population; a failing `extend` is the exception: the items before the offending one stay. -/
theorem C27_raising (w : List (List Item)) (op : Op) (hr : (step w op).2 ≠ none) :
    (step w op).1 = w ∨ ∃ i items l, op = .extend i items ∧ w[i]? = some l ∧
      (step w op).1 = w.set i (l ++ items.takeWhile valid) := by
  have key : ∀ l, w[op.target]? = some l → (stepAt w op.target l op).2 ≠ none → (stepAt w op.target l op).1 = w ∨
      ∃ i items l', op = .extend i items ∧ w[i]? = some l' ∧
        (stepAt w op.target l op).1 = w.set i (l' ++ items.takeWhile valid) := by
    intro l hl hr
    cases op with
    | extend i items => exact .inr ⟨i, items, l, rfl, hl, by simp [stepAt, validPrefix_eq, put]; rfl⟩
    | new | addOther => exact .inl rfl
    | extendPop | delSlice | reverse | clear | imul | iadd => simp [stepAt] at hr
    | append | insert =>
      left
      simp only [stepAt] at hr ⊢
      split
      · rename_i h; rw [if_pos h] at hr; simp at hr
      · rfl
    | setItem i key x =>
      left
      simp only [stepAt] at hr ⊢
      split
      · rename_i h
        rw [if_pos h] at hr
        split
        · rfl
        · rename_i h2; rw [h2] at hr; simp at hr
      · rfl
    | setSlice i a b x =>
      left
      cases x <;> simp [stepAt] at hr ⊢
    | getSlice i a b =>
      left
      simp only [stepAt] at hr ⊢
      split
      · rename_i h; rw [h] at hr; simp at hr
      · rfl
    | add i j =>
      left
      simp only [stepAt] at hr ⊢
      split
      · rename_i h; rw [h] at hr; simp at hr
      · rfl
    | delItem i key =>
      left
      simp only [stepAt] at hr ⊢
      split
      · rfl
      · rename_i h; rw [h] at hr; simp at hr
  have key2 : (match w[op.target]? with
      | none => ((w, none) : List (List Item) × Option Err)
      | some l => stepAt w op.target l op).2 ≠ none → (match w[op.target]? with
      | none => ((w, none) : List (List Item) × Option Err)
      | some l => stepAt w op.target l op).1 = w ∨ ∃ i items l, op = .extend i items ∧ w[i]? = some l ∧
      (match w[op.target]? with
      | none => ((w, none) : List (List Item) × Option Err)
      | some l => stepAt w op.target l op).1 = w.set i (l ++ items.takeWhile valid) := by
    cases h : w[op.target]? with
    | none => simp
    | some l => simpa only [h] using key l h
  cases op with
  | new items =>
    left
    simp only [step] at hr ⊢
    split
    · rename_i h; rw [h] at hr; simp at hr
    · rfl
  | _ => exact key2 hr

/-- C27: what the operations do on portfolios: construction copies the list, `append` and `insert` add the portfolio at the
end or before position `k`, item assignment replaces, `+` concatenates, `extend` appends all, slices return the items between the bounds. -/
theorem C27_effects (w : List (List Item)) (i j : ℕ) (l m : List Item) (hl : w[i]? = some l) (hm : w[j]? = some m)
    (x : Item) (hx : IsPortfolio x) (k k' : ℕ) (hk : k < l.length) (items : List Item) (hit : ∀ y ∈ items, IsPortfolio y)
    (hvl : ∀ y ∈ l, IsPortfolio y) (hvm : ∀ y ∈ m, IsPortfolio y) :
    step w (.new items) = (w ++ [items], none) ∧
    step w (.append i x) = (w.set i (l ++ [x]), none) ∧
    step w (.insert i k x) = (w.set i (l.take k ++ x :: l.drop k), none) ∧
    step w (.setItem i k x) = (w.set i (l.set k x), none) ∧
    step w (.setItem i (-(k : ℤ) - 1) x) = (w.set i (l.set (l.length - 1 - k) x), none) ∧
    step w (.extend i items) = (w.set i (l ++ items), none) ∧
    step w (.extendPop i j) = (w.set i (l ++ m), none) ∧
    step w (.add i j) = (w ++ [l ++ m], none) ∧
    step w (.getSlice i k k') = (w ++ [(l.take k').drop k], none) := by
  have hall : ∀ L : List Item, (∀ y ∈ L, IsPortfolio y) → validPrefix L = (L, true) := by
    intro L hL
    rw [validPrefix_eq, Prod.mk.injEq]
    refine ⟨?_, List.all_eq_true.mpr fun y hy => (valid_iff y).mpr (hL y hy)⟩
    induction L with
    | nil => rfl
    | cons a L ih =>
      rw [List.takeWhile_cons_of_pos ((valid_iff a).mpr (hL a (by simp))), ih fun y hy => hL y (by simp [hy])]
  have hinit : ∀ L : List Item, (∀ y ∈ L, IsPortfolio y) → init L = .ok L := by
    intro L hL
    unfold init
    rw [hall L hL]
    rfl
  have hv : valid x = true := (valid_iff x).mpr hx
  have hidx : index l.length (k : ℤ) = some k := by
    unfold index
    have h0 : ¬ (k : ℤ) < 0 := by omega
    simp only [h0, if_false]
    rw [if_pos (by omega)]
    simp
  have hidx2 : index l.length (-(k : ℤ) - 1) = some (l.length - 1 - k) := by
    unfold index
    have h0 : (-(k : ℤ) - 1) < 0 := by omega
    simp only [h0, if_true]
    rw [if_pos (by omega)]
    congr 1
    omega
  have hcl : ∀ n : ℕ, clamp l.length (n : ℤ) = min n l.length := by
    intro n
    unfold clamp
    rw [if_neg (by omega)]
    simp
  have hg : w.getD j [] = m := by rw [List.getD_eq_getElem?_getD, hm]; rfl
  have hlm : ∀ y ∈ l ++ m, IsPortfolio y := by
    intro y hy
    rcases List.mem_append.mp hy with h | h
    · exact hvl y h
    · exact hvm y h
  refine ⟨?_, ?_, ?_, ?_, ?_, ?_, ?_, ?_, ?_⟩
  · simp only [step, hinit items hit]
  · simp only [step, Op.target, hl, stepAt, hv, if_true, put]
  · simp only [step, Op.target, hl, stepAt, hv, if_true, put, spliceAt, hcl, max_self]
    rw [min_eq_left (by omega)]
    simp
  · simp only [step, Op.target, hl, stepAt, hv, if_true, hidx, put]
  · simp only [step, Op.target, hl, stepAt, hv, if_true, hidx2, put]
  · simp only [step, Op.target, hl, stepAt, hall items hit, if_true, put]
  · simp only [step, Op.target, hl, stepAt, hg, put]
  · simp only [step, Op.target, hl, stepAt, hg, hinit _ hlm]
  · have hs : slice l k k' = (l.take k').drop k := by
      unfold slice
      rw [hcl, hcl, min_eq_left (b := l.length) (a := k) (by omega), List.drop_take]
      by_cases h : k' ≤ l.length
      · rw [min_eq_left h]
      · rw [min_eq_right (by omega), List.take_of_length_le (by simp), List.take_of_length_le (by simp; omega)]
    have hvs : ∀ y ∈ slice l k k', IsPortfolio y := by
      rw [hs]
      exact fun y hy => hvl y (List.mem_of_mem_take (List.mem_of_mem_drop hy))
    simp only [step, Op.target, hl, stepAt, hinit _ hvs]
    rw [hs]

/-- A history meeting the hypotheses, with a failing operation in the middle. -/
example : run [.new [.single 0, .multi 1 [.ptf 7, .ptf 8]], .append 0 (.other 3), .insert 0 1 (.single 4), .add 0 0,
    .extend 0 [.single 5, .other 6, .single 9], .setSlice 1 0 1 (.multi 1 [.ptf 7, .ptf 8])] =
    [[.single 0, .single 4, .multi 1 [.ptf 7, .ptf 8], .single 5],
     [.single 7, .single 8, .single 4, .multi 1 [.ptf 7, .ptf 8], .single 0, .single 4, .multi 1 [.ptf 7, .ptf 8]]] := by
  decide

/-! ### C28: ordering by a measure -/

section order

variable {α K : Type} [Field K] [LinearOrder K] [FloorRing K] [IsStrictOrderedRing K]

omit [Field K] [FloorRing K] [IsStrictOrderedRing K] in
/-- C28: `sort_measure` returns the same portfolios, ordered by the measure (descending with `reverse`); portfolios with equal
measures keep their order. -/
theorem C28_sort_measure (l : List α) (m : α → K) (reverse : Bool) :
    (sortMeasure l m reverse).Perm l ∧
    (sortMeasure l m reverse).Pairwise (fun a b => if reverse then m b ≤ m a else m a ≤ m b) ∧
    ∀ c : List α, c.Sublist l → (∀ a ∈ c, ∀ b ∈ c, m a = m b) → c.Sublist (sortMeasure l m reverse) := by
  have hst : ∀ (le : α → α → Bool), (∀ a b, m a = m b → le a b = true) → ∀ c : List α, (∀ a ∈ c, ∀ b ∈ c, m a = m b) →
      c.Pairwise fun a b => le a b = true := by
    intro le hle c hc
    rw [List.pairwise_iff_forall_sublist]
    intro a b hs
    exact hle a b (hc a (hs.subset (by simp)) b (hs.subset (by simp)))
  cases reverse with
  | false =>
    have htr : ∀ a b c : α, decide (m a ≤ m b) = true → decide (m b ≤ m c) = true → decide (m a ≤ m c) = true := by
      intro a b c h1 h2; simp only [decide_eq_true_eq] at *; exact h1.trans h2
    have hto : ∀ a b : α, (decide (m a ≤ m b) || decide (m b ≤ m a)) = true := by
      intro a b; simp only [Bool.or_eq_true, decide_eq_true_eq]; exact le_total _ _
    refine ⟨List.mergeSort_perm _ _, ?_, fun c hc he => ?_⟩
    · have := List.pairwise_mergeSort (le := fun a b => decide (m a ≤ m b)) htr hto l
      simpa [sortMeasure] using this
    · exact List.sublist_mergeSort (le := fun a b => decide (m a ≤ m b)) htr hto
        (hst _ (fun a b h => by simp [h]) c he) hc
  | true =>
    have htr : ∀ a b c : α, decide (m b ≤ m a) = true → decide (m c ≤ m b) = true → decide (m c ≤ m a) = true := by
      intro a b c h1 h2; simp only [decide_eq_true_eq] at *; exact h2.trans h1
    have hto : ∀ a b : α, (decide (m b ≤ m a) || decide (m a ≤ m b)) = true := by
      intro a b; simp only [Bool.or_eq_true, decide_eq_true_eq]; exact le_total _ _
    refine ⟨List.mergeSort_perm _ _, ?_, fun c hc he => ?_⟩
    · have := List.pairwise_mergeSort (le := fun a b => decide (m b ≤ m a)) htr hto l
      simpa [sortMeasure] using this
    · exact List.sublist_mergeSort (le := fun a b => decide (m b ≤ m a)) htr hto
        (hst _ (fun a b h => by simp [h]) c he) hc

/-- `p` is a member with at most `k` members strictly below it and more than `k` members not above it. -/
def IsOrderStatistic (l : List α) (m : α → K) (k : ℕ) (p : α) : Prop :=
  p ∈ l ∧ l.countP (fun x => decide (m x < m p)) ≤ k ∧ k < l.countP (fun x => decide (m x ≤ m p))

omit [Field K] [FloorRing K] [IsStrictOrderedRing K] in
theorem orderStatistic_of_sorted {l s : List α} (m : α → K) (hp : s.Perm l) (hs : s.Pairwise fun a b => m a ≤ m b)
    (k : ℕ) (hk : k < s.length) : IsOrderStatistic l m k s[k] := by
  refine ⟨hp.subset (List.getElem_mem hk), ?_, ?_⟩
  · have hsplit : ∀ f : α → Bool, s.countP f = (s.take k).countP f + (s.drop k).countP f := by
      intro f; rw [← List.countP_append, List.take_append_drop]
    rw [← hp.countP_eq, hsplit]
    have h0 : (s.drop k).countP (fun x => decide (m x < m s[k])) = 0 := by
      rw [List.countP_eq_zero]
      intro x hx
      obtain ⟨j, hj, rfl⟩ := List.getElem_of_mem hx
      simp only [List.getElem_drop, decide_eq_true_eq, not_lt]
      rw [List.length_drop] at hj
      rcases Nat.eq_zero_or_pos j with rfl | hpos
      · simp
      · exact List.pairwise_iff_getElem.mp hs k (k + j) hk (by omega) (by omega)
    rw [h0]
    have := List.countP_le_length (p := fun x => decide (m x < m s[k])) (l := s.take k)
    rw [List.length_take] at this
    omega
  · have hsplit : ∀ f : α → Bool, s.countP f = (s.take (k + 1)).countP f + (s.drop (k + 1)).countP f := by
      intro f; rw [← List.countP_append, List.take_append_drop]
    rw [← hp.countP_eq, hsplit]
    have h0 : (s.take (k + 1)).countP (fun x => decide (m x ≤ m s[k])) = (s.take (k + 1)).length := by
      rw [List.countP_eq_length]
      intro x hx
      obtain ⟨j, hj, rfl⟩ := List.getElem_of_mem hx
      simp only [List.getElem_take, decide_eq_true_eq]
      rw [List.length_take] at hj
      rcases Nat.lt_or_ge j k with h | h
      · exact List.pairwise_iff_getElem.mp hs j k (by omega) hk h
      · have : j = k := by omega
        subst this; exact le_refl _
    rw [h0, List.length_take]
    omega

omit [IsStrictOrderedRing K] in
theorem rint_cast_mono [IsStrictOrderedRing K] {x y : K} (h : x ≤ y) : rint x ≤ rint y := by
  have hf : ⌊x⌋ ≤ ⌊y⌋ := Int.floor_mono h
  have hx := Int.lt_floor_add_one x
  rcases lt_or_eq_of_le hf with hlt | he
  · have h1 : rint x ≤ ⌊x⌋ + 1 := by simp only [rint]; split_ifs <;> omega
    have h2 : ⌊y⌋ ≤ rint y := by simp only [rint]; split_ifs <;> omega
    omega
  · simp only [rint, he]
    have : x - ⌊y⌋ ≤ y - ⌊y⌋ := by linarith
    split_ifs <;> first | omega | (exfalso; linarith)

theorem rint_natCast (n : ℕ) : rint (n : K) = n := by
  simp only [rint, Int.floor_natCast, Int.cast_natCast, sub_self]
  rw [if_pos (by norm_num)]

theorem rint_zero : rint (0 : K) = 0 := by
  have := rint_natCast (K := K) 0
  simpa using this

theorem quantileIndex_lt (n : ℕ) (q : K) (hn : 0 < n) (h1 : q ≤ 1) : quantileIndex n q < n := by
  unfold quantileIndex
  have h : rint ((n : K) * q) ≤ n := by
    rw [← rint_natCast (K := K) n]
    refine rint_cast_mono ?_
    have : (0 : K) ≤ n := Nat.cast_nonneg n
    nlinarith
  omega

theorem quantile_ok (l : List α) (m : α → K) (q : K) (hl : l ≠ []) (h0 : 0 ≤ q) (h1 : q ≤ 1) :
    ∃ (h : quantileIndex l.length q < (sortMeasure l m false).length),
      quantile l m q = .ok (sortMeasure l m false)[quantileIndex l.length q] := by
  have hlen : (sortMeasure l m false).length = l.length := (C28_sort_measure l m false).1.length_eq
  have hlt := quantileIndex_lt l.length q (List.length_pos_iff.mpr hl) h1
  refine ⟨by omega, ?_⟩
  unfold quantile
  rw [if_neg (by simp [h0, h1]), List.getElem?_eq_getElem (by omega)]

/-- C28: `quantile` rejects `q` outside [0, 1] and an empty population; otherwise it returns the member of rank `r`, where `r` is
the integer nearest to `q` times the number of members (the even one of two, and 1 instead of 0). -/
theorem C28_quantile (l : List α) (m : α → K) (q : K) :
    (¬ (0 ≤ q ∧ q ≤ 1) → quantile l m q = .error .valueError) ∧
    (0 ≤ q ∧ q ≤ 1 → l = [] → quantile l m q = .error .indexError) ∧
    (0 ≤ q ∧ q ≤ 1 → l ≠ [] → ∃ p, quantile l m q = .ok p ∧ ∃ r : ℤ, |(r : K) - (l.length : K) * q| ≤ 1 / 2 ∧
      (|(r : K) - (l.length : K) * q| = 1 / 2 → Even r) ∧ IsOrderStatistic l m ((max 1 r).toNat - 1) p) := by
  refine ⟨fun h => ?_, fun h hl => ?_, fun h hl => ?_⟩
  · unfold quantile; rw [if_pos h]
  · unfold quantile
    rw [if_neg (not_not.mpr h)]
    subst hl
    have : (sortMeasure ([] : List α) m false) = [] := List.Perm.eq_nil (C28_sort_measure [] m false).1
    rw [this]
    rfl
  · obtain ⟨hlt, hq⟩ := quantile_ok l m q hl h.1 h.2
    obtain ⟨hp, hs, -⟩ := C28_sort_measure l m false
    refine ⟨_, hq, rint ((l.length : K) * q), (rint_spec _).1, fun he => Int.even_iff.mpr ((rint_spec _).2 he), ?_⟩
    have e : (max 1 (rint ((l.length : K) * q))).toNat - 1 = quantileIndex l.length q := by
      unfold quantileIndex; omega
    rw [e]
    exact orderStatistic_of_sorted m hp (by simpa using hs) _ hlt

/-- C28: `q = 0` and `min_measure` give a member with the smallest measure, `q = 1` and `max_measure` one with the largest. -/
theorem C28_extremes (l : List α) (m : α → K) (hl : l ≠ []) :
    (∃ p ∈ l, minMeasure l m = .ok p ∧ quantile l m 0 = .ok p ∧ ∀ x ∈ l, m p ≤ m x) ∧
    (∃ p ∈ l, maxMeasure l m = .ok p ∧ quantile l m 1 = .ok p ∧ ∀ x ∈ l, m x ≤ m p) := by
  obtain ⟨hp, hs, -⟩ := C28_sort_measure l m false
  have hlen := hp.length_eq
  have hpos := List.length_pos_iff.mpr hl
  simp only [Bool.false_eq_true, if_false] at hs
  constructor
  · obtain ⟨hlt, hq⟩ := quantile_ok l m 0 hl (le_refl _) zero_le_one
    refine ⟨_, hp.subset (List.getElem_mem hlt), hq, hq, fun x hx => ?_⟩
    obtain ⟨j, hj, rfl⟩ := List.getElem_of_mem (hp.symm.subset hx)
    have e : quantileIndex l.length (0 : K) = 0 := by
      unfold quantileIndex; rw [mul_zero, rint_zero]; rfl
    rcases Nat.eq_zero_or_pos j with rfl | hj0
    · simp [e]
    · exact List.pairwise_iff_getElem.mp hs _ j hlt hj (by omega)
  · obtain ⟨hlt, hq⟩ := quantile_ok l m 1 hl zero_le_one (le_refl _)
    refine ⟨_, hp.subset (List.getElem_mem hlt), hq, hq, fun x hx => ?_⟩
    obtain ⟨j, hj, rfl⟩ := List.getElem_of_mem (hp.symm.subset hx)
    have e : quantileIndex l.length (1 : K) = l.length - 1 := by
      unfold quantileIndex; rw [mul_one, rint_natCast]; omega
    rcases Nat.lt_or_ge j (l.length - 1) with hj0 | hj0
    · exact List.pairwise_iff_getElem.mp hs j _ hj hlt (by omega)
    · have : j = quantileIndex l.length (1 : K) := by omega
      subst this; exact le_refl _

/-- C28: the measure of the quantile is monotone in `q`. -/
theorem C28_monotone (l : List α) (m : α → K) (q q' : K) (h0 : 0 ≤ q) (hqq : q ≤ q') (h1 : q' ≤ 1) (p p' : α)
    (hp : quantile l m q = .ok p) (hp' : quantile l m q' = .ok p') : m p ≤ m p' := by
  have hl : l ≠ [] := by
    rintro rfl
    rw [(C28_quantile [] m q).2.1 ⟨h0, hqq.trans h1⟩ rfl] at hp
    simp at hp
  obtain ⟨hlt, hq⟩ := quantile_ok l m q hl h0 (hqq.trans h1)
  obtain ⟨hlt', hq'⟩ := quantile_ok l m q' hl (h0.trans hqq) h1
  rw [hq, Except.ok.injEq] at hp
  rw [hq', Except.ok.injEq] at hp'
  subst hp hp'
  have hs := (C28_sort_measure l m false).2.1
  simp only [Bool.false_eq_true, if_false] at hs
  have hk : quantileIndex l.length q ≤ quantileIndex l.length q' := by
    unfold quantileIndex
    have : (0 : K) ≤ (l.length : K) := Nat.cast_nonneg _
    have := rint_cast_mono (mul_le_mul_of_nonneg_left hqq this)
    omega
  rcases Nat.lt_or_eq_of_le hk with h | h
  · exact List.pairwise_iff_getElem.mp hs _ _ hlt hlt' h
  · simp [h]

/-- The median of five by rank 2 (5/2 is rounded to the even 2): the second smallest. -/
example : quantile [30, 10, 50, 20, 40] (fun x : ℚ => x) (1 / 2) = .ok 20 := by
  have h : sortMeasure [30, 10, 50, 20, 40] (fun x : ℚ => x) false =
      List.insertionSort (· ≤ ·) [30, 10, 50, 20, 40] := by
    unfold sortMeasure
    exact List.mergeSort_eq_insertionSort (r := (· ≤ ·)) _
  unfold quantile
  rw [h]
  decide +kernel

end order

/-- C49: `filter` returns, in their order, exactly the portfolios whose name is among the names (if given) and whose tag is
among the tags (if given): it is the longest sub-list of such portfolios. -/
theorem C49_filter {α : Type} (l : List α) (name tag : α → String) (names tags : Option (List String)) :
    let Matches (p : α) : Prop := (∀ ns, names = some ns → name p ∈ ns) ∧ (∀ ts, tags = some ts → tag p ∈ ts)
    (filterPop l name tag names tags).Sublist l ∧ (∀ p ∈ filterPop l name tag names tags, Matches p) ∧
    ∀ c : List α, c.Sublist l → (∀ p ∈ c, Matches p) → c.Sublist (filterPop l name tag names tags) := by
  have key : ∀ f : α → Bool, (l.filter f).Sublist l ∧ (∀ p ∈ l.filter f, f p = true) ∧
      ∀ c : List α, c.Sublist l → (∀ p ∈ c, f p = true) → c.Sublist (l.filter f) := by
    intro f
    refine ⟨List.filter_sublist, fun p hp => (List.mem_filter.mp hp).2, fun c hc h => ?_⟩
    rw [← List.filter_eq_self.mpr h]
    exact hc.filter f
  cases names with
  | none => cases tags with
    | none => exact ⟨List.Sublist.refl _, by simp, fun c hc _ => hc⟩
    | some ts => simpa [filterPop] using key fun p => ts.contains (tag p)
  | some ns => cases tags with
    | none => simpa [filterPop] using key fun p => ns.contains (name p)
    | some ts => simpa [filterPop] using key fun p => ns.contains (name p) && ts.contains (tag p)

example : filterPop [("a", "x"), ("b", "y"), ("a", "y")] Prod.fst Prod.snd (some ["a"]) (some ["y", "z"]) = [("a", "y")] := by
  decide

end Skfolio.Portfolio.Pop
