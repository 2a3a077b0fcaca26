import Verif.Inputs.Theorems
import Verif.Equations.Theorems
import Mathlib.Tactic.FinCases

/-!
Claim C73: groups given as a dictionary. The specification is in `Spec.lean`.
-/
set_option autoImplicit false

namespace Skfolio.Inputs

open Skfolio.Equations

variable {n : Nat}

theorem elems_cases (kv : List (Word × GroupItem)) (hk : DistinctKeys kv) (a : Word) :
    (elems kv a = [a] ∧ (∀ g, (a, GroupItem.one g) ∉ kv) ∧ ∀ gs, (a, GroupItem.many gs) ∉ kv) ∨
    (∃ g, elems kv a = [a, g] ∧ (∀ g', (a, GroupItem.one g') ∈ kv ↔ g' = g) ∧ ∀ gs, (a, GroupItem.many gs) ∉ kv) ∨
    (∃ gs, elems kv a = a :: gs ∧ (∀ g, (a, GroupItem.one g) ∉ kv) ∧ ∀ gs', (a, GroupItem.many gs') ∈ kv ↔ gs' = gs) := by
  unfold elems
  cases h : kv.lookup a with
  | none =>
    left
    exact ⟨rfl, fun g => not_mem_of_lookup kv a h _, fun gs => not_mem_of_lookup kv a h _⟩
  | some x =>
    have hm := mem_of_lookup kv a x h
    have hu := distinctKeys_unique kv hk a x
    cases x with
    | none =>
      left
      exact ⟨rfl, fun g hg => by (cases hu _ hm hg), fun gs hg => by cases hu _ hm hg⟩
    | one g =>
      right; left
      exact ⟨g, rfl, fun g' => ⟨fun hg => by cases hu _ hm hg; rfl, fun e => by rw [e]; exact hm⟩, fun gs hg => by cases hu _ hm hg⟩
    | many gs =>
      right; right
      exact ⟨gs, rfl, fun g hg => by (cases hu _ hm hg), fun gs' => ⟨fun hg => by cases hu _ hm hg; rfl, fun e => by rw [e]; exact hm⟩⟩

theorem atLevel_iff (kv : List (Word × GroupItem)) (hk : DistinctKeys kv) (names : Fin n → Word) (j : Fin n) (l : Nat) (g : Word) :
    AtLevel kv names j l g ↔ (elems kv (names j))[l]? = some g := by
  unfold AtLevel
  rcases elems_cases kv hk (names j) with ⟨e, h1, h2⟩ | ⟨g0, e, h1, h2⟩ | ⟨gs, e, h1, h2⟩ <;> rw [e]
  · rcases l with _ | l
    · simp [eq_comm]
    · simp [h1, h2]
  · rcases l with _ | _ | l
    · simp [eq_comm]
    · simp [h1, h2, eq_comm]
    · simp [h2]
  · rcases l with _ | l
    · simp [eq_comm]
    · simp only [h1, h2, Nat.add_eq_zero_iff, one_ne_zero, and_false, false_and, false_or, Nat.add_right_cancel_iff,
        List.getElem?_cons_succ]
      constructor
      · rintro ⟨k, gs', rfl, rfl, h⟩; exact h
      · intro h; exact ⟨l, gs, rfl, rfl, h⟩

theorem mem_elems (kv : List (Word × GroupItem)) (hk : DistinctKeys kv) (a g : Word) : g ∈ elems kv a ↔ g = a ∨ InGroup kv a g := by
  unfold InGroup
  rcases elems_cases kv hk a with ⟨e, h1, h2⟩ | ⟨g0, e, h1, h2⟩ | ⟨gs, e, h1, h2⟩ <;> rw [e]
  · simp [h1, h2]
  · simp [h1, h2]
  · simp [h1, h2]

theorem length_le_width (kv : List (Word × GroupItem)) (names : Fin n → Word) (j : Fin n) : (elems kv (names j)).length ≤ width kv names :=
  Finset.le_sup (f := fun j => (elems kv (names j)).length) (Finset.mem_univ j)

theorem exists_width (kv : List (Word × GroupItem)) (names : Fin n → Word) (l : Nat) (h : l < width kv names) :
    ∃ j, l < (elems kv (names j)).length := by
  by_contra hc
  push Not at hc
  have : width kv names ≤ l := Finset.sup_le fun j _ => hc j
  omega

theorem mem_groupWords (kv : List (Word × GroupItem)) (names : Fin n → Word) (row : Fin n → Word) :
    row ∈ groupWords kv names ↔ ∃ l < width kv names, row = fun j => ((elems kv (names j))[l]?).getD [] := by
  simp only [groupWords, groupTable, List.map_map, List.mem_map, List.mem_range, Function.comp]
  constructor
  · rintro ⟨l, hl, rfl⟩; exact ⟨l, hl, rfl⟩
  · rintro ⟨l, hl, rfl⟩; exact ⟨l, hl, rfl⟩

/-- **C73.** In the table made from the dictionary a name belongs to exactly the assets that it covers: the asset of that name, and the
assets whose entry lists it. -/
theorem C73_membership (kv : List (Word × GroupItem)) (hk : DistinctKeys kv) (names : Fin n → Word) (g : Word) (hg : g ≠ []) (j : Fin n) :
    Belongs (groupWords kv names) g j ↔ Covers kv names g j := by
  unfold Covers Belongs
  rw [← mem_elems kv hk]
  constructor
  · rintro ⟨row, hr, e⟩
    obtain ⟨l, _, rfl⟩ := (mem_groupWords kv names row).1 hr
    cases h : (elems kv (names j))[l]? with
    | none => simp only [h, Option.getD_none] at e; exact absurd e.symm hg
    | some x =>
      simp only [h, Option.getD_some] at e
      rw [← e]; exact List.mem_of_getElem? h
  · intro hm
    obtain ⟨l, hl, e⟩ := List.mem_iff_getElem.1 hm
    refine ⟨_, (mem_groupWords kv names _).2 ⟨l, lt_of_lt_of_le hl (length_le_width kv names j), rfl⟩, ?_⟩
    simp only [List.getElem?_eq_getElem hl, e, Option.getD_some]

theorem valid_iff (kv : List (Word × GroupItem)) (names : Fin n → Word) :
    validGroups (groupWords kv names) ↔ ∀ l l', l < l' → l' < width kv names → ∀ i j,
      ((elems kv (names i))[l]?).getD [] ≠ ((elems kv (names j))[l']?).getD [] := by
  unfold validGroups groupWords groupTable
  rw [List.map_map, List.pairwise_map, List.pairwise_iff_getElem]
  simp only [List.length_range, List.getElem_range, Function.comp]
  constructor
  · intro h l l' h1 h2 i j
    exact h l l' (by omega) h2 h1 i j
  · intro h l l' h1 h2 h3 i j
    exact h l l' h3 h2 i j

/-- **C73.** Exactly which dictionaries of groups are accepted (when constraints are given): no name is at two levels, and every asset
has a group at every level except perhaps the last. -/
theorem C73_accepted_iff (kv : List (Word × GroupItem)) (hk : DistinctKeys kv) (names : Fin n → Word)
    (hne : ∀ j l g, AtLevel kv names j l g → g ≠ []) :
    validGroups (groupWords kv names) ↔
      (∀ j j' l l' g, AtLevel kv names j l g → AtLevel kv names j' l' g → l = l') ∧
      (∀ j j' l g, AtLevel kv names j' (l + 1) g → ∃ g', AtLevel kv names j l g') := by
  simp only [atLevel_iff kv hk] at hne ⊢
  rw [valid_iff]
  have hlt : ∀ j l g, (elems kv (names j))[l]? = some g → l < width kv names := fun j l g h =>
    lt_of_lt_of_le (List.getElem?_eq_some_iff.1 h).1 (length_le_width kv names j)
  constructor
  · intro h
    have key : ∀ j j' (l l' : Nat) g, l < l' → (elems kv (names j))[l]? = some g → (elems kv (names j'))[l']? = some g → False := by
      intro j j' l l' g hll h1 h2
      apply h l l' hll (hlt _ _ _ h2) j j'
      rw [h1, h2]
    constructor
    · intro j j' l l' g h1 h2
      rcases lt_trichotomy l l' with hl | hl | hl
      · exact absurd (key j j' l l' g hl h1 h2) id
      · exact hl
      · exact absurd (key j' j l' l g hl h2 h1) id
    · intro j j' l g h1
      cases h2 : (elems kv (names j))[l]? with
      | some g' => exact ⟨g', rfl⟩
      | none =>
        exfalso
        apply h l (l + 1) (by omega) (hlt _ _ _ h1) j j
        rw [h2, List.getElem?_eq_none (by rw [List.getElem?_eq_none_iff] at h2; omega)]
  · rintro ⟨h1, h2⟩ l l' hll hw i j e
    obtain ⟨j', hj'⟩ := exists_width kv names l' hw
    have hlev : ∃ g', (elems kv (names i))[l]? = some g' := by
      refine h2 i j' l _ (List.getElem?_eq_getElem (h := by omega))
    obtain ⟨g', hg'⟩ := hlev
    rw [hg', Option.getD_some] at e
    cases h3 : (elems kv (names j))[l']? with
    | none => rw [h3, Option.getD_none] at e; exact hne _ _ _ hg' e
    | some x =>
      rw [h3, Option.getD_some] at e
      rw [← e] at h3
      have := h1 i j l l' g' hg' h3
      omega

/-- **C73, negated.** As soon as some asset has two levels of groups, an asset that is missing from the dictionary makes the groups
refused (`DuplicateGroupsError`: `None` is at two levels), whatever the constraints. -/
theorem C73_missing_asset_refused {K : Type} [Field K] (kv : List (Word × GroupItem)) (hk : DistinctKeys kv) (names : Fin n → Word)
    (j j' : Fin n) (hj : ∀ v, (names j, v) ∉ kv) (g : Word) (hj' : AtLevel kv names j' 2 g) (num : Word → Option K) (ss : List Word)
    (avg raise : Bool) (cards : List (Word × Nat)) :
    equationsToMatrix num (groupWords kv names) ss avg raise = .error .duplicate ∧
    groupCardinalitiesToMatrix (K := K) (groupWords kv names) cards raise = .error .duplicate := by
  have hnot : ¬ validGroups (groupWords kv names) := by
    rw [valid_iff]
    intro h
    rw [atLevel_iff kv hk] at hj'
    have hw : 2 < width kv names := lt_of_lt_of_le (List.getElem?_eq_some_iff.1 hj').1 (length_le_width kv names j')
    apply h 1 2 (by omega) hw j j
    have e : elems kv (names j) = [names j] := by
      rcases elems_cases kv hk (names j) with ⟨e, _, _⟩ | ⟨g0, _, h1, _⟩ | ⟨gs, _, _, h2⟩
      · exact e
      · exact absurd ((h1 g0).2 rfl) (hj _)
      · exact absurd ((h2 gs).2 rfl) (hj _)
    rw [e]; rfl
  exact ⟨if_neg hnot, if_neg hnot⟩

section constraints
variable {K : Type} [Field K] [LinearOrder K] [IsStrictOrderedRing K]

theorem isName_iff (kv : List (Word × GroupItem)) (hk : DistinctKeys kv) (names : Fin n → Word) (g : Word) (hg : g ≠ []) :
    IsName (groupWords kv names) g ↔ ∃ j, Covers kv names g j := by
  simp only [← C73_membership kv hk names g hg, IsName, Belongs]
  constructor
  · rintro ⟨row, hr, j, e⟩; exact ⟨j, row, hr, e⟩
  · rintro ⟨j, row, hr, e⟩; exact ⟨row, hr, j, e⟩

omit [LinearOrder K] [IsStrictOrderedRing K] in
theorem groupVal_eq [LinearOrder K] (kv : List (Word × GroupItem)) (hk : DistinctKeys kv) (names : Fin n → Word) (avg : Bool) (w : Fin n → K) (g : Word)
    (hg : g ≠ []) : groupVal (groupWords kv names) avg w g = weightOf kv names avg w g := by
  classical
  unfold groupVal weightOf
  have h := fun j => C73_membership kv hk names g hg j
  have h1 : (∑ j, if Belongs (groupWords kv names) g j then w j else 0) = ∑ j, if Covers kv names g j then w j else 0 :=
    Finset.sum_congr rfl fun j _ => by simp only [h j]
  have h2 : (Finset.univ.filter fun j => Belongs (groupWords kv names) g j) = Finset.univ.filter fun j => Covers kv names g j := by
    ext j; simp [h j]
  rw [h1, h2]

omit [IsStrictOrderedRing K] in
theorem term_wf (num : Word → Option K) (kv : List (Word × GroupItem)) (hk : DistinctKeys kv) (names : Fin n → Word) (t : Term)
    (h : TermKnown num kv names t) : t.WF num (groupWords kv names) ∧
      ∀ avg w, t.val num (groupWords kv names) avg w = termVal num (weightOf kv names avg w) t := by
  have hnum : ∀ s, (num s ≠ none ∧ ∀ j, ¬ Covers kv names s j) → Atom s → IsNum num (groupWords kv names) s := by
    intro s hs ha
    refine ⟨hs.1, fun hn => ?_⟩
    obtain ⟨j, hj⟩ := (isName_iff kv hk names s ha.ne).1 hn
    exact hs.2 j hj
  cases t with
  | num s => exact ⟨⟨hnum s h.1 h.2, h.2⟩, fun _ _ => rfl⟩
  | name g => exact ⟨⟨(isName_iff kv hk names g h.2.ne).2 h.1, h.2⟩, fun avg w => groupVal_eq kv hk names avg w g h.2.ne⟩
  | mulL s g =>
    obtain ⟨h1, h2, h3, h4⟩ := h
    refine ⟨⟨hnum s h1 h2, h2, (isName_iff kv hk names g h4.ne).2 h3, h4⟩, fun avg w => ?_⟩
    simp only [Term.val, termVal, groupVal_eq kv hk names avg w g h4.ne]
  | mulR g s =>
    obtain ⟨h1, h2, h3, h4⟩ := h
    refine ⟨⟨hnum s h1 h2, h2, (isName_iff kv hk names g h4.ne).2 h3, h4⟩, fun avg w => ?_⟩
    simp only [Term.val, termVal, groupVal_eq kv hk names avg w g h4.ne]

omit [IsStrictOrderedRing K] in
theorem side_val (num : Word → Option K) (kv : List (Word × GroupItem)) (hk : DistinctKeys kv) (names : Fin n → Word) (s : Side)
    (h : TermKnown num kv names s.first) (h' : ∀ p ∈ s.rest, TermKnown num kv names p.2) (avg : Bool) (w : Fin n → K) :
    s.val num (groupWords kv names) avg w = sideVal num (weightOf kv names avg w) s := by
  unfold Side.val sideVal
  rw [(term_wf num kv hk names _ h).2]
  congr 2
  apply List.map_congr_left
  intro p hp
  rw [(term_wf num kv hk names _ (h' p hp)).2]

omit [IsStrictOrderedRing K] in
theorem constraint_wf (num : Word → Option K) (kv : List (Word × GroupItem)) (hk : DistinctKeys kv) (names : Fin n → Word)
    (c : Constraint) (h : ConstraintKnown num kv names c) :
    c.WF num (groupWords kv names) ∧ ∀ avg w, c.Holds num (groupWords kv names) avg w ↔ HoldsWith num (weightOf kv names avg w) c := by
  obtain ⟨h1, h2, h3, h4⟩ := h
  refine ⟨⟨⟨(term_wf num kv hk names _ h1).1, fun p hp => (term_wf num kv hk names _ (h2 p hp)).1⟩,
    ⟨(term_wf num kv hk names _ h3).1, fun p hp => (term_wf num kv hk names _ (h4 p hp)).1⟩⟩, fun avg w => ?_⟩
  unfold Constraint.Holds HoldsWith
  rw [side_val num kv hk names _ h1 h2, side_val num kv hk names _ h3 h4]

/-- **C73, in part.** With a dictionary of groups, a list of constraints gives rows that a weight vector satisfies exactly when it
satisfies the constraints, where a name stands for the total (or average) weight of the assets that it covers. Assumed: no name is at
two levels, and every asset has a group at every level except perhaps the last. Missing: assets with two or more levels less than others, which
are refused (`C73_missing_asset_refused`). -/
theorem C73_constraints_partial (num : Word → Option K) (kv : List (Word × GroupItem)) (hk : DistinctKeys kv) (names : Fin n → Word)
    (hne : ∀ j l g, AtLevel kv names j l g → g ≠ [])
    (hlev : ∀ j j' l l' g, AtLevel kv names j l g → AtLevel kv names j' l' g → l = l')
    (hall : ∀ j j' l g, AtLevel kv names j' (l + 1) g → ∃ g', AtLevel kv names j l g')
    (avg raise : Bool) (cs : List Constraint) (ss : List Word)
    (hf : List.Forall₂ (fun c s => ConstraintKnown num kv names c ∧ c.size < 1000000 ∧ Layout c.tokens s ∧ '\n' ∉ s) cs ss) :
    ∃ m, equationsToMatrix num (groupWords kv names) ss avg raise = .ok m ∧ m.warned = [] ∧
      ∀ w, (∀ c ∈ cs, HoldsWith num (weightOf kv names avg w) c) ↔
        (∀ r ∈ m.eqRows, RowHolds false r.1 r.2 w) ∧ (∀ r ∈ m.ineqRows, RowHolds true r.1 r.2 w) := by
  have hG := (C73_accepted_iff kv hk names hne).2 ⟨hlev, hall⟩
  obtain ⟨m, h1, h2, _, _, h5⟩ := C09_equations_to_matrix num (groupWords kv names) hG avg raise cs ss
    (hf.imp fun c s h => ⟨(constraint_wf num kv hk names c h.1).1, h.2⟩)
  refine ⟨m, h1, h2, fun w => ?_⟩
  rw [← h5 w]
  have hmem : ∀ c ∈ cs, ConstraintKnown num kv names c := by
    intro c hc
    obtain ⟨k, hk', e⟩ := List.mem_iff_getElem.1 hc
    have := hf.get hk' (by rw [← hf.length_eq]; exact hk')
    simp only [List.get_eq_getElem, e] at this
    exact this.1
  exact forall₂_congr fun c hc => ((constraint_wf num kv hk names c (hmem c hc)).2 avg w).symm

omit [LinearOrder K] [IsStrictOrderedRing K] in
open Classical in
/-- **C73, in part.** The same for the cardinalities of groups: one row per entry, with ones exactly at the assets that the name covers. -/
theorem C73_cardinalities_partial [LinearOrder K] (kv : List (Word × GroupItem)) (hk : DistinctKeys kv) (names : Fin n → Word)
    (hne : ∀ j l g, AtLevel kv names j l g → g ≠ [])
    (hlev : ∀ j j' l l' g, AtLevel kv names j l g → AtLevel kv names j' l' g → l = l')
    (hall : ∀ j j' l g, AtLevel kv names j' (l + 1) g → ∃ g', AtLevel kv names j l g')
    (raise : Bool) (cards : List (Word × Nat)) (hc : ∀ gc ∈ cards, gc.1 ≠ [] ∧ ∃ j, Covers kv names gc.1 j) :
    ∃ rows : List ((Fin n → K) × Nat), groupCardinalitiesToMatrix (groupWords kv names) cards raise = .ok (rows, []) ∧
      List.Forall₂ (fun gc r => r.2 = gc.2 ∧ ∀ j, r.1 j = if Covers kv names gc.1 j then 1 else 0) cards rows := by
  have hG := (C73_accepted_iff kv hk names hne).2 ⟨hlev, hall⟩
  obtain ⟨rows, h1, h2⟩ := C11_rows (K := K) (groupWords kv names) hG raise cards
    fun gc h => (isName_iff kv hk names gc.1 (hc gc h).1).2 (hc gc h).2
  refine ⟨rows, h1, ?_⟩
  have : ∀ (cs : List (Word × Nat)) (rs : List ((Fin n → K) × Nat)), (∀ gc ∈ cs, gc.1 ≠ []) →
      List.Forall₂ (fun gc r => r.2 = gc.2 ∧ ∀ j, r.1 j = if Belongs (groupWords kv names) gc.1 j then 1 else 0) cs rs →
      List.Forall₂ (fun gc r => r.2 = gc.2 ∧ ∀ j, r.1 j = if Covers kv names gc.1 j then 1 else 0) cs rs := by
    intro cs rs hcs hf
    induction hf with
    | nil => exact .nil
    | @cons gc r cs rs h _ ih =>
      refine .cons ⟨h.1, fun j => ?_⟩ (ih fun x hx => hcs x (by simp [hx]))
      rw [h.2 j]
      simp only [C73_membership kv hk names gc.1 (hcs gc (by simp)) j]
  exact this cards rows (fun gc h => (hc gc h).1) h2

end constraints

/-! ### a concrete case -/

/-- The columns A, B, C. -/
def exNames : Fin 3 → Word := fun j => [['A'], ['B'], ['C']].getD j []

/-- `{"A": "X", "B": ["X"], "Z": "Y"}`: C has no group. -/
def exDict : List (Word × GroupItem) := [(['A'], .one ['X']), (['B'], .many [['X']]), (['Z'], .one ['Y'])]

theorem exKeys : DistinctKeys exDict := by unfold DistinctKeys; decide

/-- Its table, and the groups are accepted: `X` covers A and B, and C is in no group. -/
example : groupTable exDict exNames =
    [fun j : Fin 3 => [some ['A'], some ['B'], some ['C']].getD j none, fun j : Fin 3 => [some ['X'], some ['X'], none].getD j none] := by decide
example : validGroups (groupWords exDict exNames) := by decide

/-- `{"A": ["X", "U"], "B": ["X", "V"]}`: two levels, C is missing. -/
def exDict2 : List (Word × GroupItem) := [(['A'], .many [['X'], ['U']]), (['B'], .many [['X'], ['V']])]

/-- **C73, negated.** A concrete case of `C73_missing_asset_refused`: the constraint `X <= 0.5` is refused because C is missing. -/
theorem C73_witness : equationsToMatrix exNum (groupWords exDict2 exNames) ["X <= 0.5".toList] false false = .error .duplicate :=
  (C73_missing_asset_refused exDict2 (by unfold DistinctKeys; decide) exNames 2 0 (by
    intro v hv
    simp [exDict2, exNames] at hv) ['U'] (Or.inr (Or.inr ⟨1, [['X'], ['U']], rfl, by simp [exDict2, exNames], rfl⟩)) exNum _ false false []).1

theorem exLevel (j : Fin 3) (l : Nat) (g : Word) (h : AtLevel exDict exNames j l g) :
    (l = 0 ∧ g = exNames j) ∨ (l = 1 ∧ g = ['X'] ∧ j ≠ 2) := by
  rw [atLevel_iff exDict exKeys] at h
  fin_cases j
  · rcases l with _ | _ | l
    · left; exact ⟨rfl, (Option.some.inj h).symm⟩
    · right; exact ⟨rfl, (Option.some.inj h).symm, by decide⟩
    · exact absurd h (by simp [elems, exDict, exNames, List.lookup])
  · rcases l with _ | _ | l
    · left; exact ⟨rfl, (Option.some.inj h).symm⟩
    · right; exact ⟨rfl, (Option.some.inj h).symm, by decide⟩
    · exact absurd h (by simp [elems, exDict, exNames, List.lookup])
  · rcases l with _ | l
    · left; exact ⟨rfl, (Option.some.inj h).symm⟩
    · exact absurd h (by simp [elems, exDict, exNames, List.lookup])

/-- The hypotheses of `C73_accepted_iff`, `C73_constraints_partial` and `C73_cardinalities_partial` on the groups are met. -/
example : (∀ j l g, AtLevel exDict exNames j l g → g ≠ []) ∧
    (∀ j j' l l' g, AtLevel exDict exNames j l g → AtLevel exDict exNames j' l' g → l = l') ∧
    (∀ j j' l g, AtLevel exDict exNames j' (l + 1) g → ∃ g', AtLevel exDict exNames j l g') := by
  have hX : ∀ j : Fin 3, exNames j ≠ ['X'] := by decide
  have hnil : ∀ j : Fin 3, exNames j ≠ [] := by decide
  refine ⟨fun j l g h => ?_, fun j j' l l' g h h' => ?_, fun j j' l g h => ?_⟩
  · rcases exLevel j l g h with ⟨_, rfl⟩ | ⟨_, rfl, _⟩
    · exact hnil j
    · decide
  · rcases exLevel j l g h with ⟨e, rfl⟩ | ⟨e, rfl, _⟩ <;> rcases exLevel j' l' _ h' with ⟨e', e2⟩ | ⟨e', e2, _⟩
    · omega
    · exact absurd e2 (hX j)
    · exact absurd e2.symm (hX j')
    · omega
  · rcases exLevel j' (l + 1) g h with ⟨e, _⟩ | ⟨e, _, _⟩
    · omega
    · exact ⟨exNames j, Or.inl ⟨by omega, rfl⟩⟩

end Skfolio.Inputs
