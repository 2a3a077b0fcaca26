import Verif.Inputs.Spec
import Mathlib.Data.List.Forall2
import Mathlib.Data.List.GetD
import Mathlib.Data.Nat.Digits.Defs
import Mathlib.Tactic.SplitIfs
import Mathlib.Tactic.Linarith

/-!
Claims C72 (per-asset parameters), C74 (lists of assets) and C75 (names of columns). The specification is in `Spec.lean`.
-/
set_option autoImplicit false

namespace Skfolio.Inputs

open Skfolio.Equations (Word)

/-! ### C72 -/

section numbers
variable {V : Type}

theorem mem_of_lookup (kv : List (Word × V)) (a : Word) (v : V) (h : kv.lookup a = some v) : (a, v) ∈ kv := by
  induction kv with
  | nil => simp at h
  | cons p kv ih =>
    obtain ⟨k, x⟩ := p
    rw [List.lookup_cons] at h
    by_cases e : a = k
    · subst e; simp at h; subst h; simp
    · rw [beq_eq_false_iff_ne.2 e] at h
      exact List.mem_cons_of_mem _ (ih h)

theorem not_mem_of_lookup (kv : List (Word × V)) (a : Word) (h : kv.lookup a = none) : ∀ v, (a, v) ∉ kv := by
  induction kv with
  | nil => simp
  | cons p kv ih =>
    obtain ⟨k, x⟩ := p
    rw [List.lookup_cons] at h
    by_cases e : a = k
    · subst e; simp at h
    · rw [beq_eq_false_iff_ne.2 e] at h
      intro v hv
      rcases List.mem_cons.1 hv with hv | hv
      · exact e (Prod.ext_iff.1 hv).1
      · exact ih h v hv

theorem distinctKeys_unique (kv : List (Word × V)) (hk : DistinctKeys kv) (a : Word) (v v' : V) (h : (a, v) ∈ kv) (h' : (a, v') ∈ kv) :
    v = v' := by
  induction kv with
  | nil => simp at h
  | cons p kv ih =>
    simp only [DistinctKeys, List.map_cons, List.nodup_cons] at hk
    rcases List.mem_cons.1 h with h | h <;> rcases List.mem_cons.1 h' with h' | h'
    · rw [← h'] at h; exact (Prod.ext_iff.1 h).2
    · exact absurd (List.mem_map_of_mem h') (by rw [← h] at hk; exact hk.1)
    · exact absurd (List.mem_map_of_mem h) (by rw [← h'] at hk; exact hk.1)
    · exact ih hk.2 h h'

theorem lookup_says (kv : List (Word × V)) (hk : DistinctKeys kv) (fill : V) (a : Word) (v : V) :
    (kv.lookup a).getD fill = v ↔ Says kv fill a v := by
  cases h : kv.lookup a with
  | none =>
    have h' := not_mem_of_lookup kv a h
    constructor
    · intro e; exact Or.inr ⟨h', e.symm⟩
    · rintro (e | ⟨_, e⟩)
      · exact absurd e (h' v)
      · exact e.symm
  | some x =>
    have h' := mem_of_lookup kv a x h
    constructor
    · intro e; left; rw [← e]; exact h'
    · rintro (e | ⟨e, _⟩)
      · exact distinctKeys_unique kv hk a x v h' e
      · exact absurd h' (e x)

theorem checkArray_ok (isNaN : V → Bool) (n : Nat) (xs ys : List V) :
    checkArray isNaN n xs = .ok ys ↔ xs = ys ∧ (∀ x ∈ ys, isNaN x = false) ∧ ys.length = n := by
  unfold checkArray
  split_ifs with h1 h2
  · constructor
    · intro h; cases h
    · rintro ⟨rfl, h, _⟩
      obtain ⟨x, hx, hx'⟩ := List.any_eq_true.1 h1
      rw [h x hx] at hx'; cases hx'
  · constructor
    · intro h; cases h
    · rintro ⟨rfl, _, h⟩; exact absurd h h2
  · constructor
    · intro h
      cases h
      refine ⟨rfl, fun x hx => ?_, not_not.1 h2⟩
      by_contra hne
      exact h1 (List.any_eq_true.2 ⟨x, hx, by simpa using hne⟩)
    · rintro ⟨rfl, _⟩; rfl

theorem map_eq_iff_forall₂ {A B : Type} (f : A → B) (R : A → B → Prop) (h : ∀ a b, f a = b ↔ R a b) (l : List A) (xs : List B) :
    l.map f = xs ↔ List.Forall₂ R l xs := by
  induction l generalizing xs with
  | nil => cases xs <;> simp
  | cons a l ih =>
    cases xs with
    | nil => simp
    | cons b xs => simp [ih, h]

/-- **C72.** A per-asset parameter is accepted, with the numbers `xs`, exactly when `xs` has one number per asset, none of them NaN,
and is either the 1D array that was given or, for a dictionary and a data frame with named columns, what the dictionary says about each
column, in the order of the columns, with the default for the assets that the dictionary does not have. -/
theorem C72_accepted (isNaN : V → Bool) (items : Items V) (n : Nat) (fill : V) (names : Option (List Word)) (xs : List V)
    (hk : ∀ kv, items = .dict kv → DistinctKeys kv) :
    inputToArray isNaN items n fill names = .ok xs ↔
      xs.length = n ∧ (∀ x ∈ xs, isNaN x = false) ∧
      (items = .array1 xs ∨ ∃ kv l, items = .dict kv ∧ names = some l ∧ List.Forall₂ (Says kv fill) l xs) := by
  cases items with
  | dict kv =>
    cases names with
    | none => simp [inputToArray]
    | some l =>
      simp only [inputToArray, checkArray_ok, reduceCtorEq, false_or, Items.dict.injEq, Option.some.injEq, exists_and_left, exists_eq_left']
      rw [map_eq_iff_forall₂ _ _ (fun a b => lookup_says kv (hk kv rfl) fill a b)]
      tauto
  | scalar v => simp [inputToArray]
  | array1 ys =>
    simp only [inputToArray, checkArray_ok, Items.array1.injEq, reduceCtorEq, false_and, exists_false, or_false]
    tauto
  | array2 r => simp [inputToArray]

/-- **C72.** A value given by name follows the name: in two accepted calls with the same dictionary, on any two data frames, two columns
of the same name get the same number, wherever the columns are. -/
theorem C72_by_name (isNaN : V → Bool) (kv : List (Word × V)) (fill : V) (n n' : Nat) (l l' : List Word) (xs ys : List V)
    (h : inputToArray isNaN (.dict kv) n fill (some l) = .ok xs) (h' : inputToArray isNaN (.dict kv) n' fill (some l') = .ok ys)
    (i j : Nat) (hij : l[i]? = l'[j]?) : xs[i]? = ys[j]? := by
  simp only [inputToArray, checkArray_ok] at h h'
  rw [← h.1, ← h'.1, List.getElem?_map, List.getElem?_map, hij]

/-- **C72.** Only what the dictionary says about the columns matters: the order of its items and its other keys have no effect, neither on
the numbers nor on the exceptions. -/
theorem C72_only_columns (isNaN : V → Bool) (kv kv' : List (Word × V)) (hk : DistinctKeys kv) (hk' : DistinctKeys kv') (fill : V) (n : Nat)
    (l : List Word) (h : ∀ a ∈ l, ∀ v, (a, v) ∈ kv ↔ (a, v) ∈ kv') :
    inputToArray isNaN (.dict kv) n fill (some l) = inputToArray isNaN (.dict kv') n fill (some l) := by
  simp only [inputToArray]
  congr 1
  apply List.map_congr_left
  intro a ha
  rw [lookup_says kv hk]
  have := (lookup_says kv' hk' fill a _).1 rfl
  unfold Says at *
  simpa only [h a ha] using this

/-- **C72.** Leaving an asset out of the dictionary is the same as giving it the default. -/
theorem C72_default (isNaN : V → Bool) (kv : List (Word × V)) (fill : V) (n : Nat) (names : Option (List Word)) (a : Word)
    (ha : ∀ v, (a, v) ∉ kv) :
    inputToArray isNaN (.dict ((a, fill) :: kv)) n fill names = inputToArray isNaN (.dict kv) n fill names := by
  cases names with
  | none => rfl
  | some l =>
    simp only [inputToArray]
    congr 1
    apply List.map_congr_left
    intro b _
    rw [List.lookup_cons]
    by_cases e : b = a
    · subst e
      have : kv.lookup b = none := by
        cases h : kv.lookup b with
        | none => rfl
        | some x => exact absurd (mem_of_lookup kv b x h) (ha x)
      simp [this]
    · rw [beq_eq_false_iff_ne.2 e]

/-- The number of asset `i` in a cleaned parameter (numpy broadcasting). -/
def Cleaned.at {V : Type} (i : Nat) : Cleaned V → Option V
  | .number v => some v
  | .array xs => xs[i]?

/-- What the caller said about asset `i`: nothing, a number for all, the number at its position, or what the dictionary says about its
name. -/
def Gives {V : Type} (value : Option (Items V)) (fill : V) (names : Option (List Word)) (i : Nat) (v : V) : Prop :=
  match value with
  | none => v = fill
  | some (.scalar s) => v = s
  | some (.array1 xs) => xs[i]? = some v
  | some (.dict kv) => ∃ l a, names = some l ∧ l[i]? = some a ∧ Says kv fill a v
  | some (.array2 _) => False

theorem gives_of_array (isNaN : V → Bool) (items : Items V) (n : Nat) (fill : V) (names : Option (List Word)) (xs : List V)
    (hk : ∀ kv, items = .dict kv → DistinctKeys kv) (h : inputToArray isNaN items n fill names = .ok xs) (i : Nat) (hi : i < n) :
    ∃ v, xs[i]? = some v ∧ Gives (some items) fill names i v := by
  obtain ⟨hl, _, h⟩ := (C72_accepted isNaN items n fill names xs hk).1 h
  have hi' : i < xs.length := by omega
  refine ⟨xs[i], List.getElem?_eq_getElem hi', ?_⟩
  rcases h with rfl | ⟨kv, l, rfl, rfl, hf⟩
  · exact List.getElem?_eq_getElem hi'
  · have hil : i < l.length := by rw [hf.length_eq]; exact hi'
    exact ⟨l, l[i], rfl, List.getElem?_eq_getElem hil, by simpa using hf.get hil hi'⟩

/-- **C72.** Convex optimizations: every accepted parameter gives each asset the number that the caller said about it. -/
theorem C72_convex (isNaN : V → Bool) (value : Option (Items V)) (n : Nat) (fill : V) (names : Option (List Word)) (c : Cleaned V)
    (hk : ∀ kv, value = some (.dict kv) → DistinctKeys kv) (h : cleanInput isNaN value n fill names = .ok c) (i : Nat) (hi : i < n) :
    ∃ v, c.at i = some v ∧ Gives value fill names i v := by
  cases value with
  | none => cases h; exact ⟨fill, rfl, rfl⟩
  | some items =>
    cases items with
    | scalar s => cases h; exact ⟨s, rfl, rfl⟩
    | dict kv =>
      simp only [cleanInput] at h
      cases hx : inputToArray isNaN (.dict kv) n fill names with
      | error e => rw [hx] at h; cases h
      | ok xs =>
        rw [hx] at h; cases h
        exact gives_of_array isNaN _ n fill names xs (fun kv' e => hk kv' (by rw [e])) hx i hi
    | array1 ys =>
      simp only [cleanInput] at h
      cases hx : inputToArray isNaN (.array1 ys) n fill names with
      | error e => rw [hx] at h; cases h
      | ok xs =>
        rw [hx] at h; cases h
        exact gives_of_array isNaN _ n fill names xs (fun kv' e => by cases e) hx i hi
    | array2 r => simp [cleanInput, inputToArray] at h

/-- **C72.** Hierarchical optimizations: the same, except that nothing (`None`) is refused. -/
theorem C72_hierarchical (isNaN : V → Bool) (value : Option (Items V)) (n : Nat) (fill : V) (names : Option (List Word)) (xs : List V)
    (hk : ∀ kv, value = some (.dict kv) → DistinctKeys kv) (h : cleanInputArray isNaN value n fill names = .ok xs) :
    value ≠ none ∧ xs.length = n ∧ ∀ i < n, ∃ v, xs[i]? = some v ∧ Gives value fill names i v := by
  cases value with
  | none => cases h
  | some items =>
    refine ⟨by simp, ?_⟩
    cases items with
    | scalar s =>
      cases h
      refine ⟨by simp, fun i hi => ⟨s, by simp [hi], rfl⟩⟩
    | dict kv =>
      have h' : inputToArray isNaN (.dict kv) n fill names = .ok xs := h
      have hk' : ∀ kv', Items.dict kv = .dict kv' → DistinctKeys kv' := fun kv' e => hk kv' (by rw [e])
      exact ⟨((C72_accepted isNaN _ n fill names xs hk').1 h').1, fun i hi => gives_of_array isNaN _ n fill names xs hk' h' i hi⟩
    | array1 ys =>
      have h' : inputToArray isNaN (.array1 ys) n fill names = .ok xs := h
      have hk' : ∀ kv', Items.array1 ys = .dict kv' → DistinctKeys kv' := fun kv' e => by cases e
      exact ⟨((C72_accepted isNaN _ n fill names xs hk').1 h').1, fun i hi => gives_of_array isNaN _ n fill names xs hk' h' i hi⟩
    | array2 r => simp [cleanInputArray, inputToArray] at h

/-- **C72.** A number is accepted as it is, NaN included: only dictionaries and arrays are checked. -/
theorem C72_scalar_unchecked (isNaN : V → Bool) (v : V) (n : Nat) (fill : V) (names : Option (List Word)) :
    cleanInput isNaN (some (.scalar v)) n fill names = .ok (.number v) ∧
    cleanInputArray isNaN (some (.scalar v)) n fill names = .ok (List.replicate n v) := ⟨rfl, rfl⟩

/-- A dictionary for two of three assets, with a key that is not an asset, is accepted. -/
example : inputToArray (fun _ => false) (.dict [(['C'], (3 : Nat)), (['Z'], 9), (['A'], 1)]) 3 0 (some [['A'], ['B'], ['C']]) = .ok [1, 0, 3] := by
  decide
/-- NaN, a wrong length, an array instead of a data frame, and a matrix are refused. -/
example : inputToArray (fun x => x == 7) (.dict [(['C'], (7 : Nat))]) 1 0 (some [['C']]) = .error .nan ∧
    inputToArray (fun _ => false) (.array1 [(1 : Nat), 2]) 3 0 none = .error .shape ∧
    inputToArray (fun _ => false) (.dict [(['C'], (7 : Nat))]) 1 0 none = .error .noNames ∧
    inputToArray (fun _ => false) (.array2 [[(1 : Nat), 2]]) 2 0 none = .error .dim := by decide

end numbers

/-! ### C74 -/

theorem findIdx?_designates (l : List Word) (a : Word) (i : Nat) :
    l.findIdx? (fun b => decide (b = a)) = some i ↔ l[i]? = some a ∧ ∀ k < i, l[k]? ≠ some a := by
  rw [List.findIdx?_eq_some_iff_getElem]
  constructor
  · rintro ⟨h, h1, h2⟩
    refine ⟨by rw [List.getElem?_eq_getElem h]; simpa using h1, fun k hk => ?_⟩
    rw [List.getElem?_eq_getElem (by omega)]
    simpa using h2 k hk
  · rintro ⟨h1, h2⟩
    obtain ⟨h, e⟩ := List.getElem?_eq_some_iff.1 h1
    refine ⟨h, by simpa using e, fun k hk => ?_⟩
    have := h2 k hk
    rw [List.getElem?_eq_getElem (by omega)] at this
    simpa using this

theorem resolve_ok (n : Nat) (names : Option (List Word)) (raise : Bool) (item : AssetRef) (r : List Nat) :
    resolveItem n names raise item = .ok r ↔
      (∃ i, r = [i] ∧ Designates n names item i) ∨ (raise = false ∧ r = [] ∧ Unknown names item) := by
  cases item with
  | index z =>
    simp only [resolveItem, Designates, Unknown, and_false, or_false]
    split_ifs with h
    · constructor
      · intro e; cases e; exact ⟨z.toNat, rfl, by omega, by omega⟩
      · rintro ⟨i, rfl, h1, h2⟩; subst h1; simp
    · constructor
      · intro e; cases e
      · rintro ⟨i, rfl, h1, h2⟩; exact absurd ⟨by omega, by omega⟩ h
  | name a =>
    cases names with
    | none => simp [resolveItem, Designates, Unknown]
    | some l =>
      simp only [resolveItem, Designates, Unknown, Option.some.injEq, exists_eq_left']
      cases hf : l.findIdx? (fun b => decide (b = a)) with
      | some i =>
        have hd := (findIdx?_designates l a i).1 hf
        have hmem : a ∈ l := List.mem_of_getElem? hd.1
        constructor
        · intro e; cases e; exact Or.inl ⟨i, rfl, hd⟩
        · rintro (⟨k, rfl, hk⟩ | ⟨_, _, hn⟩)
          · rw [← findIdx?_designates, hf] at hk; cases hk; rfl
          · exact absurd hmem hn
      | none =>
        have hn : a ∉ l := by
          intro hm
          rw [List.findIdx?_eq_none_iff] at hf
          simpa using hf a hm
        have hno : ¬ ∃ i, r = [i] ∧ l[i]? = some a ∧ ∀ k < i, l[k]? ≠ some a := by
          rintro ⟨i, _, h, _⟩; exact hn (List.mem_of_getElem? h)
        cases raise with
        | true => simp; exact fun i _ h => absurd (List.mem_of_getElem? h) hn
        | false =>
          simp only [Bool.false_eq_true, if_false, true_and]
          constructor
          · intro e; cases e; exact Or.inr ⟨rfl, hn⟩
          · rintro (h | ⟨rfl, _⟩)
            · exact absurd h hno
            · rfl

open Classical in
theorem fold_resolve (n : Nat) (names : Option (List Word)) (raise : Bool) (items : List AssetRef) (acc res : List Nat) :
    items.foldlM (fun res item => (resolveItem n names raise item).map (res ++ ·)) acc = .ok res ↔
      ∃ r, res = acc ++ r ∧ (raise = true → ∀ it ∈ items, ¬ Unknown names it) ∧
        List.Forall₂ (Designates n names) (items.filter fun it => decide (¬ Unknown names it)) r := by
  induction items generalizing acc with
  | nil => simp [pure, Except.pure, eq_comm]
  | cons it items ih =>
    rw [List.foldlM_cons]
    have hexcl : ∀ i, Designates n names it i → ¬ Unknown names it := by
      intro i hd hu
      cases it with
      | index z => exact hu
      | name a =>
        obtain ⟨l, h1, h2, _⟩ := hd
        obtain ⟨l', h1', h2'⟩ := hu
        rw [h1] at h1'; cases h1'
        exact h2' (List.mem_of_getElem? h2)
    cases hr : resolveItem n names raise it with
    | error e =>
      have hno : ∀ r, ¬ ((∃ i, r = [i] ∧ Designates n names it i) ∨ (raise = false ∧ r = [] ∧ Unknown names it)) := by
        intro r h; rw [← resolve_ok, hr] at h; cases h
      simp only [Except.map, bind, Except.bind, reduceCtorEq, false_iff]
      rintro ⟨r, _, h1, h2⟩
      by_cases hu : Unknown names it
      · cases raise with
        | true => exact h1 rfl it (by simp) hu
        | false => exact hno [] (Or.inr ⟨rfl, rfl, hu⟩)
      · rw [List.filter_cons_of_pos (by simpa using hu)] at h2
        cases h2 with
        | cons hd _ => exact hno _ (Or.inl ⟨_, rfl, hd⟩)
    | ok r0 =>
      rw [show ((Except.ok r0 : Except Err (List Nat)).map (acc ++ ·) >>= fun s' =>
        items.foldlM (fun res item => (resolveItem n names raise item).map (res ++ ·)) s') =
        items.foldlM (fun res item => (resolveItem n names raise item).map (res ++ ·)) (acc ++ r0) from rfl, ih]
      rcases (resolve_ok n names raise it r0).1 hr with ⟨i, rfl, hd⟩ | ⟨hf, rfl, hu⟩
      · have hu := hexcl i hd
        rw [List.filter_cons_of_pos (by simpa using hu)]
        constructor
        · rintro ⟨r, rfl, h1, h2⟩
          refine ⟨i :: r, by simp, fun ht x hx => ?_, .cons hd h2⟩
          rcases List.mem_cons.1 hx with rfl | hx
          · exact hu
          · exact h1 ht x hx
        · rintro ⟨r, rfl, h1, h2⟩
          cases h2 with
          | @cons _ k _ r' hd' h2 =>
            have : k = i := by
              have := (resolve_ok n names raise it [k]).2 (Or.inl ⟨k, rfl, hd'⟩)
              rw [hr] at this
              have := Except.ok.inj this
              simpa using this.symm
            subst this
            exact ⟨r', by simp, fun ht x hx => h1 ht x (by simp [hx]), h2⟩
      · rw [List.filter_cons_of_neg (by simpa using hu)]
        subst hf
        simp

/-- **C74.** A list of assets is accepted, with the indices `res`, exactly when no item is repeated and `res` lists, in the order of the
items, the asset that each item designates (the first column of that name, or the index itself, between 0 and `n - 1`). -/
theorem C74_strict (items : List AssetRef) (n : Nat) (names : Option (List Word)) (res : List Nat) :
    validateInputList items n names true = .ok res ↔ items.Nodup ∧ List.Forall₂ (Designates n names) items res := by
  classical
  unfold validateInputList
  by_cases h : items.Nodup
  swap
  · simp [h]
  · rw [if_neg (not_not.2 h), fold_resolve]
    simp only [List.nil_append, true_implies]
    constructor
    · rintro ⟨r, rfl, h1, h2⟩
      rw [List.filter_eq_self.2 (by simpa using h1)] at h2
      exact ⟨h, h2⟩
    · rintro ⟨_, h2⟩
      have h1 : ∀ it ∈ items, ¬ Unknown names it := by
        intro it hit hu
        obtain ⟨k, hk, e⟩ := List.mem_iff_getElem.1 hit
        have hd := h2.get hk (by rw [← h2.length_eq]; exact hk)
        simp only [List.get_eq_getElem, e] at hd
        cases it with
        | index z => exact hu
        | name a =>
          obtain ⟨l, h1, h3, _⟩ := hd
          obtain ⟨l', h1', h3'⟩ := hu
          rw [h1] at h1'; cases h1'
          exact h3' (List.mem_of_getElem? h3)
      exact ⟨res, rfl, h1, by rw [List.filter_eq_self.2 (by simpa using h1)]; exact h2⟩

open Classical in
/-- **C74.** With `raise_if_string_missing=False` the names that no asset has are left out, and nothing else changes. -/
theorem C74_lenient (items : List AssetRef) (n : Nat) (names : Option (List Word)) (res : List Nat) :
    validateInputList items n names false = .ok res ↔
      items.Nodup ∧ List.Forall₂ (Designates n names) (items.filter fun it => decide (¬ Unknown names it)) res := by
  unfold validateInputList
  by_cases h : items.Nodup
  swap
  · simp [h]
  · rw [if_neg (not_not.2 h), fold_resolve]
    simp [h]

theorem designates_lt (n : Nat) (names : Option (List Word)) (hn : ∀ l, names = some l → l.length = n) (it : AssetRef) (i : Nat)
    (h : Designates n names it i) : i < n := by
  cases it with
  | index z => exact h.2
  | name a =>
    obtain ⟨l, h1, h2, _⟩ := h
    rw [← hn l h1]
    exact (List.getElem?_eq_some_iff.1 h2).1

/-- **C74.** Every index that is returned is the index of an asset. -/
theorem C74_in_range (items : List AssetRef) (n : Nat) (names : Option (List Word)) (hn : ∀ l, names = some l → l.length = n)
    (raise : Bool) (res : List Nat) (h : validateInputList items n names raise = .ok res) : ∀ i ∈ res, i < n := by
  classical
  intro i hi
  obtain ⟨its, hf⟩ : ∃ its, List.Forall₂ (Designates n names) its res := by
    cases raise with
    | true => exact ⟨_, ((C74_strict items n names res).1 h).2⟩
    | false => exact ⟨_, ((C74_lenient items n names res).1 h).2⟩
  obtain ⟨k, hk, e⟩ := List.mem_iff_getElem.1 hi
  have hd := hf.get (by rw [hf.length_eq]; exact hk) hk
  simp only [List.get_eq_getElem, e] at hd
  exact designates_lt n names hn _ i hd

theorem nodup_of_forall₂ {A B : Type} (R : A → B → Prop) (l : List A) (r : List B) (hf : List.Forall₂ R l r) (hl : l.Nodup)
    (hinj : ∀ a ∈ l, ∀ a' ∈ l, ∀ b, R a b → R a' b → a = a') : r.Nodup := by
  induction hf with
  | nil => simp
  | @cons a b l r hab hf ih =>
    rw [List.nodup_cons] at hl ⊢
    refine ⟨fun hb => ?_, ih hl.2 fun x hx y hy => hinj x (by simp [hx]) y (by simp [hy])⟩
    obtain ⟨k, hk, e⟩ := List.mem_iff_getElem.1 hb
    have hk' : k < l.length := by rw [hf.length_eq]; exact hk
    have hd := hf.get hk' hk
    simp only [List.get_eq_getElem, e] at hd
    have := hinj a (by simp) l[k] (by simp) b hab hd
    exact hl.1 (this ▸ List.getElem_mem hk')

/-- **C74, in part.** No asset is listed twice, if all items are names or all are indices. Missing: lists that mix names and indices (see
`C74_same_asset_twice`). -/
theorem C74_distinct_partial (items : List AssetRef) (n : Nat) (names : Option (List Word)) (raise : Bool) (res : List Nat)
    (h : validateInputList items n names raise = .ok res)
    (hs : (∀ it ∈ items, ∃ a, it = .name a) ∨ (∀ it ∈ items, ∃ z, it = .index z)) : res.Nodup := by
  classical
  have hinj : ∀ a ∈ items, ∀ a' ∈ items, ∀ b, Designates n names a b → Designates n names a' b → a = a' := by
    intro a ha a' ha' b hd hd'
    rcases hs with hs | hs
    · obtain ⟨x, rfl⟩ := hs a ha
      obtain ⟨y, rfl⟩ := hs a' ha'
      obtain ⟨l, h1, h2, _⟩ := hd
      obtain ⟨l', h1', h2', _⟩ := hd'
      rw [h1] at h1'; cases h1'
      rw [h2] at h2'; cases h2'; rfl
    · obtain ⟨x, rfl⟩ := hs a ha
      obtain ⟨y, rfl⟩ := hs a' ha'
      rw [hd.1, hd'.1]
  cases raise with
  | true =>
    obtain ⟨h1, h2⟩ := (C74_strict items n names res).1 h
    exact nodup_of_forall₂ _ _ _ h2 h1 hinj
  | false =>
    obtain ⟨h1, h2⟩ := (C74_lenient items n names res).1 h
    exact nodup_of_forall₂ _ _ _ h2 (h1.filter _) fun a ha a' ha' => hinj a (List.mem_of_mem_filter ha) a' (List.mem_of_mem_filter ha')

/-- **C74, negated.** An asset given once by name and once by index is accepted and listed twice, for every data frame. -/
theorem C74_same_asset_twice (l : List Word) (i : Nat) (hi : i < l.length) (hl : l.Nodup) (raise : Bool) :
    validateInputList [.name l[i], .index i] l.length (some l) raise = .ok [i, i] := by
  have hd : Designates l.length (some l) (.name l[i]) i := by
    refine ⟨l, rfl, List.getElem?_eq_getElem hi, fun k hk => ?_⟩
    rw [List.getElem?_eq_getElem (by omega)]
    intro e
    have := (List.Nodup.getElem_inj_iff hl).1 (Option.some.inj e)
    omega
  have h2 : List.Forall₂ (Designates l.length (some l)) [.name l[i], .index i] [i, i] :=
    .cons hd (.cons ⟨rfl, hi⟩ .nil)
  have hnd : ([.name l[i], .index i] : List AssetRef).Nodup := by simp
  cases raise with
  | true => exact (C74_strict _ _ _ _).2 ⟨hnd, h2⟩
  | false =>
    classical
    refine (C74_lenient _ _ _ _).2 ⟨hnd, ?_⟩
    rw [List.filter_eq_self.2]
    · exact h2
    · intro it hit
      simp only [List.mem_cons, List.not_mem_nil, or_false] at hit
      rcases hit with rfl | rfl
      · simp [Unknown]
      · simp [Unknown]

example : validateInputList [.name ['B'], .index 0, .name ['Z']] 2 (some [['A'], ['B']]) false = .ok [1, 0] := by decide
example : validateInputList [.name ['B'], .index 0, .name ['Z']] 2 (some [['A'], ['B']]) true = .error (.missing ['Z']) := by decide
example : validateInputList [.index (-1)] 2 none true = .error (.index (-1)) := by decide
/-- The hypotheses of `C74_distinct_partial` are met. -/
example : validateInputList [.name ['B'], .name ['A']] 2 (some [['A'], ['B']]) true = .ok [1, 0] := by decide

/-! ### C75 -/

theorem suffixed_inj (x y : Word) (k m : Nat) (h : suffixed x k = suffixed y m) : x = y ∧ k = m := by
  unfold suffixed at h
  have key : ∀ (x y d e : List Char), '_' ∉ d → '_' ∉ e → x ++ '_' :: d = y ++ '_' :: e → x = y ∧ d = e := by
    intro x
    induction x with
    | nil =>
      intro y d e hd he h
      cases y with
      | nil => simpa using h
      | cons c y =>
        simp only [List.nil_append, List.cons_append, List.cons.injEq] at h
        exact absurd (by rw [h.2]; simp) hd
    | cons c x ih =>
      intro y d e hd he h
      cases y with
      | nil =>
        simp only [List.nil_append, List.cons_append, List.cons.injEq] at h
        exact absurd (by rw [← h.2]; simp) he
      | cons c' y =>
        simp only [List.cons_append, List.cons.injEq] at h
        obtain ⟨h1, h2⟩ := ih y d e hd he h.2
        exact ⟨by rw [h.1, h1], h2⟩
  obtain ⟨h1, h2⟩ := key x y _ _ Nat.underscore_not_in_toDigits Nat.underscore_not_in_toDigits h
  refine ⟨h1, ?_⟩
  have := congrArg (fun d => Nat.ofDigitChars 10 d 0) h2
  simpa [Nat.ofDigitChars_ten_toDigits] using this

theorem suffixed_ne (x : Word) (k : Nat) : suffixed x k ≠ x := by
  intro h
  have := congrArg List.length h
  simp [suffixed] at this

theorem dedupFrom_getElem? (names : List Word) (counts : Word → Nat) (i : Nat) :
    (dedupFrom counts names)[i]? = names[i]?.map fun x =>
      if 0 < counts x + (names.take i).count x then suffixed x (counts x + (names.take i).count x) else x := by
  induction names generalizing counts i with
  | nil => simp [dedupFrom]
  | cons c names ih =>
    cases i with
    | zero => simp [dedupFrom]
    | succ i =>
      rw [dedupFrom, List.getElem?_cons_succ, List.getElem?_cons_succ, ih, List.take_succ_cons]
      congr 1
      funext x
      have : Function.update counts c (counts c + 1) x + (names.take i).count x = counts x + (c :: names.take i).count x := by
        rw [List.count_cons]
        by_cases e : x = c
        · subst e; simp; omega
        · rw [Function.update_of_ne e, if_neg (by simpa using fun h => e h.symm)]; omega
      rw [this]

/-- **C75.** One name per name: the first column of a name keeps it, the one that comes after `k ≥ 1` columns of the same name gets
the suffix `_k`. -/
theorem C75_entry (names : List Word) (i : Nat) :
    (deduplicateNames names)[i]? = names[i]?.map fun x =>
      if x ∈ names.take i then suffixed x ((names.take i).count x) else x := by
  unfold deduplicateNames
  rw [dedupFrom_getElem?]
  congr 1
  funext x
  simp only [Nat.zero_add, List.count_pos_iff]

theorem C75_length (names : List Word) : (deduplicateNames names).length = names.length := by
  apply Nat.le_antisymm
  · by_contra h
    have h1 := C75_entry names names.length
    rw [List.getElem?_eq_getElem (by omega), List.getElem?_eq_none (le_refl _)] at h1
    cases h1
  · by_contra h
    have h1 := C75_entry names (deduplicateNames names).length
    rw [List.getElem?_eq_none (le_refl _), List.getElem?_eq_getElem (by omega)] at h1
    cases h1

/-- **C75.** Names that are already distinct are not changed. -/
theorem C75_unchanged (names : List Word) (h : names.Nodup) : deduplicateNames names = names := by
  apply List.ext_getElem?
  intro i
  rw [C75_entry]
  cases e : names[i]? with
  | none => rfl
  | some x =>
    obtain ⟨hi, e⟩ := List.getElem?_eq_some_iff.1 e
    simp only [Option.map_some, Option.some.injEq]
    rw [if_neg]
    intro hx
    obtain ⟨k, hk, e'⟩ := List.mem_iff_getElem.1 hx
    rw [List.length_take] at hk
    rw [List.getElem_take, ← e] at e'
    have := (List.Nodup.getElem_inj_iff h).1 e'
    omega

theorem exists_occurrence (names : List Word) (y : Word) (k : Nat) (h : k < names.count y) :
    ∃ j, names[j]? = some y ∧ (names.take j).count y = k := by
  induction names generalizing k with
  | nil => simp at h
  | cons c names ih =>
    by_cases e : c = y
    · subst e
      cases k with
      | zero => exact ⟨0, by simp⟩
      | succ k =>
        rw [List.count_cons_self] at h
        obtain ⟨j, h1, h2⟩ := ih k (by omega)
        exact ⟨j + 1, by simpa using h1, by rw [List.take_succ_cons, List.count_cons_self, h2]⟩
    · rw [List.count_cons_of_ne e] at h
      obtain ⟨j, h1, h2⟩ := ih k h
      exact ⟨j + 1, by simpa using h1, by rw [List.take_succ_cons, List.count_cons_of_ne e, h2]⟩

theorem count_take_lt (names : List Word) (x : Word) (i j : Nat) (hij : i < j) (hi : names[i]? = some x) :
    (names.take i).count x < (names.take j).count x := by
  obtain ⟨hl, e⟩ := List.getElem?_eq_some_iff.1 hi
  have h1 : (names.take (i + 1)).count x = (names.take i).count x + 1 := by
    rw [List.take_succ_eq_append_getElem hl, List.count_append, e]; simp
  have h2 : (names.take (i + 1)).Sublist (names.take j) := (List.take_prefix_take_left (by omega)).sublist
  have := h2.count_le x
  omega

/-- **C75, made exact.** The names that are returned are distinct exactly when no name of the list is already one of the names that the
repetitions of a name `y` generate: `y_1`, …, `y_{m-1}` where `m` is the number of columns called `y`. -/
theorem C75_distinct_iff (names : List Word) :
    (deduplicateNames names).Nodup ↔ ∀ x ∈ names, ∀ y k, 1 ≤ k → k < names.count y → x ≠ suffixed y k := by
  constructor
  · intro hnd x hx y k h1 hk e
    obtain ⟨j, hj, hc⟩ := exists_occurrence names y k hk
    obtain ⟨i, hi, hci⟩ := exists_occurrence names x 0 (List.count_pos_iff.2 hx)
    have hi' : (deduplicateNames names)[i]? = some x := by
      rw [C75_entry, hi, Option.map_some, if_neg (by rw [← List.count_pos_iff]; omega)]
    have hj' : (deduplicateNames names)[j]? = some x := by
      rw [C75_entry, hj, Option.map_some, if_pos (by rw [← List.count_pos_iff]; omega), hc, e]
    obtain ⟨hil, ei⟩ := List.getElem?_eq_some_iff.1 hi'
    obtain ⟨hjl, ej⟩ := List.getElem?_eq_some_iff.1 hj'
    have hij : i = j := (List.Nodup.getElem_inj_iff hnd).1 (ei.trans ej.symm)
    subst hij
    rw [hi] at hj
    have := Option.some.inj hj
    rw [e] at this
    exact suffixed_ne y k this
  · intro h
    rw [List.nodup_iff_getElem?_ne_getElem?]
    intro i j hij hjl e
    rw [C75_length] at hjl
    have hi : names[i]? = some names[i] := List.getElem?_eq_getElem (by omega)
    have hj : names[j]? = some names[j] := List.getElem?_eq_getElem hjl
    rw [C75_entry, C75_entry, hi, hj] at e
    simp only [Option.map_some, Option.some.injEq] at e
    have hlt : ∀ (p : Nat) (hp : p < names.length), (names.take p).count names[p] < names.count names[p] := by
      intro p hp
      have := count_take_lt names names[p] p names.length hp (List.getElem?_eq_getElem hp)
      rwa [List.take_length] at this
    split_ifs at e with c1 c2 c2
    · obtain ⟨e1, e2⟩ := suffixed_inj _ _ _ _ e
      have := count_take_lt names names[i] i j hij hi
      rw [← e1] at e2
      omega
    · exact h _ (List.getElem_mem hjl) names[i] _ (List.count_pos_iff.2 c1) (hlt i (by omega)) e.symm
    · exact h _ (List.getElem_mem (by omega)) names[j] _ (List.count_pos_iff.2 c2) (hlt j hjl) e
    · apply c2
      rw [← e]
      exact List.mem_of_getElem? (i := i) (by rw [List.getElem?_take, if_pos hij, hi])

/-- **C75, negated.** The columns `a`, `a`, `a_1` become `a`, `a_1`, `a_1`. -/
theorem C75_not_distinct :
    deduplicateNames ["a".toList, "a".toList, "a_1".toList] = ["a".toList, "a_1".toList, "a_1".toList] := by decide

/-- Three portfolios of the same name and one of another one. -/
example : deduplicateNames ["a".toList, "b".toList, "a".toList, "a".toList] = ["a".toList, "b".toList, "a_1".toList, "a_2".toList] := by
  decide

end Skfolio.Inputs
