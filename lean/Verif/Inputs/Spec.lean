import Verif.Inputs.Model
import Verif.Equations.Spec

/-
Specification for the claims on inputs: what a dictionary says, what a reference to an asset means, what a constraint on groups means
when the groups come from a dictionary. Nothing here uses the definitions of `Model.lean` except the types of the inputs.
-/
set_option autoImplicit false

namespace Skfolio.Inputs

open Skfolio.Equations

/-- `v` is what the dictionary says about `asset`, with `fill` for the assets that are not in it. -/
def Says {V : Type} (kv : List (Word × V)) (fill : V) (asset : Word) (v : V) : Prop :=
  (asset, v) ∈ kv ∨ ((∀ v', (asset, v') ∉ kv) ∧ v = fill)

/-- The dictionary has one item per key. -/
def DistinctKeys {V : Type} (kv : List (Word × V)) : Prop := (kv.map Prod.fst).Nodup

/-- `i` is the asset that the reference designates: the first asset of that name, or the asset of that index. -/
def Designates (n : Nat) (names : Option (List Word)) : AssetRef → Nat → Prop
  | .name a, i => ∃ l, names = some l ∧ l[i]? = some a ∧ ∀ k < i, l[k]? ≠ some a
  | .index z, i => z = i ∧ i < n

/-- The reference is a name that no asset has. -/
def Unknown (names : Option (List Word)) : AssetRef → Prop
  | .name a => ∃ l, names = some l ∧ a ∉ l
  | .index _ => False

/-- The dictionary puts the asset `asset` into the group `g`. -/
def InGroup (kv : List (Word × GroupItem)) (asset g : Word) : Prop :=
  (asset, GroupItem.one g) ∈ kv ∨ ∃ gs, (asset, GroupItem.many gs) ∈ kv ∧ g ∈ gs

/-- What the word `g` of a constraint covers: the assets called `g` and the assets of the group `g`. -/
def Covers {n : Nat} (kv : List (Word × GroupItem)) (names : Fin n → Word) (g : Word) (j : Fin n) : Prop :=
  g = names j ∨ InGroup kv (names j) g

/-- `g` is at level `l` for asset `j`: level 0 is the name of the asset, level `k + 1` the `k`-th group of its entry. -/
def AtLevel {n : Nat} (kv : List (Word × GroupItem)) (names : Fin n → Word) (j : Fin n) (l : Nat) (g : Word) : Prop :=
  (l = 0 ∧ g = names j) ∨ (l = 1 ∧ (names j, GroupItem.one g) ∈ kv) ∨
  ∃ k gs, l = k + 1 ∧ (names j, GroupItem.many gs) ∈ kv ∧ gs[k]? = some g

/-! ### meaning of a constraint, given the value of each name -/

section meaning
variable {K : Type} [Field K] [LinearOrder K]

def termVal (num : Word → Option K) (val : Word → K) : Term → K
  | .num s => numVal num s
  | .name g => val g
  | .mulL s g => numVal num s * val g
  | .mulR g s => val g * numVal num s

def sideVal (num : Word → Option K) (val : Word → K) (s : Side) : K :=
  optSgnVal s.sgn * termVal num val s.first + (s.rest.map fun p => p.1.val * termVal num val p.2).sum

/-- The constraint holds when each name `g` has the value `val g`. -/
def HoldsWith (num : Word → Option K) (val : Word → K) (c : Constraint) : Prop :=
  c.op.holds (sideVal num val c.lhs) (sideVal num val c.rhs)

open Classical in
/-- The total weight of the assets that `g` covers; their average weight when `avg` (the views of Black-Litterman). -/
noncomputable def weightOf {n : Nat} (kv : List (Word × GroupItem)) (names : Fin n → Word) (avg : Bool) (w : Fin n → K) (g : Word) : K :=
  (∑ j, if Covers kv names g j then w j else 0) / (if avg then ((Finset.univ.filter fun j => Covers kv names g j).card : K) else 1)

/-- The names of a term: known names, and numbers that are not names. -/
def TermKnown {n : Nat} (num : Word → Option K) (kv : List (Word × GroupItem)) (names : Fin n → Word) : Term → Prop
  | .num s => (num s ≠ none ∧ ∀ j, ¬ Covers kv names s j) ∧ Atom s
  | .name g => (∃ j, Covers kv names g j) ∧ Atom g
  | .mulL s g => (num s ≠ none ∧ ∀ j, ¬ Covers kv names s j) ∧ Atom s ∧ (∃ j, Covers kv names g j) ∧ Atom g
  | .mulR g s => (num s ≠ none ∧ ∀ j, ¬ Covers kv names s j) ∧ Atom s ∧ (∃ j, Covers kv names g j) ∧ Atom g

/-- All terms of the constraint are made of known names and of numbers. -/
def ConstraintKnown {n : Nat} (num : Word → Option K) (kv : List (Word × GroupItem)) (names : Fin n → Word) (c : Constraint) : Prop :=
  TermKnown num kv names c.lhs.first ∧ (∀ p ∈ c.lhs.rest, TermKnown num kv names p.2) ∧
  TermKnown num kv names c.rhs.first ∧ (∀ p ∈ c.rhs.rest, TermKnown num kv names p.2)

end meaning

end Skfolio.Inputs
