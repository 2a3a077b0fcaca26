import Verif.Portfolio.ArithModel
import Mathlib.Data.Int.Notation

/-!
# Population (model)

Models `population/_population.py` L41-123, L161-201 and L260-345.  `Population` is a subclass of `list`; the semantics of
the list methods it calls or inherits is Python's.
-/

set_option autoImplicit false

namespace Skfolio.Portfolio.Pop

open Skfolio.Portfolio.Arith

/-- What a multi-period portfolio holds (normally portfolios only, see C26). -/
inductive Elem | ptf (id : ℕ) | other (id : ℕ)
  deriving DecidableEq, Repr

/-- Python objects: portfolios, multi-period portfolios (which can be iterated over) and anything else. -/
inductive Item | single (id : ℕ) | multi (id : ℕ) (inner : List Elem) | other (id : ℕ)
  deriving DecidableEq, Repr

/-- The element of a multi-period portfolio as an object. -/
def Elem.item : Elem → Item
  | .ptf id => .single id
  | .other id => .other id

inductive Err | typeError | valueError | indexError
  deriving DecidableEq, Repr

/-- `_validate_item`, L113-123: `isinstance(item, BasePortfolio)`. -/
def valid : Item → Bool
  | .single _ => true
  | .multi _ _ => true
  | .other _ => false

/-- `list(generator)` where the generator validates: the items up to the first invalid one, and whether one was met. -/
def validPrefix : List Item → List Item × Bool
  | [] => ([], true)
  | x :: xs => if valid x then ((x :: (validPrefix xs).1), (validPrefix xs).2) else ([], false)

/-- `Population.__init__`, L41-42. -/
def init (items : List Item) : Except Err (List Item) :=
  if (validPrefix items).2 then .ok (validPrefix items).1 else .error .typeError

/-- Python index of an item of a list of length `n`. -/
def index (n : ℕ) (key : ℤ) : Option ℕ :=
  let k := if key < 0 then key + n else key
  if 0 ≤ k ∧ k < n then some k.toNat else none

/-- Python clamping of a slice bound, also used by `list.insert`. -/
def clamp (n : ℕ) (key : ℤ) : ℕ :=
  if key < 0 then (key + n).toNat else min key.toNat n

/-- `l[a:b]` on a list (step 1). -/
def slice (l : List Item) (a b : ℤ) : List Item :=
  (l.drop (clamp l.length a)).take (clamp l.length b - clamp l.length a)

/-- `l[a:b] = new` on a list (step 1). -/
def spliceAt (l : List Item) (a b : ℤ) (new : List Item) : List Item :=
  let i := clamp l.length a
  l.take i ++ new ++ l.drop (max i (clamp l.length b))

/-- The operations of a program holding several populations.  `iadd` is `population += items`, which `Population` does not
override; slices have step 1. -/
inductive Op
  | new (items : List Item) | append (i : ℕ) (x : Item) | insert (i : ℕ) (key : ℤ) (x : Item)
  | extend (i : ℕ) (items : List Item) | extendPop (i j : ℕ) | setItem (i : ℕ) (key : ℤ) (x : Item)
  | setSlice (i : ℕ) (a b : ℤ) (x : Item) | getSlice (i : ℕ) (a b : ℤ) | add (i j : ℕ) | addOther (i : ℕ)
  | delItem (i : ℕ) (key : ℤ) | delSlice (i : ℕ) (a b : ℤ) | reverse (i : ℕ) | clear (i : ℕ) | imul (i : ℕ) (n : ℕ)
  | iadd (i : ℕ) (items : List Item)

/-- Replace population `i`. -/
def put (w : List (List Item)) (i : ℕ) (l : List Item) : List (List Item) := w.set i l

/-- One operation on population `l`, number `i`: `__getitem__` L47-53, `__setitem__` L55-56, `__add__` L58-63, `insert`
L65-67, `append` L69-71, `extend` L73-78, the rest inherited from `list`.  Results are appended to the world. -/
def stepAt (w : List (List Item)) (i : ℕ) (l : List Item) : Op → List (List Item) × Option Err
  | .new _ => (w, none)
  | .append _ x => if valid x then (put w i (l ++ [x]), none) else (w, some .typeError)
  | .insert _ key x => if valid x then (put w i (spliceAt l key key [x]), none) else (w, some .typeError)
  | .extend _ items =>
    (put w i (l ++ (validPrefix items).1), if (validPrefix items).2 then none else some .typeError)
  | .extendPop _ j => (put w i (l ++ w.getD j []), none)
  | .setItem _ key x =>
    if valid x then match index l.length key with
      | none => (w, some .indexError)
      | some k => (put w i (l.set k x), none)
    else (w, some .typeError)
  | .setSlice _ a b x => match x with
    | .other _ => (w, some .typeError)
    | .single _ => (w, some .typeError)
    | .multi _ inner => (put w i (spliceAt l a b (inner.map Elem.item)), none)
  | .getSlice _ a b => match init (slice l a b) with
    | .ok r => (w ++ [r], none)
    | .error e => (w, some e)
  | .add _ j => match init (l ++ w.getD j []) with
    | .ok r => (w ++ [r], none)
    | .error e => (w, some e)
  | .addOther _ => (w, some .typeError)
  | .delItem _ key => match index l.length key with
    | none => (w, some .indexError)
    | some k => (put w i (l.eraseIdx k), none)
  | .delSlice _ a b => (put w i (spliceAt l a b []), none)
  | .reverse _ => (put w i l.reverse, none)
  | .clear _ => (put w i [], none)
  | .imul _ n => (put w i (List.replicate n l).flatten, none)
  | .iadd _ items => (put w i (l ++ items), none)

/-- The population an operation works on. -/
def Op.target : Op → ℕ
  | .new _ => 0 | .append i _ => i | .insert i _ _ => i | .extend i _ => i | .extendPop i _ => i | .setItem i _ _ => i
  | .setSlice i _ _ _ => i | .getSlice i _ _ => i | .add i _ => i | .addOther i => i | .delItem i _ => i
  | .delSlice i _ _ => i | .reverse i => i | .clear i => i | .imul i _ => i | .iadd i _ => i

/-- One operation; the second component is the exception. Operations on populations that do not exist do nothing. -/
def step (w : List (List Item)) (op : Op) : List (List Item) × Option Err :=
  match op with
  | .new items => match init items with
    | .ok r => (w ++ [r], none)
    | .error e => (w, some e)
  | op => match w[op.target]? with
    | none => (w, none)
    | some l => stepAt w op.target l op

/-- The populations after a history. -/
def run (ops : List Op) : List (List Item) := ops.foldl (fun w op => (step w op).1) []

/-! ### Ordering by a measure -/

section order

variable {α K : Type} [Field K] [LinearOrder K] [FloorRing K]

/-- `sort_measure`, L260-282: `sorted` is stable, also in reverse order.  Measures that are NaN are not modelled. -/
def sortMeasure (l : List α) (measure : α → K) (reverse : Bool) : List α :=
  if reverse then l.mergeSort (fun a b => decide (measure b ≤ measure a))
  else l.mergeSort (fun a b => decide (measure a ≤ measure b))

/-- The index `k` of `quantile`, L308. -/
def quantileIndex (n : ℕ) (q : K) : ℕ := (max 0 (rint ((n : K) * q) - 1)).toNat

/-- `quantile`, L284-309. -/
def quantile (l : List α) (measure : α → K) (q : K) : Except Err α :=
  if ¬ (0 ≤ q ∧ q ≤ 1) then .error .valueError
  else match (sortMeasure l measure false)[quantileIndex l.length q]? with
    | none => .error .indexError
    | some p => .ok p

/-- `min_measure`, L311-327. -/
def minMeasure (l : List α) (measure : α → K) : Except Err α := quantile l measure 0

/-- `max_measure`, L329-345. -/
def maxMeasure (l : List α) (measure : α → K) : Except Err α := quantile l measure 1

end order

/-- `filter`, L161-201: by names and/or tags (a single string is a one-element list). -/
def filterPop {α : Type} (l : List α) (name tag : α → String) (names tags : Option (List String)) : List α :=
  match names, tags with
  | none, none => l
  | some ns, none => l.filter fun p => ns.contains (name p)
  | none, some ts => l.filter fun p => ts.contains (tag p)
  | some ns, some ts => l.filter fun p => ns.contains (name p) && ts.contains (tag p)

end Skfolio.Portfolio.Pop
