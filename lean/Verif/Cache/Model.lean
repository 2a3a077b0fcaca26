import Mathlib.Data.Int.Notation
import Mathlib.Data.Int.Basic

/-!
# Cached methods (model)

Models `cache_method` and `_make_key` (`src/skfolio/utils/tools.py` L118-124, L264-307), by which the convex optimizations build every
expression of a fit once.  The dictionary is keyed by the hash of the arguments, not by the arguments.  That the attribute exists and
is a dictionary (L287-297) is taken for granted: `_clear_models_cache` creates it in the constructor.
-/

set_option autoImplicit false

namespace Skfolio.Cache

/-- Python values, as far as hashing is concerned. -/
inductive Obj
  /-- an integer (or a float with an integer value) -/
  | int (n : ℤ)
  | str (s : String)
  /-- an object hashed by its identity: CVXPY variables, prior models, uncertainty sets -/
  | obj (id : ℕ)
  /-- arrays, lists, dictionaries: not hashable -/
  | unhashable
  deriving DecidableEq, Repr

/-- The parts of Python's `hash` that are not fixed by the language: the hashes of strings and objects, and how a tuple combines the
hashes of its elements. -/
structure Hash where
  str : String → ℤ
  obj : ℕ → ℤ
  tuple : List ℤ → ℤ

/-- `hash(n)` of CPython on 64 bits: modulo `2 ^ 61 - 1` with the sign of `n`; `-1` is reserved for errors and replaced by `-2`. -/
def intHash (n : ℤ) : ℤ :=
  let m := n.sign * ((n.natAbs % (2 ^ 61 - 1) : ℕ) : ℤ)
  if m = -1 then -2 else m

/-- `hash(x)`; `none` if it raises `TypeError: unhashable type`. -/
def Hash.of (H : Hash) : Obj → Option ℤ
  | .int n => some (intHash n)
  | .str s => some (H.str s)
  | .obj i => some (H.obj i)
  | .unhashable => none

/-- The arguments of a call. -/
structure Call where
  method : String
  args : List Obj
  kwds : List (String × Obj)
  deriving DecidableEq

/-- The tuple that is hashed, L120-123: the positional arguments, then names and values of the keyword arguments in the order of the
call. -/
def Call.tuple (c : Call) : List Obj := c.args ++ c.kwds.flatMap fun p => [.str p.1, p.2]

/-- `_make_key`, L118-124. -/
def Call.key (H : Hash) (c : Call) : Option ℤ := (c.tuple.mapM H.of).map H.tuple

inductive Err (X : Type)
  /-- raised by `_make_key` -/
  | typeError
  /-- raised by the method -/
  | method (x : X)
  deriving DecidableEq

/-- `cache[func_name][key]`. -/
abbrev Store (V : Type) := String → ℤ → Option V

variable {V X : Type}

/-- `c[key] = value`. -/
def Store.insert (s : Store V) (m : String) (k : ℤ) (v : V) : Store V :=
  fun m' k' => if m' = m ∧ k' = k then some v else s m' k'

/-- The outcome of a call through the wrapper: what the caller gets, whether the method was run, and the cache. -/
structure Outcome (V X : Type) where
  result : Except (Err X) V
  ran : Bool
  store : Store V

/-- The wrapper, L282-303. -/
def wrapper (H : Hash) (body : Call → Except X V) (s : Store V) (c : Call) : Outcome V X :=
  match c.key H with
  | none => ⟨.error .typeError, false, s⟩
  | some k =>
    match s c.method k with
    | some v => ⟨.ok v, false, s⟩
    | none =>
      match body c with
      | .error x => ⟨.error (.method x), true, s⟩
      | .ok v => ⟨.ok v, true, s.insert c.method k v⟩

/-- The calls of a fit, in order, from a given cache: what each call returned and whether the method was run. -/
def calls (H : Hash) (body : Call → Except X V) : Store V → List Call → List (Except (Err X) V × Bool)
  | _, [] => []
  | s, c :: cs =>
    let o := wrapper H body s c
    (o.result, o.ran) :: calls H body o.store cs

/-- A fit: the cache starts empty (`_clear_models_cache`, `optimization/convex/_base.py` L659-661). -/
def fit (H : Hash) (body : Call → Except X V) (cs : List Call) : List (Except (Err X) V × Bool) :=
  calls H body (fun _ _ => none) cs

end Skfolio.Cache
