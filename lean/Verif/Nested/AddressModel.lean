import Mathlib.Data.List.Infix
import Mathlib.Data.Nat.Notation

/-!
# Parameter addresses of a stacking (model)

Models `BaseComposition._get_params`, `_set_params` and `_validate_names` (`src/skfolio/optimization/ensemble/_base.py` L25-89) and
`StackingOptimization.get_params`, `set_params`, `_validate_estimators` (`optimization/ensemble/_stacking.py` L168-231), on top of
`get_params` and `set_params` of scikit-learn's `BaseEstimator` (as documented there).  `set_params` is modelled for one parameter at
a time; that replacing an estimator by its name raises is C59.  Estimators are objects with an identity: they live on a heap, because
`set_params(name__key=value)` changes the estimator in place.
-/

set_option autoImplicit false

namespace Skfolio.Nested.Address

/-- A Python string. -/
abbrev Name := List Char

/-- `"__"`. -/
def dunder : Name := ['_', '_']

/-- `s.partition("__")`: the part before the first `"__"`, and the part after it if there is one. -/
def partition : Name → Name × Option Name
  | [] => ([], none)
  | c :: rest =>
    if c = '_' ∧ rest.head? = some '_' then ([], some rest.tail)
    else (c :: (partition rest).1, (partition rest).2)

/-- The address `f"{name}__{key}"`. -/
def address (name key : Name) : Name := name ++ (dunder ++ key)

/-- The `key` of an address `f"{name}__{key}"`. -/
def keyOf (name j : Name) : Option Name :=
  if (name ++ dunder) <+: j then some (j.drop (name ++ dunder).length) else none

/-- The values of parameters: estimators by reference. -/
inductive Val (V : Type) | plain (v : V) | ref (r : ℕ) | list (l : List (Name × ℕ))
  deriving DecidableEq

/-- A Python dictionary with strings as keys, by its lookups. -/
abbrev Dict (V : Type) := Name → Option (Val V)

/-- `get_params(deep=True)` and `set_params(key=value)` of the estimators in the stacking; `none` if it raises `ValueError`. -/
structure Leaf (E V : Type) where
  get : E → Dict V
  set : E → Name → Val V → Option E

/-- A `StackingOptimization`: its estimators and its other constructor arguments. -/
structure Stack (V : Type) where
  estimators : List (Name × ℕ)
  args : List (Name × Val V)

inductive Err | runtimeError | valueError | attributeError | notModelled
  deriving DecidableEq

variable {E V : Type}

/-- `out[key] = value`. -/
def Dict.insert (d : Dict V) (key : Name) (v : Val V) : Dict V := fun j => if j = key then some v else d j

/-- `out.update((f"{name}__{key}", value) for key, value in g.items())`. -/
def Dict.insertNested (d : Dict V) (name : Name) (g : Dict V) : Dict V := fun j =>
  match keyOf name j with
  | none => d j
  | some k => (g k).or (d j)

/-- The name of the constructor argument `estimators`. -/
def estimatorsArg : Name := "estimators".toList

/-- One constructor argument in scikit-learn's `BaseEstimator.get_params(deep=True)`: an estimator comes with its own parameters. -/
def addArg (L : Leaf E V) (h : ℕ → E) (d : Dict V) (p : Name × Val V) : Dict V :=
  match p.2 with
  | .ref r => (d.insertNested p.1 (L.get (h r))).insert p.1 p.2
  | _ => d.insert p.1 p.2

/-- `super().get_params(deep=True)`, L26. -/
def baseParams (L : Leaf E V) (h : ℕ → E) (s : Stack V) : Dict V :=
  ((estimatorsArg, Val.list s.estimators) :: s.args).foldl (addArg L h) fun _ => none

/-- `_get_params("estimators", deep=True)`, L25-45. -/
def getParams (L : Leaf E V) (h : ℕ → E) (s : Stack V) : Dict V :=
  let d := s.estimators.foldl (fun d p => d.insert p.1 (.ref p.2)) (baseParams L h s)
  s.estimators.foldl (fun d p => d.insertNested p.1 (L.get (h p.2))) d

/-- `setattr(self, key, value)` for a constructor argument. -/
def Stack.setattr (s : Stack V) (key : Name) (v : Val V) : Stack V :=
  { s with args := s.args.map fun p => if p.1 = key then (key, v) else p }

/-- The estimator at `r` changes in place. -/
def write (h : ℕ → E) (r : ℕ) (e : E) : ℕ → E := fun i => if i = r then e else h i

/-- `set_params(key=v)`, L47-66, and scikit-learn's `BaseEstimator.set_params` for the rest.  Assigning something that is not a list of
estimators to `estimators` is not modelled. -/
def setParam (L : Leaf E V) (h : ℕ → E) (s : Stack V) (key : Name) (v : Val V) : Except Err ((ℕ → E) × Stack V) :=
  if key = estimatorsArg then
    match v with
    | .list l => .ok (h, { s with estimators := l })
    | _ => .error .notModelled
  else if ¬ dunder <:+: key ∧ key ∈ s.estimators.map Prod.fst then .error .runtimeError
  else
    match getParams L h s (partition key).1 with
    | none => .error .valueError
    | some val =>
      match (partition key).2 with
      | none => .ok (h, s.setattr (partition key).1 v)
      | some sub => match val with
        | .ref r => match L.set (h r) sub v with
          | none => .error .valueError
          | some e => .ok (write h r e, s)
        | _ => .error .attributeError

/-- `_validate_names`, L77-89, on the names of the estimators (`_validate_estimators`, `_stacking.py` L168-187): whether `fit` accepts
them. -/
def validNames (s : Stack V) : Bool :=
  !s.estimators.isEmpty && decide (s.estimators.map Prod.fst).Nodup &&
    (s.estimators.map Prod.fst).all (fun n => !(estimatorsArg :: s.args.map Prod.fst).contains n) &&
    (s.estimators.map Prod.fst).all fun n => !decide (dunder <:+: n)

end Skfolio.Nested.Address
