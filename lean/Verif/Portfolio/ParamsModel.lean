import Verif.Portfolio.CacheModel

/-!
# `Population.set_portfolio_params` (model)

Models `population/_population.py` L80-111 on top of the assignments of `CacheModel`. The portfolios are objects on a heap; a population is a list of references and may hold the
same object twice.
-/

set_option autoImplicit false

namespace Skfolio.Portfolio

variable {V : Type}

/-- A keyword argument: a parameter of `BasePortfolio.__init__` (`portfolio/_base.py` L478-497) with a value, the fitness measures, or another name. -/
inductive Setting (V : Type)
  | param (p : Param) (v : V)
  | fitness (l : List Measure)
  | unknown (key : String)

/-- `setattr(portfolio, key, value)`, `population/_population.py` L111. -/
def assign (s : State V) : Setting V → Except Err (State V)
  | .param p v => setParam s p v
  | .fitness l => setFitnessMeasures s l
  | .unknown _ => .error .attributeError

/-- The inner loop, L110-111: the state when it ends, and the exception that ends it. -/
def assignAll : State V → List (Setting V) → State V × Option Err
  | s, [] => (s, none)
  | s, x :: xs => match assign s x with
    | .ok s1 => assignAll s1 xs
    | .error e => (s, some e)

/-- The outer loop, L109-111. -/
def assignLoop (settings : List (Setting V)) : List (State V) → List Nat → List (State V) × Option Err
  | heap, [] => (heap, none)
  | heap, i :: rest => match heap[i]? with
    | none => assignLoop settings heap rest
    | some s => match assignAll s settings with
      | (s1, none) => assignLoop settings (heap.set i s1) rest
      | (s1, some e) => (heap.set i s1, some e)

/-- What the call gives: the population itself, `None`, the `ValueError` of an invalid name, or an exception of an assignment. -/
inductive Outcome | self | none | invalidName | raised (e : Err)
  deriving DecidableEq, Repr

def Setting.isUnknown : Setting V → Bool
  | .unknown _ => true
  | _ => false

/-- `set_portfolio_params`, L80-111. -/
def setPortfolioParams (heap : List (State V)) (population : List Nat) (settings : List (Setting V)) : List (State V) × Outcome :=
  if settings.isEmpty then (heap, .self)
  else if settings.any Setting.isUnknown then (heap, .invalidName)
  else match assignLoop settings heap population with
    | (heap', none) => (heap', .none)
    | (heap', some e) => (heap', .raised e)

end Skfolio.Portfolio
