import Verif.Portfolio.Enums
import Verif.Sorting.Model
import Mathlib.Algebra.Order.Ring.Defs

/-!
# Fitness, comparison of portfolios and scorers (model)

Models `portfolio/_base.py` L532-551, L656-666, L786-811 and `metrics/_scorer.py` L22-126.  A portfolio is what it answers
when asked for a measure (that this is never a stale value is C25); NaN is left out.
-/

set_option autoImplicit false

namespace Skfolio.Portfolio.Score

open Skfolio.Portfolio

/-- A portfolio, seen through its measures and its fitness measures. -/
structure Ptf (K : Type) where
  value : Measure → K
  fitnessMeasures : List Measure

inductive Err | typeError | valueError
  deriving DecidableEq, Repr

variable {K : Type} [Ring K] [LinearOrder K]

/-- `fitness`, `portfolio/_base.py` L656-666. -/
def fitness (p : Ptf K) : List K :=
  p.fitnessMeasures.map fun m => (if m.isPerf || m.isRatio then 1 else -1) * p.value m

/-- `fitness[idx]`: everything for `None`, else the objectives with the given positions (the values of out-of-range positions
raise in the code and are ruled out in the theorems). -/
def select (f : List K) : Option (List ℕ) → List K
  | none => f
  | some idx => idx.map fun i => f.getD i 0

/-- `dominates`, `portfolio/_base.py` L786-811. -/
def dominates (p q : Ptf K) (idx : Option (List ℕ)) : Except Sorting.Err Bool :=
  Sorting.dominate (select (fitness p) idx) (select (fitness q) idx)

/-- `__eq__`, `portfolio/_base.py` L532-535, between portfolios. -/
def eq (p q : Ptf K) : Bool := decide (fitness p = fitness q)

/-- `__gt__`, `portfolio/_base.py` L537-543, between portfolios. -/
def gt (p q : Ptf K) : Except Sorting.Err Bool := dominates p q none

/-- `__ge__`, `portfolio/_base.py` L545-551, between portfolios. -/
def ge (p q : Ptf K) : Except Sorting.Err Bool := if eq p q then .ok true else gt p q

/-- The first argument of `make_scorer`: a measure, a function of the predicted portfolio (with its keyword arguments), or
anything else. -/
inductive ScoreFunc (K : Type) | measure (m : Measure) | function (f : Ptf K → K) | other

/-- `make_scorer` and the call of the scorer, `metrics/_scorer.py` L22-54, L106-126, as a function of the prediction. -/
def makeScorer (sf : ScoreFunc K) (greaterIsBetter : Option Bool) : Except Err (Ptf K → K) :=
  match sf with
  | .function f =>
    let better := greaterIsBetter.getD true
    .ok fun pred => (if better then 1 else -1) * f pred
  | .other => .error .typeError
  | .measure m =>
    let better := greaterIsBetter.getD (if m.isPerf || m.isRatio then true else false)
    .ok fun pred => (if better then 1 else -1) * pred.value m

end Skfolio.Portfolio.Score
