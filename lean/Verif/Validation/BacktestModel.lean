import Verif.Validation.Model
import Verif.WalkForward.Model

/-!
Model of a backtest: `cross_val_predict` (`src/skfolio/model_selection/_validation.py` L125-254) with a `WalkForward` splitter (`src/skfolio/model_selection/_walk_forward.py`) and
`fit_and_predict` (`src/skfolio/utils/tools.py` L618-685). It composes the models of C03-C05 and C08. A row is everything that belongs to one observation: the returns of the assets, of the factors in `y`
and the metadata (C95 shows that these are cut alike). The estimator is any function: `fit` maps the training rows to its fitted state (with the weights) and `predict` maps that state and
the test rows to a portfolio. Its random numbers, if any, are those of a fixed `random_state`.
-/
set_option autoImplicit false

namespace Skfolio.Validation

/-- An estimator that is cloned, fitted and asked for a prediction. -/
structure Estimator (R W P : Type) where
  fit : List R → W
  predict : W → List R → P

variable {R W P : Type}

/-- `fit_and_predict`, `utils/tools.py` L618-685, on the rows given by their indices. -/
def Estimator.fitPredict (est : Estimator R W P) (X : Nat → R) (train test : List Nat) : P :=
  est.predict (est.fit (train.map X)) (test.map X)

inductive BacktestErr where
  | split (e : WalkForward.Err)
  | validation (e : Err)
  /-- the generator of splits does not stop -/
  | diverges

/-- `cross_val_predict(estimator, X, cv=WalkForward(...))` on the first `n` rows of `X`. `WalkForward` has no attribute `shuffle`. -/
def backtest (est : Estimator R W P) (p : WalkForward.Params) (X : Nat → R) (n fuel : Nat) : Except BacktestErr (List P) :=
  match WalkForward.split p n fuel with
  | .error e => .error (.split e)
  | .ok none => .error .diverges
  | .ok (some splits) => match crossValPredict none splits (est.fitPredict X) with
    | .error e => .error (.validation e)
    | .ok l => .ok l

/-- The same with the periods of a frequency, `_walk_forward.py` L345-389. The indices are not negative (C05). -/
def periodBacktest (est : Estimator R W P) (p : WalkForward.Params) (previous : Bool) (ts calendar : List Int) (X : Nat → R) (fuel : Nat) : Except BacktestErr (List P) :=
  match WalkForward.periodSplit p previous ts calendar fuel with
  | none => .error .diverges
  | some splits => match crossValPredict none (splits.map fun s => (s.1.map Int.toNat, s.2.map Int.toNat)) (est.fitPredict X) with
    | .error e => .error (.validation e)
    | .ok l => .ok l

end Skfolio.Validation
