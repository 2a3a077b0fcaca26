/-
Model of `cross_val_predict` (src/skfolio/model_selection/_validation.py L180-254) with a splitter that is not combinatorial.
-/
set_option autoImplicit false

namespace Skfolio.Validation

/-- Exceptions raised by `cross_val_predict`. -/
inductive Err where
  /-- "only works with cross-validation setting `shuffle=False`" / "un-shuffled folds", a `ValueError` -/
  | shuffled
  /-- "only works with non-duplicated test indices", a `ValueError` -/
  | duplicated
  /-- `np.concatenate` of an empty list, a `ValueError` -/
  | noSplit
  /-- `splits[0]` or `x[0]` out of range -/
  | indexError
  deriving DecidableEq, Repr

/-- `np.all(np.diff(fold) > 0)`, _validation.py L198. -/
def isIncreasing : List Nat → Bool
  | a :: b :: l => decide (a < b) && isIncreasing (b :: l)
  | _ => true

/-- The shuffle check, _validation.py L185-201. `shuffle` is the attribute `cv.shuffle`, `none` when `cv` has no such attribute;
without it only the train and test arrays of the first split are looked at. -/
def shuffleCheck (shuffle : Option Bool) (splits : List (List Nat × List Nat)) : Except Err Unit :=
  match shuffle with
  | some true => .error .shuffled
  | some false => .ok ()
  | none =>
    match splits with
    | [] => .error .indexError                                            -- `splits[0]`
    | (train, test) :: _ => if isIncreasing train && isIncreasing test then .ok () else .error .shuffled

/-- `np.argsort(keys)`: the positions sorted by key. numpy's default sort is not stable; the order of equal keys does not matter
here because the keys are distinct (see `C08_plain`). -/
def argsort (keys : List Nat) : List Nat :=
  (List.range keys.length).mergeSort fun i j => decide (keys.getD i 0 ≤ keys.getD j 0)

/-- The result of `cross_val_predict`, _validation.py L180-254: the list of portfolios of the returned `MultiPeriodPortfolio`.
`fitPredict train test` is what a clone of the estimator fitted on the rows `train` predicts on the rows `test`
(L206-217, `fit_and_predict`); the clones are independent, so it is a function of these two arguments. Exceptions raised by the
estimator are not modelled. -/
def crossValPredict {β : Type} (shuffle : Option Bool) (splits : List (List Nat × List Nat)) (fitPredict : List Nat → List Nat → β) :
    Except Err (List β) :=
  match shuffleCheck shuffle splits with
  | .error e => .error e
  | .ok () =>
    let predictions := splits.map fun s => fitPredict s.1 s.2
    let testIndices := splits.map Prod.snd
    if splits = [] then .error .noSplit                                    -- np.concatenate([]), L241
    else if ¬ testIndices.flatten.Nodup then .error .duplicated            -- L242-245
    else if testIndices.any List.isEmpty then .error .indexError           -- x[0], L247
    else .ok ((argsort (testIndices.map fun x => x.headD 0)).filterMap fun k => predictions[k]?)  -- L247-252

end Skfolio.Validation
