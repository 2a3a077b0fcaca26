import Verif.Combinatorial.FoldsModel
import Mathlib.Data.Rat.Floor

/-!
# What `CombinatorialPurgedCV` reports about its splits (model)

Models `src/skfolio/model_selection/_combinatorial.py` L318-412: `summary`, `plot_train_test_folds`,
`plot_train_test_index`.  Colours and captions are not modelled.
-/

set_option autoImplicit false

namespace Skfolio.Combinatorial

/-- The columns of the table of `plot_train_test_folds`, L338-350: the numbers of the splits, then one column per fold. -/
def foldsTable (p : Params) : List (List Int) :=
  (List.range (nSplits p.nFolds p.nTestFolds)).map (fun i => (i : Int)) ::
    (List.range p.nFolds).map fun f =>
      (List.range (nSplits p.nFolds p.nTestFolds)).map fun i => if binary p.nFolds p.nTestFolds f i then 1 else 0

/-- The columns of the table of `plot_train_test_index`, L370-383: the numbers of the observations, then one column of
`index_train_test_` per split.  `next(self.split(X))` (L374) raises what `split` raises. -/
def indexTable (p : Params) (nSamples : Nat) : Except Err (List (List Int)) :=
  match split p nSamples with
  | .error e => .error e
  | .ok _ => .ok ((List.range nSamples).map (fun t => (t : Int)) ::
    (List.range (nSplits p.nFolds p.nTestFolds)).map fun i =>
      (List.range nSamples).map (finalCol p nSamples ((testSetIndex p.nFolds p.nTestFolds).getD i [])))

/-- The entries of `summary` that are not parameters, L318-336: average training size, number of test paths, number of
training combinations.  `int` of a positive number rounds down; the division of floats is exact here. -/
def summary (p : Params) (nSamples : Nat) : Nat × Nat × Nat :=
  (⌊(avgTrainSize nSamples p.nFolds p.nTestFolds : ℚ)⌋₊, nTestPaths p.nFolds p.nTestFolds,
    nSplits p.nFolds p.nTestFolds)

end Skfolio.Combinatorial
