import Mathlib.Data.Nat.Choose.Basic

/-
Model of `src/skfolio/model_selection/_combinatorial.py` and of the assembly of predictions in
`src/skfolio/model_selection/_validation.py`.
-/
set_option autoImplicit false

namespace Skfolio.Combinatorial

/-- Exceptions raised by the constructor, `split` and `cross_val_predict`. -/
inductive Err where
  | valueError
  deriving DecidableEq, Repr

/-- `itertools.combinations(xs, k)`: all sublists of length `k` in lexicographic order of positions. -/
def combos {α : Type} : List α → Nat → List (List α)
  | _, 0 => [[]]
  | [], _ + 1 => []
  | x :: xs, k + 1 => (combos xs k).map (x :: ·) ++ combos xs (k + 1)

/-- Constructor parameters, _combinatorial.py L158-195. -/
structure Params where
  nFolds : Nat
  nTestFolds : Nat
  purgedSize : Nat
  embargoSize : Nat

/-- The checks of the constructor, _combinatorial.py L172-190 (sizes are natural numbers, so L186-190 cannot fire; the type
check of L165 is outside the model). -/
def init (nFolds nTestFolds purgedSize embargoSize : Nat) : Except Err Params :=
  if nFolds ≤ 2 then .error .valueError
  else if nTestFolds ≤ 1 then .error .valueError
  else if nTestFolds ≥ nFolds then .error .valueError
  else .ok ⟨nFolds, nTestFolds, purgedSize, embargoSize⟩

/-- `_n_splits`, _combinatorial.py L415-431 (`math.comb`). -/
def nSplits (nFolds nTestFolds : Nat) : Nat := Nat.choose nFolds nTestFolds

/-- `_n_test_paths`, _combinatorial.py L434-453. -/
def nTestPaths (nFolds nTestFolds : Nat) : Nat := nSplits nFolds nTestFolds * nTestFolds / nFolds

/-- `test_set_index`, _combinatorial.py L210-214: row `i` lists the test folds of split `i`. -/
def testSetIndex (nFolds nTestFolds : Nat) : List (List Nat) := combos (List.range nFolds) nTestFolds

/-- `binary_train_test_sets[f, s] == 1`, _combinatorial.py L217-225. -/
def binary (nFolds nTestFolds f s : Nat) : Bool := ((testSetIndex nFolds nTestFolds).getD s []).contains f

/-- `np.argwhere(binary_train_test_sets == 1)[:, 1]`, _combinatorial.py L230: `argwhere` scans the array row by row (fold by
fold). -/
def argwhereCol (nFolds nTestFolds : Nat) : List Nat :=
  (List.range nFolds).flatMap fun f => (List.range (nSplits nFolds nTestFolds)).filter fun s => binary nFolds nTestFolds f s

/-- `a.reshape(rows, -1)` of a one-dimensional array: rows of equal length in order. (numpy raises when the length is not a
multiple of `rows`; theorem `C07_reshape_exact` shows that this does not happen.) -/
def reshape (rows : Nat) (l : List Nat) : List (List Nat) :=
  (List.range rows).map fun r => (l.drop (r * (l.length / rows))).take (l.length / rows)

/-- `recombined_paths`, _combinatorial.py L228-232: entry `[f][p]` is the split whose fold `f` feeds path `p`. -/
def recombinedPaths (nFolds nTestFolds : Nat) : List (List Nat) := reshape nFolds (argwhereCol nFolds nTestFolds)

/-- `np.argwhere(a == i)` for a two-dimensional array: the (row, column) positions of `i`, row by row. -/
def argwhereEq (a : List (List Nat)) (i : Nat) : List (Nat × Nat) :=
  (List.range a.length).flatMap fun f =>
    ((List.range (a.getD f []).length).filter fun p => decide ((a.getD f []).getD p 0 = i)).map fun p => (f, p)

/-- `get_path_ids`, _combinatorial.py L234-241: `path_ids[i, j] = np.argwhere(recombine_paths == i)[j][1]`. (An index `j` out
of range would raise `IndexError`; theorem `C07_path_ids_defined` shows that it never is.) -/
def pathIds (nFolds nTestFolds : Nat) : List (List Nat) :=
  (List.range (nSplits nFolds nTestFolds)).map fun i =>
    (List.range nTestFolds).map fun j => ((argwhereEq (recombinedPaths nFolds nTestFolds) i).getD j (0, 0)).2

/-! ### `split` -/

/-- `fold_index_num`, _combinatorial.py L281-282. -/
def foldNum (nFolds nSamples t : Nat) : Nat :=
  let q := t / (nSamples / nFolds)
  if q = nFolds then nFolds - 1 else q

/-- `fold_index[fold_id]`, _combinatorial.py L307-310. -/
def foldIndex (nFolds nSamples f : Nat) : List Nat := (List.range nSamples).filter fun t => decide (foldNum nFolds nSamples t = f)

/-- Write `v` at position `i` of a column. -/
def upd (c : Nat → Int) (i : Nat) (v : Int) : Nat → Int := fun t => if t = i then v else c t

/-- Column `i` of `index_train_test` after the loop of L284-288: 1 on the observations of the test folds, 0 elsewhere. -/
def initCol (nFolds nSamples : Nat) (testFolds : List Nat) (t : Nat) : Int :=
  if t < nSamples ∧ testFolds.contains (foldNum nFolds nSamples t) then 1 else 0

/-- `np.argwhere(diff == v)[:, 0]` for one column, _combinatorial.py L290, L293, L300. -/
def diffIndex (nSamples : Nat) (c : Nat → Int) (v : Int) : List Nat :=
  (List.range (nSamples - 1)).filter fun r => decide (c (r + 1) - c r = v)

/-- Purge before, _combinatorial.py L294-297, one column. Truncated subtraction on `Nat` is `np.maximum(0, · - k)`. -/
def purgeBefore (purged : Nat) (before : List Nat) (c : Nat → Int) : Nat → Int :=
  (List.range purged).foldl (fun c k => before.foldl (fun c r => upd c (r - k) (-1)) c) c

/-- Purge after and embargo, _combinatorial.py L301-304, one column. -/
def purgeAfter (nSamples m : Nat) (after : List Nat) (c : Nat → Int) : Nat → Int :=
  (List.range m).foldl (fun c k => after.foldl (fun c r => upd c (min (nSamples - 1) (r + k + 1)) (-1)) c) c

/-- Column of `index_train_test_` after L304. The vectorised assignments treat the columns independently. -/
def finalCol (p : Params) (nSamples : Nat) (testFolds : List Nat) : Nat → Int :=
  let c := initCol p.nFolds nSamples testFolds
  purgeAfter nSamples (p.purgedSize + p.embargoSize) (diffIndex nSamples c (-1))
    (purgeBefore p.purgedSize (diffIndex nSamples c 1) c)

/-- `split`, _combinatorial.py L269-316: the list of (train indices, list of test index arrays). -/
def split (p : Params) (nSamples : Nat) : Except Err (List (List Nat × List (List Nat))) :=
  if (p.purgedSize + p.embargoSize : Int) ≥ (nSamples / p.nFolds : Nat) - 1 then .error .valueError    -- L274-279
  else .ok ((List.range (nSplits p.nFolds p.nTestFolds)).map fun i =>
    let col := finalCol p nSamples ((testSetIndex p.nFolds p.nTestFolds).getD i [])
    ((List.range nSamples).filter fun t => decide (col t = 0),                                          -- L312
      (argwhereEq (recombinedPaths p.nFolds p.nTestFolds) i).map fun fp => foldIndex p.nFolds nSamples fp.1))  -- L313-315

/-! ### Assembly of the predictions, `_validation.py` -/

/-- `cross_val_predict` with a combinatorial splitter, _validation.py L219-235: the list of portfolios of each path, from
the predictions `pred i j` of test set `j` of split `i`. `len(prediction)` is the number of test sets of the split. -/
def assemblePaths {β : Type} (nFolds nTestFolds : Nat) (pred : Nat → Nat → β) : List (List β) :=
  let ids := pathIds nFolds nTestFolds
  let pathNb := ids.flatten.foldl max 0 + 1
  (List.range pathNb).map fun path =>
    (List.range (nSplits nFolds nTestFolds)).flatMap fun i =>
      ((List.range nTestFolds).filter fun j => decide ((ids.getD i []).getD j 0 = path)).map fun j => pred i j

end Skfolio.Combinatorial
