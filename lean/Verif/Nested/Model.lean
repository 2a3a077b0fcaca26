import Verif.Validation.Model
import Verif.Combinatorial.Model
import Mathlib.Algebra.Field.Defs
import Mathlib.Algebra.BigOperators.Group.List.Basic
import Mathlib.Logic.Function.Basic
import Mathlib.Algebra.Order.Ring.Int

/-!
Model of `NestedClustersOptimization.fit` (`src/skfolio/optimization/cluster/_nco.py` L216-392, abbreviated N) and of `StackingOptimization.fit` (`src/skfolio/optimization/ensemble/_stacking.py` L243-355, abbreviated S).
Not modelled: the distance and clustering estimators (the labels are an argument), parallelism, metadata routing, exceptions raised by the estimators, inner estimators with several portfolios (two-dimensional `weights_`).
-/
set_option autoImplicit false

namespace Skfolio.Nested

/-- Exceptions raised by `fit`. -/
inductive Err where
  /-- raised by `cross_val_predict` -/
  | validation (e : Validation.Err)
  /-- raised by the splitter -/
  | splitter
  /-- `np.array(X_pred)` of columns of different lengths, a `ValueError` -/
  | inhomogeneous
  /-- indices out of range -/
  | indexError
  /-- `y` with more than one column in `validate_data`, a `ValueError` -/
  | targetShape
  deriving DecidableEq, Repr

/-- The results of a list of jobs: the first exception, or all results (`skp.Parallel`, and the loops over clusters). -/
def sequence {β : Type} : List (Except Err β) → Except Err (List β)
  | [] => .ok []
  | .error e :: _ => .error e
  | .ok b :: l => match sequence l with
    | .error e => .error e
    | .ok r => .ok (b :: r)

/-- `clusters`, N L276-278: the assets of each label, in increasing order, for the labels `0, …, max(labels)`. -/
def clusters (labels : List ℤ) : List (List ℕ) :=
  (List.range (labels.foldl max (-1) + 1).toNat).map fun i : ℕ => (List.range labels.length).filter fun a => labels.getD a (-1) == (i : ℤ)

/-- The argument `cv`, N L318-349: "ignore", a splitter (with the value of its attribute `shuffle` and the splits it yields), or a `CombinatorialPurgedCV`. -/
inductive Cv where
  | ignore
  | plain (shuffle : Option Bool) (splits : List (List ℕ × List ℕ))
  | combinatorial (p : Combinatorial.Params)

section
variable {K : Type} [Field K]

/-- `X[rows][:, cols]`. -/
def data (X : ℕ → ℕ → K) (rows cols : List ℕ) : List (List K) := rows.map fun t => cols.map (X t)

/-- `estimator.predict(X[rows][:, cols])` as an array: the returns of the portfolio with the fitted weights `w`, `portfolio/_portfolio.py` L521-532: `X @ weights` less the transaction costs and management fees, which are the same
for each observation and depend on the weights only (`charge`). -/
def predict (charge : List K → K) (X : ℕ → ℕ → K) (w : List K) (cols rows : List ℕ) : List K :=
  rows.map fun t => (List.zipWith (· * ·) w (cols.map (X t))).sum - charge w

/-- `w = np.zeros(n_assets); w[ids] = vals`, N L304-312. -/
def scatter (ids : List ℕ) (vals : List K) : ℕ → K := (ids.zip vals).foldl (fun f p => Function.update f p.1 p.2) fun _ => 0

/-- One row of `inner_weights`, N L303-313: 1 for a single asset, otherwise the weights of the inner estimator fitted on all observations of the assets of the cluster. -/
def innerRow (est : List (List K) → List K) (X : ℕ → ℕ → K) (nObs : ℕ) (ids : List ℕ) : ℕ → K :=
  match ids with
  | [a] => scatter [a] [1]
  | ids => scatter ids (est (data X (List.range nObs) ids))

/-- `test_indices`, N L325-349. -/
def testIndices (nObs : ℕ) : Cv → List ℕ
  | .ignore => List.range nObs
  | .combinatorial _ => List.range nObs
  | .plain _ splits => (splits.flatMap Prod.snd).mergeSort

/-- `cross_val_predict` of an estimator restricted to the columns `ids`, N L333-347, S L311-322, and, for a combinatorial splitter, the path selected by `quantile` (N L369-372, S L331-337; `pick` is the position of the selected path, population/_population.py L284-309).
The predictions of the portfolios are concatenated by `np.asarray`. -/
def cvPredict (est : List ℕ → List K) (charge : List K → K) (pick : List (List K) → ℕ) (X : ℕ → ℕ → K) (nObs : ℕ) (ids : List ℕ) : Cv → Except Err (List K)
  | .ignore => .ok (predict charge X (est (List.range nObs)) ids (List.range nObs))
  | .plain shuffle splits => match Validation.crossValPredict shuffle splits fun train test => predict charge X (est train) ids test with
    | .error e => .error (.validation e)
    | .ok P => .ok P.flatten
  | .combinatorial p => match Combinatorial.split p nObs with
    | .error _ => .error .splitter
    | .ok L =>
      let paths := (Combinatorial.assemblePaths p.nFolds p.nTestFolds fun i j => predict charge X (est (L.getD i ([], [])).1) ids ((L.getD i ([], [])).2.getD j [])).map List.flatten
      match paths[pick paths]? with
      | none => .error .indexError
      | some c => .ok c

/-- One column of `X_pred`, N L362-375. -/
def column (est : List (List K) → List K) (charge : List K → K) (pick : List (List K) → ℕ) (X : ℕ → ℕ → K) (nObs : ℕ) (cv : Cv) (ids : List ℕ) : Except Err (List K) :=
  match ids with
  | [a] => .ok ((testIndices nObs cv).map fun t => X t a)
  | ids => cvPredict (fun train => est (data X train ids)) charge pick X nObs ids cv

/-- `outer_weights @ inner_weights`, N L391, S L354. -/
def combine (outer : List K) (inner : List (ℕ → K)) (a : ℕ) : K := (List.zipWith (fun o f => o * f a) outer inner).sum

/-- What `fit` computes: the inner weights, the columns of `X_pred`, the outer weights and `weights_`. -/
structure Fitted (K : Type) where
  inner : List (ℕ → K)
  xPred : List (List K)
  outer : List K
  weights : ℕ → K

/-- `NestedClustersOptimization.fit(X)`, N L216-392, for `y=None`. `outer` gives the weights of the outer estimator fitted on `X_pred`. -/
def nco (labels : List ℤ) (est : List (List K) → List K) (charge : List K → K) (pick : List (List K) → ℕ) (outer : List (List K) → List K) (X : ℕ → ℕ → K) (nObs : ℕ) (cv : Cv) : Except Err (Fitted K) :=
  let cl := clusters labels
  let inner := cl.map (innerRow est X nObs)
  match sequence (cl.map (column est charge pick X nObs cv)) with
  | .error e => .error e
  | .ok cols =>
    if ¬ cols.Pairwise (fun c d => c.length = d.length) then .error .inhomogeneous
    else .ok ⟨inner, cols, outer cols, combine (outer cols) inner⟩

end

/-! ### Targets in `NestedClustersOptimization` -/

/-- The argument `y` when it is given as an array with one dimension, or as an array or data frame with two dimensions and `columns` columns. A pandas Series is not modelled. -/
inductive Target where
  | vector
  | matrix (columns : ℕ)
  deriving DecidableEq, Repr

/-- `safe_indexing(y, indices=ids, axis=1)`, `utils/tools.py` L190-219: `y[:, ids]`. -/
def sliceTarget (y : Target) (ids : List ℕ) : Except Err Target :=
  match y with
  | .vector => .error .indexError
  | .matrix m => if ids.all (· < m) then .ok (.matrix ids.length) else .error .indexError

/-- The path of `y` through `fit`, N L282-302 (`fit_single_estimator(…, indices=cluster_ids, axis=1)`, `utils/tools.py` L571-615) and N L351-358 (`validate_data` without `multi_output`): what each of the inner estimators gets. -/
def ncoTargets (labels : List ℤ) (y : Target) : Except Err (List Target) :=
  match sequence (((clusters labels).filter fun ids => decide (ids.length ≠ 1)).map (sliceTarget y)) with
  | .error e => .error e
  | .ok ys => match y with
    | .vector => .ok ys
    | .matrix 1 => .ok ys
    | .matrix _ => .error .targetShape

/-! ### Stacking -/

section
variable {K Y : Type} [Field K]

/-- `y[rows]`. -/
def targetRows (y : Option (ℕ → Y)) (rows : List ℕ) : Option (List Y) := y.map rows.map

/-- `StackingOptimization.fit(X, y)` with the default, a splitter or "ignore" as `cv`, S L243-355. `ests` are the estimators, as functions from the data and targets to the weights, with their charges. The result contains the targets on which the final estimator is fitted. -/
def stacking (ests : List ((List (List K) → Option (List Y) → List K) × (List K → K))) (pick : List (List K) → ℕ) (outer : List (List K) → Option (List Y) → List K) (X : ℕ → ℕ → K) (y : Option (ℕ → Y)) (nAssets nObs : ℕ) (cv : Cv) :
    Except Err (Fitted K × Option (List Y)) :=
  let cols := List.range nAssets
  let inner := ests.map fun e => scatter cols (e.1 (data X (List.range nObs) cols) (targetRows y (List.range nObs)))
  match sequence (ests.map fun e => cvPredict (fun train => e.1 (data X train cols) (targetRows y train)) e.2 pick X nObs cols cv) with
  | .error e => .error e
  | .ok xPred =>
    if ¬ xPred.Pairwise (fun c d => c.length = d.length) then .error .inhomogeneous
    else
      let yPred := targetRows y (testIndices nObs cv)
      .ok (⟨inner, xPred, outer xPred yPred, combine (outer xPred yPred) inner⟩, yPred)

/-- `StackingOptimization.fit(X, y)` with `cv="prefit"`, S L278-283 and L304-309: `fitted` are the weights of the fitted estimators, with their charges. -/
def stackingPrefit (fitted : List (List K × (List K → K))) (outer : List (List K) → Option (List Y) → List K) (X : ℕ → ℕ → K) (y : Option (ℕ → Y)) (nAssets nObs : ℕ) : Fitted K :=
  let inner := fitted.map fun e => scatter (List.range nAssets) e.1
  let xPred := fitted.map fun e => predict e.2 X e.1 (List.range nAssets) (List.range nObs)
  let yPred := targetRows y (List.range nObs)
  ⟨inner, xPred, outer xPred yPred, combine (outer xPred yPred) inner⟩

end

end Skfolio.Nested
