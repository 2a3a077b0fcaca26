import Verif.Nested.Model

/-!
Model of what estimators are given when they are fitted on a part of the data: `_check_method_params`, `safe_indexing`, `safe_split`, `fit_single_estimator` and
`fit_and_predict` (`src/skfolio/utils/tools.py` L147-261 and L573-685, abbreviated T), the slicing in `cross_val_predict` (`src/skfolio/model_selection/_validation.py`
L125-213, abbreviated V) and in `NestedClustersOptimization.fit` (`src/skfolio/optimization/cluster/_nco.py` L282-343, abbreviated N).
An estimator is modelled by what its `fit` receives. Indices are natural numbers. The checks of the splits are in `Verif.Validation` (C08), the routing of the keywords in
`Verif.Routing` (C91).
-/
set_option autoImplicit false

namespace Skfolio.FitParams

/-- A value given as data or as a keyword of `fit`. -/
inductive Data (A : Type) where
  /-- an array or series of one dimension -/
  | vec (n : Nat) (cell : Nat → A)
  /-- an array of two dimensions, with column names if it is a DataFrame -/
  | mat (names : Option (Nat → String)) (n m : Nat) (cell : Nat → Nat → A)
  /-- an object without `shape`, such as a list or a number -/
  | other

inductive Err where
  /-- "wrong number of observations" -/
  | observations
  /-- `param_value.shape` of an object that has none -/
  | attribute
  /-- index out of bounds -/
  | index
  /-- columns of a one-dimensional array -/
  | axis
  /-- "inconsistent numbers of samples", of `sklearn.utils.indexable` -/
  | inconsistent

variable {A : Type}

/-- `shape[0]`. -/
def Data.nRows : Data A → Option Nat
  | .vec n _ => some n
  | .mat _ n _ _ => some n
  | .other => none

/-- `safe_indexing` with `axis=0`, T L190-219. Objects without shape are only reached as `X` or `y`, for which scikit-learn's checks of the estimators are not modelled: they are left as they are. -/
def takeRows (idx : List Nat) : Data A → Except Err (Data A)
  | .vec n cell => if ∀ i ∈ idx, i < n then .ok (.vec idx.length fun t => cell (idx.getD t 0)) else .error .index
  | .mat names n m cell => if ∀ i ∈ idx, i < n then .ok (.mat names idx.length m fun t j => cell (idx.getD t 0) j) else .error .index
  | .other => .ok .other

/-- `safe_indexing` with `axis=1`: `X[:, indices]` or `take(indices, axis=1)`. -/
def takeColumns (idx : List Nat) : Data A → Except Err (Data A)
  | .vec _ _ => .error .axis
  | .mat names n m cell => if ∀ j ∈ idx, j < m then .ok (.mat (names.map fun f j => f (idx.getD j 0)) n idx.length fun t j => cell t (idx.getD j 0)) else .error .index
  | .other => .ok .other

inductive Axis where
  | rows
  | columns

/-- `safe_indexing`; `None` selects everything. -/
def safeIndexing (idx : Option (List Nat)) (axis : Axis) (d : Data A) : Except Err (Data A) :=
  match idx with
  | none => .ok d
  | some l => match axis with
    | .rows => takeRows l d
    | .columns => takeColumns l d

/-- `safe_split`, T L222-261. -/
def safeSplit (x : Data A) (y : Option (Data A)) (idx : Option (List Nat)) (axis : Axis) : Except Err (Data A × Option (Data A)) :=
  match safeIndexing idx axis x with
  | .error e => .error e
  | .ok x' => match y with
    | none => .ok (x', none)
    | some y => match safeIndexing idx axis y with
      | .error e => .error e
      | .ok y' => .ok (x', some y')

/-- One parameter in `_check_method_params`, T L172-186. -/
def checkParam (nObs : Option Nat) (idx : Option (List Nat)) (axis : Axis) (p : String × Data A) : Except Err (String × Data A) :=
  match p.2.nRows with
  | none => .error .attribute
  | some n =>
    if some n ≠ nObs then .error .observations
    else match safeIndexing idx axis p.2 with
      | .error e => .error e
      | .ok d => .ok (p.1, d)

/-- The first exception or all results. -/
def sequence {β : Type} : List (Except Err β) → Except Err (List β)
  | [] => .ok []
  | .error e :: _ => .error e
  | .ok b :: l => match sequence l with
    | .error e => .error e
    | .ok r => .ok (b :: r)

/-- `_check_method_params`, T L147-187. -/
def checkMethodParams (x : Data A) (params : List (String × Data A)) (idx : Option (List Nat)) (axis : Axis) : Except Err (List (String × Data A)) :=
  sequence (params.map (checkParam x.nRows idx axis))

/-- What `estimator.fit` receives. -/
structure Seen (A : Type) where
  x : Data A
  y : Option (Data A)
  params : List (String × Data A)

/-- `fit_single_estimator`, T L573-615. -/
def fitSingle (x : Data A) (y : Option (Data A)) (params : List (String × Data A)) (idx : Option (List Nat)) (axis : Axis) : Except Err (Seen A) :=
  match checkMethodParams x params idx axis with
  | .error e => .error e
  | .ok ps => match safeSplit x y idx axis with
    | .error e => .error e
    | .ok (x', y') => .ok ⟨x', y', ps⟩

/-- `fit_and_predict`, T L618-685: what is fitted, and the data of each prediction. A single test set is a list of one. -/
def fitAndPredict (x : Data A) (y : Option (Data A)) (params : List (String × Data A)) (cols : Option (List Nat)) (split : List Nat × List (List Nat)) :
    Except Err (Seen A × List (Data A)) :=
  match checkMethodParams x params (some split.1) .rows with
  | .error e => .error e
  | .ok ps => match safeSplit x y cols .columns with
    | .error e => .error e
    | .ok (x1, y1) => match safeSplit x1 y1 (some split.1) .rows with
      | .error e => .error e
      | .ok (x2, y2) => match sequence (split.2.map fun t => takeRows t x1) with
        | .error e => .error e
        | .ok tests => .ok (⟨x2, y2, ps⟩, tests)

/-- `sku.indexable(X, y)`, V L128. -/
def indexable (x : Data A) (y : Option (Data A)) : Except Err Unit :=
  match y with
  | none => .ok ()
  | some y => if y.nRows = x.nRows then .ok () else .error .inconsistent

/-- The fits of `cross_val_predict`, V L125-213. The column indices are applied to `X` and `y` first; `fit_and_predict` is called without them. -/
def crossVal (x : Data A) (y : Option (Data A)) (params : List (String × Data A)) (cols : Option (List Nat)) (splits : List (List Nat × List (List Nat))) :
    Except Err (List (Seen A × List (Data A))) :=
  match safeSplit x y cols .columns with
  | .error e => .error e
  | .ok (x', y') => match indexable x' y' with
    | .error e => .error e
    | .ok () => sequence (splits.map (fitAndPredict x' y' params none))

/-- The inner fits of `NestedClustersOptimization.fit` for one cluster of several assets: on the whole sample, N L288-300, and in the cross-validation, N L324-338. -/
def ncoCluster (x : Data A) (y : Option (Data A)) (params : List (String × Data A)) (splits : List (List Nat × List (List Nat))) (ids : List Nat) :
    Except Err (Seen A × List (Seen A × List (Data A))) :=
  match fitSingle x y params (some ids) .columns with
  | .error e => .error e
  | .ok whole => match crossVal x y params (some ids) splits with
    | .error e => .error e
    | .ok folds => .ok (whole, folds)

/-- All inner fits of `NestedClustersOptimization.fit`; single assets are not optimised. (The code fits all clusters on the whole sample before it cross-validates, which matters for the order of exceptions only.) -/
def nco (labels : List ℤ) (x : Data A) (y : Option (Data A)) (params : List (String × Data A)) (splits : List (List Nat × List (List Nat))) :
    Except Err (List (Seen A × List (Seen A × List (Data A)))) :=
  sequence (((Nested.clusters labels).filter fun ids => ids.length ≠ 1).map (ncoCluster x y params splits))

end Skfolio.FitParams
