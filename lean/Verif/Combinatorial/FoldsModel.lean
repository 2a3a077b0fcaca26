import Verif.Combinatorial.Model
import Mathlib.Algebra.Order.Field.Basic
import Mathlib.Data.Nat.Cast.Order.Field

/-! Model of `optimal_folds_number`, `src/skfolio/model_selection/_combinatorial.py` L478-564. -/
set_option autoImplicit false

namespace Skfolio.Combinatorial

section
variable {K : Type} [Field K] [LinearOrder K]

/-- `_avg_train_size`, L456-475. -/
def avgTrainSize (nObservations nFolds nTestFolds : ℕ) : K := (nObservations : K) / nFolds * ((nFolds : K) - nTestFolds)

/-- `_cost`, L533-549. -/
def foldsCost (nObservations : ℕ) (targetTrain targetPaths weightTrain weightPaths : K) (x y : ℕ) : K :=
  weightPaths * |(nTestPaths x y : K) - targetPaths| / targetPaths + weightTrain * |avgTrainSize nObservations x y - targetTrain| / targetTrain

/-- The inner loop, L555-561, for the values `n_test_folds` still to come: the entries added to `costs` and `res`. -/
def scanRow (cost : ℕ → ℕ → K) (x : ℕ) : Option ℕ → List ℕ → List (K × ℕ × ℕ)
  | _, [] => []
  | none, y :: ys => (cost x y, x, y) :: scanRow cost x (if cost x y > 100000 then some y else none) ys
  | some i, y :: ys => if x - y ≤ i then (cost x y, x, y) :: scanRow cost x (some i) ys else scanRow cost x (some i) ys

/-- `np.argmin`: the first entry with the least cost; `none` is the ValueError on an empty array. -/
def firstMin {α : Type} : List (K × α) → Option (K × α)
  | [] => none
  | a :: l => match firstMin l with
    | none => some a
    | some b => if b.1 < a.1 then some b else some a

/-- `optimal_folds_number` without the cost function, L551-564. -/
def searchFolds (cost : ℕ → ℕ → K) (nObservations : ℕ) : Option (ℕ × ℕ) :=
  (firstMin ((List.range' 3 (nObservations + 1 - 3)).flatMap fun x => scanRow cost x none (List.range' 2 (x - 2)))).map Prod.snd

/-- `optimal_folds_number`, L478-564. `none` is an exception. -/
def optimalFoldsNumber (nObservations : ℕ) (targetTrain targetPaths weightTrain weightPaths : K) : Option (ℕ × ℕ) :=
  searchFolds (foldsCost nObservations targetTrain targetPaths weightTrain weightPaths) nObservations

end

end Skfolio.Combinatorial
