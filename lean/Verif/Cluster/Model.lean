import Mathlib.Algebra.Order.Field.Basic
import Mathlib.Algebra.BigOperators.Group.List.Basic
import Mathlib.Data.List.Dedup
import Mathlib.Data.Nat.Sqrt

/-!
Model of `assert_is_square`, `assert_is_symmetric`, `assert_is_distance` (`src/skfolio/utils/stats.py` L208-257), `compute_optimal_n_clusters`
(L424-493) and `HierarchicalClustering.fit` (`src/skfolio/cluster/_hierarchical.py` L167-208).

Assets are `0 .. n-1` and a matrix is a function of two indices. Numbers are the elements of an ordered field: rounding and NaN are not modelled
(`validate_data` refuses NaN). The linkage, `cut_tree` and `fcluster` of scipy are parameters: `cut k` is the column of `cut_tree` with `k + 1` clusters,
`fcluster t` the labels for at most `t` clusters.
-/
set_option autoImplicit false

namespace Skfolio.Cluster

variable {K : Type} [Field K] [LinearOrder K]

inductive Err where
  /-- "The matrix must be symmetric" -/
  | notSymmetric
  /-- "The distance matrix must have diagonal elements close to zeros" -/
  | diagonal
  /-- scipy: "The number of observations cannot be determined on an empty distance matrix." -/
  | emptyDistance
  /-- numpy: "attempt to get argmax of an empty sequence" -/
  | emptyArgmax
  /-- `AssertionError` of `fit`. -/
  | assertion
  deriving DecidableEq, Repr

/-- `np.allclose` of two numbers: `|a - b| <= atol + rtol |b|`, with the default `rtol = 1e-5`. -/
def isClose (atol a b : K) : Prop := |a - b| ≤ atol + 1 / 10 ^ 5 * |b|

instance (atol a b : K) : Decidable (isClose atol a b) := inferInstanceAs (Decidable (_ ≤ _))

/-- `assert_is_distance`, L241-257 (with `assert_is_symmetric`, L224-238, whose `atol` is the default `1e-8`). The matrix is square. -/
def assertIsDistance (n : Nat) (x : Nat → Nat → K) : Except Err Unit :=
  if ¬ ∀ i < n, ∀ j < n, isClose (1 / 10 ^ 8) (x i j) (x j i) then .error .notSymmetric
  else if ¬ ∀ i < n, isClose (1 / 10 ^ 5) (x i i) 0 then .error .diagonal
  else .ok ()

/-- `round(np.sqrt(n))`: the square root of a natural number is never halfway between two, so this is the nearest. -/
def roundSqrt (n : Nat) : Nat := if Nat.sqrt n ^ 2 + Nat.sqrt n < n then Nat.sqrt n + 1 else Nat.sqrt n

/-- `min(n, max(8, round(np.sqrt(n))))`, L475. -/
def maxClusters (n : Nat) : Nat := min n (max 8 (roundSqrt n))

/-- `np.argwhere(level == i).flatten()`, L481. -/
def clusterIdx (level : List Nat) (i : Nat) : List Nat := (List.range level.length).filter fun a => level.getD a 0 = i

/-- `squareform(d[idx, :][:, idx], checks=False)`, L482-484: the entries above the diagonal. -/
def condensed (d : Nat → Nat → K) : List Nat → List K
  | [] => []
  | a :: l => l.map (d a) ++ condensed d l

/-- The mean of the distances within a cluster, L485-486; nothing for a cluster without pairs. -/
def density (d : Nat → Nat → K) (idx : List Nat) : Option K :=
  if (condensed d idx).length ≠ 0 then some ((condensed d idx).sum / (condensed d idx).length) else none

/-- One entry of `dispersion`, L477-487. -/
def dispersion (d : Nat → Nat → K) (level : List Nat) : K :=
  ((List.range (level.foldl max 0 + 1)).filterMap fun i => density d (clusterIdx level i)).sum

/-- `np.roll(l, -s)`. -/
def rollLeft {A : Type} (l : List A) (s : Nat) : List A := l.drop (s % l.length) ++ l.take (s % l.length)

/-- `gaps`, L489-490. -/
def gaps (w : List K) : List K :=
  let g := List.zipWith (fun a b => a - b) (List.zipWith (fun a b => a + b) (rollLeft w 2) w) ((rollLeft w 1).map fun b => 2 * b)
  g.take (g.length - 2)

/-- `np.argmax`: the first of the largest. The state is the index of the next element, the best index and the best value. -/
def argmaxFrom : Nat → Nat → K → List K → Nat
  | _, best, _, [] => best
  | i, best, v, x :: xs => if v < x then argmaxFrom (i + 1) i x xs else argmaxFrom (i + 1) best v xs

def argmax : List K → Option Nat
  | [] => none
  | x :: xs => some (argmaxFrom 1 0 x xs)

/-- `compute_optimal_n_clusters`, L424-493. -/
def optimalNClusters (n : Nat) (d : Nat → Nat → K) (cut : Nat → List Nat) : Except Err Nat :=
  match argmax (gaps ((List.range (maxClusters n)).map fun k => dispersion d (cut k))) with
  | none => .error .emptyArgmax
  | some k => .ok (k + 2)

/-- What `fit` stores: `n_clusters_` and `labels_`. -/
structure Fitted where
  nClusters : Nat
  labels : List Nat
  deriving DecidableEq, Repr

/-- `HierarchicalClustering.fit`, `_hierarchical.py` L167-208. `fcluster` numbers the clusters from 1. -/
def fit (n : Nat) (x : Nat → Nat → K) (cut fcluster : Nat → List Nat) (maxClusters : Option Nat) : Except Err Fitted :=
  match assertIsDistance n x with
  | .error e => .error e
  | .ok () =>
    if n ≤ 1 then .error .emptyDistance
    else
      match (match maxClusters with
        | some k => Except.ok k
        | none => optimalNClusters n x cut) with
      | .error e => .error e
      | .ok k =>
        let labels := (fcluster k).map (· - 1)
        let nClusters := labels.dedup.length
        if nClusters = labels.foldl max 0 + 1 ∧ labels.foldl max 0 + 1 ≤ k then .ok ⟨nClusters, labels⟩ else .error .assertion

end Skfolio.Cluster
