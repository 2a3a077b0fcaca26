import Verif.Cluster.Model
import Mathlib.Data.List.Sort
import Mathlib.Data.List.GetD

/-!
# The dendrogram (model)

Models the data of `HierarchicalClustering.plot_dendrogram`, `src/skfolio/cluster/_hierarchical.py` L210-331: the threshold
of the colours (L238), the order of the assets and the heat map (L280-303) and the squares around the clusters (L313-331).
The tree is that of `scipy.cluster.hierarchy.linkage`; `optimal_leaf_ordering` (L234) exchanges children, which is the
relation `Flip`; `fcluster(criterion="maxclust")` cuts the tree at a height.  Traces and layout are not modelled.
-/

set_option autoImplicit false

namespace Skfolio.Cluster.Dendrogram

/-- A tree of merges, with the height of each merge; assets are numbered. -/
inductive Tree (K : Type) where
  | leaf (a : ℕ)
  | node (h : K) (l r : Tree K)

variable {K : Type}

/-- The assets from left to right, `dendrogram(...)["leaves"]`. -/
def Tree.leaves : Tree K → List ℕ
  | .leaf a => [a]
  | .node _ l r => l.leaves ++ r.leaves

/-- The heights of the merges. -/
def Tree.heights : Tree K → List K
  | .leaf _ => []
  | .node h l r => h :: (l.heights ++ r.heights)

variable [LinearOrder K]

/-- The third column of the linkage matrix: the merges are sorted by their height. -/
def Tree.column (t : Tree K) : List K := t.heights.insertionSort (· ≤ ·)

/-- The flat clusters at height `τ`: the largest subtrees whose merges are all at most `τ`. -/
def Tree.clusters (τ : K) : Tree K → List (Tree K)
  | .leaf a => [.leaf a]
  | .node h l r =>
    if (Tree.node h l r).heights.all fun x => decide (x ≤ τ) then [.node h l r] else l.clusters τ ++ r.clusters τ

/-- `linkage_matrix[-(self.n_clusters_ - 1), 2]`, L238; the index `-0` is the first row. -/
def threshold (column : List K) (nClusters : ℕ) : Option K :=
  if nClusters ≤ 1 then column[0]? else column[column.length - (nClusters - 1)]?

/-- `scipy` gives a link below the threshold the colour of a cluster, and all others the colour (blue) of single assets. -/
def coloured (column : List K) (nClusters : ℕ) (h : K) : Option Bool :=
  (threshold column nClusters).map fun thr => decide (h < thr)

/-- `ordered_asset_names_idx`, L282-284: for every name in the order of the leaves, the first asset of that name. -/
def orderedIdx (names : List String) (leaves : List ℕ) : List ℕ :=
  (leaves.map fun a => names.getD a "").map fun x => names.idxOf x

/-- `heat_data`, L288: the distances in the order of the leaves. -/
def heat (d : ℕ → ℕ → K) (idx : List ℕ) : List (List K) := idx.map fun i => idx.map fun j => d i j

/-- The squares, L313-331, in units of `delta`: for every label, from its first position to after its last one; `none` is the
`IndexError` for a label that does not occur. -/
def squares (labels : ℕ → ℕ) (idx : List ℕ) : Option (List (ℕ × ℕ)) :=
  (List.range ((idx.map labels).foldr max 0 + 1)).mapM fun i =>
    let ids := (List.range idx.length).filter fun x => decide (labels (idx.getD x 0) = i)
    match ids.head?, ids.getLast? with
    | some a, some b => some (a, b + 1)
    | _, _ => none

end Skfolio.Cluster.Dendrogram
