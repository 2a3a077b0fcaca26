import Verif.Hierarchical.Model

/-!
# Hierarchical Equal Risk Contribution (model)

Models `HierarchicalEqualRiskContribution.fit` from the fitted clustering on, and
`minimize_relative_weight_deviation`.  The clustering (scipy) is not modelled: the dendrogram is any
binary tree and the labels are any function on the assets.
-/

set_option autoImplicit false

namespace Skfolio.Hierarchical

variable {K : Type*} [Field K] [LinearOrder K]

/-- `sch.to_tree(linkage_matrix)`: a dendrogram whose leaves are the assets. -/
inductive Tree
  | leaf (i : ℕ)
  | node (l r : Tree)
  deriving DecidableEq, Repr

/-- `node.pre_order()`: the leaf ids below the node. -/
def Tree.leaves : Tree → List ℕ
  | .leaf i => [i]
  | .node l r => l.leaves ++ r.leaves

/-- `np.argwhere(labels == i).flatten()`:
`optimization/cluster/hierarchical/_herc.py` L404. -/
def clusterIds (n : ℕ) (labels : ℕ → ℕ) (c : ℕ) : List ℕ :=
  (List.range n).filter fun i => labels i = c

/-- `a.issubset(b)` for the sets of the elements of two lists. -/
def isSubset (a b : List ℕ) : Bool := a.all fun x => b.contains x

/-- Equality of the sets of the elements of two lists. -/
def sameSet (a b : List ℕ) : Bool := isSubset a b && isSubset b a

/-- The nested function `_recurse`: `_herc.py` L422-455.  The state is `clusters_weights`.
A leaf that is not a cluster would fail on `None.pre_order()`: modelled as a `valueError`. -/
def recurse (n k : ℕ) (labels : ℕ → ℕ) (clusterRisks : ℕ → K) :
    Tree → (ℕ → K) → Except Error (ℕ → K)
  | t, cw =>
    if (List.range k).any fun c => sameSet t.leaves (clusterIds n labels c) then .ok cw
    else match t with
      | .leaf _ => .error (.valueError "'NoneType' object has no attribute 'pre_order'")
      | .node l r => do
        let left := (List.range k).filter fun c => isSubset (clusterIds n labels c) l.leaves
        let right := (List.range k).filter fun c =>
          !isSubset (clusterIds n labels c) l.leaves && isSubset (clusterIds n labels c) r.leaves
        if left = [] ∨ right = [] then .error (.valueError "Corrupted")
        let leftRisk := sumAt clusterRisks left
        let rightRisk := sumAt clusterRisks right
        let q ← div? leftRisk (leftRisk + rightRisk)
        let alpha := 1 - q
        let cw1 := fun c => if c ∈ left then cw c * alpha else cw c
        let cw2 := fun c => if c ∈ right then cw1 c * (1 - alpha) else cw1 c
        let cw3 ← recurse n k labels clusterRisks l cw2
        recurse n k labels clusterRisks r cw3

/-- Intra-cluster weights and cluster risks: `_herc.py` L407-417. -/
def intraCluster (risk : (ℕ → K) → K) (assetsRisks : ℕ → K) (n : ℕ) (labels : ℕ → ℕ) :
    List ℕ → Except Error (List (ℕ × (ℕ → K) × K))
  | [] => .ok []
  | c :: cs => do
    let w ← invRiskWeights assetsRisks (clusterIds n labels c)
    let rest ← intraCluster risk assetsRisks n labels cs
    return (c, w, risk w) :: rest

/-- The weights before the bounds are applied: `_herc.py` L399-462. -/
def hercUnbounded (risk : (ℕ → K) → K) (n k : ℕ) (labels : ℕ → ℕ) (root : Tree) :
    Except Error (ℕ → K) := do
  let intra ← intraCluster risk (unitaryRisks risk) n labels (List.range k)
  let inv : ℕ → ℕ → K := fun c => ((intra.lookup c).map Prod.fst).getD fun _ => 1
  let risks : ℕ → K := fun c => ((intra.lookup c).map Prod.snd).getD 0
  let cw ← recurse n k labels risks root fun _ => 1
  return fun i => if labels i < k then inv (labels i) i * cw (labels i) else 1

/-- `minimize_relative_weight_deviation`: `utils/stats.py` L496-577.  `solver` stands for
the cvxpy solve; `none` is the raised `SolverError`.  `np.isclose(s, 1.0)` is
`|s - 1| ≤ 1e-8 + 1e-5`.  Arrays of unequal shapes are not represented. -/
def minimizeRelativeWeightDeviation (solver : (ℕ → K) → (ℕ → K) → (ℕ → K) → Option (ℕ → K))
    (n : ℕ) (w minW maxW : ℕ → K) : Except Error (ℕ → K) :=
  if ∃ i ∈ List.range n, w i < 0 then
    .error (.valueError "Initial weights must be strictly positive")
  else if ¬ |sumAt w (List.range n) - 1| ≤ 1 / 10 ^ 8 + 1 / 10 ^ 5 then
    .error (.valueError "Initial weights must sum to one")
  else if ∃ i ∈ List.range n, maxW i < minW i then
    .error (.valueError "`min_weights` must be lower or equal to `max_weights`")
  else if ∀ i ∈ List.range n, minW i ≤ w i ∧ w i ≤ maxW i then .ok w
  else match solver w minW maxW with
    | none => .error (.valueError "Solver failed")
    | some v => .ok v

/-- `HierarchicalEqualRiskContribution.fit`: `_herc.py` L391-475. -/
def herc (solver : (ℕ → K) → (ℕ → K) → (ℕ → K) → Option (ℕ → K)) (risk : (ℕ → K) → K)
    (maxW minW : ℕ → K) (n k : ℕ) (labels : ℕ → ℕ) (root : Tree) : Except Error (ℕ → K) := do
  let w ← hercUnbounded risk n k labels root
  minimizeRelativeWeightDeviation solver n w minW maxW

end Skfolio.Hierarchical
