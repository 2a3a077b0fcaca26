import Mathlib.Data.Finset.SymmDiff
import Mathlib.Data.Finset.Card
import Mathlib.Combinatorics.SimpleGraph.Acyclic

/-!
Model of the trees of a vine and of the propagation of samples through them: `src/skfolio/distribution/multivariate/_utils.py` (cited as U) and
`src/skfolio/distribution/multivariate/_vine_copula.py` (cited as V).

Python arrays hold one value for each observation and every operation is row by row: the model has one observation.
-/
set_option autoImplicit false

namespace Skfolio.Vine

/-- `RootNode` (U L125-157), which refers to a variable, and `ChildNode` (U L160-324), which refers to an `Edge` (U L327-480) with its `node1` and `node2`. Python compares nodes by identity; every pair of nodes gets at
most one edge and every edge one node, so that nodes are identical if and only if they are built alike. -/
inductive Node where
  | root (i : ℕ)
  | edge (l r : Node)
  deriving DecidableEq, Repr

/-- `Edge.shared_node_is_left`, U L428-458, of the edges of two child nodes; `none` is the exception "Edges are not correctly ordered". For two root nodes `Edge.get_X` (U L406-426) does not look at the result, and
no edge joins a root node and a child node. -/
def sides : Node → Node → Option (Bool × Bool)
  | .edge a b, .edge c d => if a = c then some (true, true) else if b = c then some (false, true) else if b = d then some (false, false) else none
  | .root _, .root _ => some (true, true)
  | _, _ => none

/-- `Edge.share_one_node`, U L460-473. -/
def shareOneNode : Node → Node → Bool
  | .edge a b, .edge c d => (({a, b} : Finset Node) ∩ {c, d}).card == 1
  | _, _ => false

/-! ### Conditioned and conditioning sets -/

/-- `EdgeCondSets`, U L45-61. -/
structure CondSets where
  conditioned : ℕ × ℕ
  conditioning : Finset ℕ
  deriving DecidableEq

/-- `EdgeCondSets.to_set`, U L61-63. -/
def CondSets.toSet (s : CondSets) : Finset ℕ := {s.conditioned.1, s.conditioned.2} ∪ s.conditioning

/-- `EdgeCondSets.__add__`, U L65-80. `listing` is the order in which Python lists the elements of a set. `none`: the symmetric difference has not two elements, and the code raises an `IndexError` or makes a tuple of the wrong length. -/
def CondSets.add (listing : Finset ℕ → List ℕ) (s t : CondSets) : Option CondSets :=
  match listing (symmDiff s.toSet t.toSet) with
  | [a, b] => some ⟨if a = t.conditioned.1 ∨ a = t.conditioned.2 then (b, a) else (a, b), s.toSet ∩ t.toSet⟩
  | _ => none

/-- `Edge.cond_sets`, U L388-399, of the edge of a child node. -/
def condSets (listing : Finset ℕ → List ℕ) : Node → Option CondSets
  | .root _ => none
  | .edge (.root i) (.root j) => some ⟨(i, j), ∅⟩
  | .edge l r => (condSets listing l).bind fun s => (condSets listing r).bind fun t => CondSets.add listing s t

/-- `ChildNode.get_var`, U L290-308, and `ref` for a root node. -/
def getVar (listing : Finset ℕ → List ℕ) (n : Node) (isLeft : Bool) : Option ℕ :=
  match n with
  | .root i => some i
  | n => (condSets listing n).map fun s => if isLeft then s.conditioned.1 else s.conditioned.2

/-! ### Building the trees -/

/-- The graph with the given edges. -/
def graph (m : ℕ) (pairs : List (ℕ × ℕ)) : SimpleGraph (Fin m) := SimpleGraph.fromRel fun a b => (a.val, b.val) ∈ pairs

/-- The pairs that `set_edges_from_mst` admits, U L542-549: all at the first level, then those whose edges share a node. -/
def eligible (level : ℕ) (nodes : List Node) (i j : ℕ) : Prop :=
  match nodes[i]?, nodes[j]? with
  | some a, some b => level = 0 ∨ shareOneNode a b = true
  | _, _ => False

/-- What `set_edges_from_mst` (U L520-582) gets from `scipy.sparse.csgraph.minimum_spanning_tree` and `nonzero`: eligible pairs `i < j`, ordered by rows, that make a spanning forest of the eligible pairs; which one depends on the
dependence measures (all eligible entries of the matrix are different from zero: U L553). -/
structure IsSpanningForest (level : ℕ) (nodes : List Node) (pairs : List (ℕ × ℕ)) : Prop where
  eligible : ∀ p ∈ pairs, p.1 < p.2 ∧ p.2 < nodes.length ∧ eligible level nodes p.1 p.2
  nodup : pairs.Nodup
  rows : pairs.Pairwise fun p q => p.1 ≤ q.1
  acyclic : (graph nodes.length pairs).IsAcyclic
  spanning : ∀ a b : Fin nodes.length, a < b → Vine.eligible level nodes a b → (graph nodes.length pairs).Reachable a b

/-- The nodes of the next tree, V L427-430: one for each edge, in the order of the edges. -/
def nextNodes (nodes : List Node) (pairs : List (ℕ × ℕ)) : List Node :=
  pairs.filterMap fun p => match nodes[p.1]?, nodes[p.2]? with
    | some a, some b => some (.edge a b)
    | _, _ => none

/-- `Built n k nodes`: `nodes` can be the nodes of the tree of level `k` that `VineCopula.fit` (V L411-460) builds for `n` assets; at the last level, the nodes attached to the terminal edges (V L457-459). -/
inductive Built (n : ℕ) : ℕ → List Node → Prop where
  | roots : Built n 0 ((List.range n).map Node.root)
  | next (k : ℕ) (nodes : List Node) (pairs : List (ℕ × ℕ)) : Built n k nodes → IsSpanningForest k nodes pairs → Built n (k + 1) (nextNodes nodes pairs)

/-- `Trees n k nodes edges`: as `Built`, with the edges of all trees up to there in the order of `score_samples` (V L507-509). -/
inductive Trees (n : ℕ) : ℕ → List Node → List Node → Prop where
  | roots : Trees n 0 ((List.range n).map Node.root) []
  | next (k : ℕ) (nodes edges : List Node) (pairs : List (ℕ × ℕ)) : Trees n k nodes edges → IsSpanningForest k nodes pairs → Trees n (k + 1) (nextNodes nodes pairs) (edges ++ nextNodes nodes pairs)

/-! ### Values and their propagation -/

section
variable {K : Type}

/-- The methods of a fitted bivariate copula that the vine uses; the flag is `first_margin`. -/
structure Cop (K : Type) where
  partialDerivative : Bool → K × K → K
  inversePartialDerivative : Bool → K × K → K

/-- The values stored in the nodes: `pseudo_values` of the root nodes and `_u` (`true`) and `_v` (`false`) of the child nodes. -/
structure State (K : Type) where
  pseudo : ℕ → Option K
  cache : Node → Bool → Option K

/-- The state after `clear_cache`, V L646-651. -/
def State.empty : State K := ⟨fun _ => none, fun _ _ => none⟩

/-- Assignment to `pseudo_values`, `u` (`isLeft`) or `v`: U L243-245, L286-288. -/
def State.assign (s : State K) (n : Node) (isLeft : Bool) (t : K) : State K :=
  match n with
  | .root i => { s with pseudo := fun j => if j = i then some t else s.pseudo j }
  | .edge l r => { s with cache := fun m b => if m = .edge l r ∧ b = isLeft then some t else s.cache m b }

/-- The getters `u` (`isLeft`, U L204-241) and `v` (U L247-284) of a child node and `pseudo_values` of a root node: a stored value, or else the partial derivative of the copula at `get_X` (U L406-426), which is stored. `none`: a value
is missing. Simplification: the getters drop a stored value after the last visit, which a first pass has counted; the model keeps it; `Verif/Vine/VisitModel.lean` drops it, with the same values (C96). -/
def read (cop : Node → Cop K) : Node → Bool → State K → Option (K × State K)
  | .root i, _, s => (s.pseudo i).map fun t => (t, s)
  | .edge l r, isLeft, s =>
    match s.cache (.edge l r) isLeft with
    | some t => some (t, s)
    | none => (sides l r).bind fun d => (read cop l (!d.1) s).bind fun p => (read cop r (!d.2) p.2).bind fun q =>
        let t := (cop (.edge l r)).partialDerivative (!isLeft) (p.1, q.1)
        some (t, q.2.assign (.edge l r) isLeft t)

/-- `Edge.get_X`, U L406-426, of the edge of a child node. -/
def getX (cop : Node → Cop K) : Node → State K → Option (K × K)
  | .root _, _ => none
  | .edge l r, s => (sides l r).bind fun d => (read cop l (!d.1) s).bind fun p => (read cop r (!d.2) p.2).map fun q => (p.1, q.1)

/-- The copula part of `score_samples`, V L504-509: the sum over the edges of the logarithms of the copula densities at `get_X`, with the values stored on the way. -/
def scoreEdges [Add K] [Zero K] (cop : Node → Cop K) (logDensity : Node → K × K → K) : List Node → State K → Option K
  | [], _ => some 0
  | .root _ :: _, _ => none
  | .edge l r :: rest, s => (sides l r).bind fun d => (read cop l (!d.1) s).bind fun p => (read cop r (!d.2) p.2).bind fun q => (scoreEdges cop logDensity rest q.2).map fun t => logDensity (.edge l r) (p.1, q.1) + t

/-- The treatment of one entry of the queue of `_propagate_samples` and of those that it puts in front, V L1196-1227: the value of the node and the one of the neighbour give, by the inverse partial derivative (V L1230-1236), the value
one level below, down to a root node. Root nodes are not put in the queue. -/
def descend (cop : Node → Cop K) : Node → Bool → State K → Option (State K)
  | .root _, _, s => some s
  | .edge l r, isLeft, s =>
    (sides l r).bind fun d => (read cop (.edge l r) isLeft s).bind fun p =>
      if isLeft then
        (read cop r (!d.2) p.2).bind fun q => descend cop l (!d.1) (q.2.assign l (!d.1) ((cop (.edge l r)).inversePartialDerivative false (p.1, q.1)))
      else
        (read cop l (!d.1) p.2).bind fun q => descend cop r (!d.2) (q.2.assign r (!d.2) ((cop (.edge l r)).inversePartialDerivative false (p.1, q.1)))

/-- `_propagate_samples`, V L1155-1227: all initial samples are stored first, then the queue is worked off. An entry of the order is a node, the flag for its left side (without meaning for a root node) and the initial sample. -/
def propagate (cop : Node → Cop K) (order : List (Node × Bool × K)) : Option (State K) :=
  order.foldlM (fun s e => descend cop e.1 e.2.1 s) (order.foldl (fun s e => s.assign e.1 e.2.1 e.2.2) State.empty)

/-- `np.clip(x, a_min=eps, a_max=1 - eps)`, V L1181-1185; the code has `eps = 1e-14` (V L70). -/
def clip [Sub K] [One K] [Max K] [Min K] (eps t : K) : K := min (max t eps) (1 - eps)

/-- The initial samples of `_propagate_samples`, V L1167-1194: a conditioned variable gets its conditioning sample, the others take the next row of the uniform numbers. `none`: the rows are used up. -/
def initSamples [Sub K] [One K] [Max K] [Min K] (listing : Finset ℕ → List ℕ) (eps : K) (cond : ℕ → Option K) : List (Node × Bool) → List K → Option (List (Node × Bool × K))
  | [], _ => some []
  | (n, b) :: order, rand =>
    (getVar listing n b).bind fun v =>
      match cond v, rand with
      | some t, rand => (initSamples listing eps cond order rand).map ((n, b, clip eps t) :: ·)
      | none, t :: rand => (initSamples listing eps cond order rand).map ((n, b, clip eps t) :: ·)
      | none, [] => none

end

/-! ### The sampling order -/

/-- `_is_left_branch`, V L1124-1152. -/
def isLeftBranch (conditioned : ℕ × ℕ) (cond : ℕ → Bool) (counts : ℕ → ℕ) : Bool :=
  if cond conditioned.1 && !cond conditioned.2 then false
  else if !cond conditioned.1 && cond conditioned.2 then true
  else decide (counts conditioned.1 ≤ counts conditioned.2)

/-- `_conditioning_count`, V L653-674, from the edges of every tree: the entry `[-(k + 1), v]` of the cumulative counts. -/
def conditioningCount (listing : Finset ℕ → List ℕ) (trees : List (List Node)) (k v : ℕ) : ℕ :=
  ((trees.take (trees.length - k)).map fun edges => edges.countP fun e => match condSets listing e with
    | some s => decide (v ∈ s.conditioning)
    | none => false).sum

/-- The peeling of `_sampling_order`, V L929-946, from a node on: the node with the side chosen, then the rest from its other neighbour. `counts` stands for the rows of `_conditioning_count`, one for each level. -/
def peel (listing : Finset ℕ → List ℕ) (cond : ℕ → Bool) (counts : ℕ → ℕ → ℕ) : ℕ → Node → Option (List (Node × Bool))
  | _, .root i => some [(.root i, true)]
  | k, .edge l r => (condSets listing (.edge l r)).bind fun s =>
      let isLeft := isLeftBranch s.conditioned cond (counts k)
      (if isLeft then peel listing cond counts (k + 1) r else peel listing cond counts (k + 1) l).map ((Node.edge l r, isLeft) :: ·)

/-- The number of edges at a node. -/
def degree (edges : List Node) (n : Node) : ℕ := edges.countP fun e => match e with
  | .edge l r => decide (l = n ∨ r = n)
  | .root _ => false

/-- One round of the loop of `_sampling_order` over the edges of the last tree of a truncated vine, V L899-920: the edges with a node that belongs to no other remaining edge, with the flag for the left side. The edges visited
in earlier rounds are those that do not remain any more. -/
def selectLeaves (listing : Finset ℕ → List ℕ) (cond : ℕ → Bool) (counts : ℕ → ℕ) (remaining : List Node) : List (Node × Bool) :=
  remaining.filterMap fun e => match e with
    | .root _ => none
    | .edge l r =>
      let c1 := degree remaining l == 1
      let c2 := degree remaining r == 1
      if c1 || c2 then
        some (e, if c1 && c2 then (match condSets listing e with | some s => isLeftBranch s.conditioned cond counts | none => false) else c1)
      else none

/-- `sorted(..., key=lambda pair: pair[0])` of the selected edges by the conditioning count of their variable, V L913-926. -/
def sortByCost (listing : Finset ℕ → List ℕ) (counts : ℕ → ℕ) (selected : List (Node × Bool)) : List (Node × Bool) :=
  selected.mergeSort fun a b => decide (((getVar listing a.1 a.2).map counts).getD 0 ≤ ((getVar listing b.1 b.2).map counts).getD 0)

/-- The loop `while remaining` of `_sampling_order`, V L898-927. The result is the order and the loop variables `edge` and `is_left` after the loop, which the code goes on to use. `none`: no round after the given number; the code would not stop. -/
def stripLeaves (listing : Finset ℕ → List ℕ) (cond : ℕ → Bool) (counts : ℕ → ℕ) : ℕ → List Node → Option (List (Node × Bool) × Node × Bool)
  | 0, _ => none
  | fuel + 1, remaining =>
    let selected := selectLeaves listing cond counts remaining
    let rest := remaining.filter fun e => !(selected.map Prod.fst).contains e
    match rest, remaining.getLast?, selected.getLast? with
    | [], some e, some s => some (sortByCost listing counts selected, e, s.2)
    | [], _, _ => none
    | rest, _, _ => (stripLeaves listing cond counts fuel rest).map fun q => (sortByCost listing counts selected ++ q.1, q.2)

/-- The replacement of the nodes whose variable is conditioned by the root node, V L948-953. -/
def replaceConditioned (listing : Finset ℕ → List ℕ) (cond : ℕ → Bool) (e : Node × Bool) : Option (Node × Bool) :=
  (getVar listing e.1 e.2).map fun v => if cond v then (.root v, true) else e

/-- The first part of `_sampling_order`, V L883-946: the nodes in reverse order, from the edges of the last tree, given as the nodes attached to them. -/
def reverseOrder (listing : Finset ℕ → List ℕ) (cond : ℕ → Bool) (counts : ℕ → ℕ → ℕ) (edges : List Node) : Option (List (Node × Bool)) :=
  match edges with
  | [e] => peel listing cond counts 0 e
  | edges => (stripLeaves listing cond (counts 0) edges.length edges).bind fun q => match q.2 with
      | (.edge l r, isLeft) => (peel listing cond counts 1 (if isLeft then r else l)).map fun p => q.1 ++ p
      | (.root _, _) => none

/-- `_sampling_order`, V L841-960. `none` is an exception. -/
def samplingOrder (listing : Finset ℕ → List ℕ) (n : ℕ) (cond : ℕ → Bool) (counts : ℕ → ℕ → ℕ) (edges : List Node) : Option (List (Node × Bool)) :=
  ((reverseOrder listing cond counts edges).bind fun order => order.mapM (replaceConditioned listing cond)).bind fun order =>
    if order.Nodup ∧ order.length = n then some order.reverse else none

end Skfolio.Vine
