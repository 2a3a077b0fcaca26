import Verif.Vine.Exists
import Mathlib.Algebra.Order.BigOperators.Group.List
import Mathlib.Algebra.Order.Field.Basic

/-!
The choice of the edges of a tree by `Tree.set_edges_from_mst` (U L520-582), with central assets. U is `distribution/multivariate/_utils.py`, V is `distribution/multivariate/_vine_copula.py`.
-/
set_option autoImplicit false

namespace Skfolio.Vine

/-- `RootNode.central` (U L149-152, given by `fit`, V L421: whether the asset is in `central_assets_`, V L350-360) and `ChildNode.central` (U L190-202: `strongly_central` of its edge, U L372-376). -/
def central (S : Finset ℕ) : Node → Bool
  | .root i => decide (i ∈ S)
  | .edge l r => central S l && central S r

section
variable {K : Type} [Field K] [LinearOrder K]

open Classical in
/-- The pairs of positions of which `set_edges_from_mst` makes an edge to choose from, U L541-555. -/
noncomputable def eligiblePairs (level : ℕ) (nodes : List Node) : List (ℕ × ℕ) :=
  (List.range nodes.length).flatMap fun i => ((List.range nodes.length).filter fun j => decide (i < j ∧ eligible level nodes i j)).map fun j => (i, j)

/-- `np.max(dependence_matrix)`, U L561: the matrix is zero but for the eligible pairs. -/
noncomputable def maxDep (level : ℕ) (nodes : List Node) (dep : ℕ × ℕ → K) : K := ((eligiblePairs level nodes).map dep).foldl max 0

/-- The entry of `dependence_matrix` for a pair of positions, U L551-569 (`weakly_central` is U L365-369). `dep` is `abs(edge.dependence) + 1e-5`, which is positive for every edge. If no edge is weakly central the code does not get to the additions, and none is made here. -/
def weight (S : Finset ℕ) (nodes : List Node) (dep : ℕ × ℕ → K) (M : K) (p : ℕ × ℕ) : K :=
  match nodes[p.1]?, nodes[p.2]? with
  | some a, some b =>
    if central S a && central S b then dep p + 3 * M
    else if central S a || central S b then dep p + 2 * M
    else dep p
  | _, _ => 0

/-- The contract of `minimum_spanning_tree` (scipy) for `-dependence_matrix`, U L571-582: a spanning forest of the eligible pairs with the largest sum of the entries. The entries are positive, so none of them counts as absent. -/
structure IsMaxForest (level : ℕ) (nodes : List Node) (w : ℕ × ℕ → K) (pairs : List (ℕ × ℕ)) : Prop where
  forest : IsSpanningForest level nodes pairs
  max : ∀ pairs', IsSpanningForest level nodes pairs' → (pairs'.map w).sum ≤ (pairs.map w).sum

/-- A tree as `fit` chooses it with the central assets `S` and the dependences `dep`. -/
def Chosen (S : Finset ℕ) (level : ℕ) (nodes : List Node) (dep : ℕ × ℕ → K) (pairs : List (ℕ × ℕ)) : Prop :=
  (∀ p, 0 < dep p) ∧ IsMaxForest level nodes (weight S nodes dep (maxDep level nodes dep)) pairs

variable (K) in
/-- The nodes of the tree of a level and the edges of all trees below, as in `Trees`, with the edges chosen by `set_edges_from_mst`, V L412-452. The dependences come from the data and the copulas fitted to the earlier trees and can be any. -/
inductive CentralTrees (n : ℕ) (S : Finset ℕ) : ℕ → List Node → List Node → Prop
  | roots : CentralTrees n S 0 ((List.range n).map Node.root) []
  | next (k : ℕ) (nodes edges : List Node) (dep : ℕ × ℕ → K) (pairs : List (ℕ × ℕ)) : CentralTrees n S k nodes edges → Chosen S k nodes dep pairs → CentralTrees n S (k + 1) (nextNodes nodes pairs) (edges ++ nextNodes nodes pairs)

end

theorem central_iff (S : Finset ℕ) (m : Node) : central S m = true ↔ vars m ⊆ S := by
  induction m with
  | root i => simp [central, vars]
  | edge l r ihl ihr => simp [central, vars, ihl, ihr, Finset.union_subset_iff]

section
variable {K : Type} [Field K] [LinearOrder K] [IsStrictOrderedRing K]

theorem mem_eligiblePairs {level : ℕ} {nodes : List Node} {p : ℕ × ℕ} : p ∈ eligiblePairs level nodes ↔ p.1 < p.2 ∧ p.2 < nodes.length ∧ eligible level nodes p.1 p.2 := by
  obtain ⟨a, b⟩ := p
  simp only [eligiblePairs, List.mem_flatMap, List.mem_range, List.mem_map, List.mem_filter, decide_eq_true_eq, Prod.mk.injEq]
  constructor
  · rintro ⟨a', _, b', ⟨h, h'⟩, rfl, rfl⟩
    exact ⟨h'.1, h, h'.2⟩
  · rintro ⟨h1, h2, h3⟩
    exact ⟨a, by omega, b, ⟨h2, h1, h3⟩, rfl, rfl⟩

theorem foldl_max_le {K : Type} [LinearOrder K] (L : List K) (a : K) : a ≤ L.foldl max a ∧ ∀ x ∈ L, x ≤ L.foldl max a := by
  induction L generalizing a with
  | nil => simp
  | cons b L ih =>
    obtain ⟨h1, h2⟩ := ih (max a b)
    refine ⟨(le_max_left a b).trans h1, fun x hx => ?_⟩
    rcases List.mem_cons.1 hx with rfl | hx
    · exact (le_max_right a x).trans h1
    · exact h2 x hx

omit [IsStrictOrderedRing K] in
theorem le_maxDep {level : ℕ} {nodes : List Node} (dep : ℕ × ℕ → K) {p : ℕ × ℕ} (h : p ∈ eligiblePairs level nodes) : dep p ≤ maxDep level nodes dep :=
  (foldl_max_le _ _).2 _ (List.mem_map_of_mem h)

omit [IsStrictOrderedRing K] in
theorem maxDep_nonneg (level : ℕ) (nodes : List Node) (dep : ℕ × ℕ → K) : 0 ≤ maxDep level nodes dep := (foldl_max_le _ _).1

theorem weight_nonneg {S : Finset ℕ} {level : ℕ} {nodes : List Node} {dep : ℕ × ℕ → K} (h : ∀ p, 0 < dep p) (p : ℕ × ℕ) : 0 ≤ weight S nodes dep (maxDep level nodes dep) p := by
  have := maxDep_nonneg level nodes dep
  have := h p
  unfold weight
  split
  · split_ifs <;> linarith
  · exact le_rfl

/-! ### The bottleneck property of the largest forest -/

theorem reachable_of_adj {V : Type} {G H : SimpleGraph V} (h : ∀ a b, G.Adj a b → H.Reachable a b) {a b : V} (hr : G.Reachable a b) : H.Reachable a b := by
  obtain ⟨p⟩ := hr
  induction p with
  | nil => exact SimpleGraph.Reachable.refl _
  | cons ha _ ih => exact (h _ _ ha).trans ih

theorem rowsOf_nodup {m : ℕ} (F : SimpleGraph (Fin m)) : (rowsOf F).Nodup := by
  rw [rowsOf, List.nodup_flatMap]
  refine ⟨fun a _ => (List.nodup_range.filter _).map (fun b c h => (Prod.mk.inj h).2), List.nodup_range.imp ?_⟩
  intro a b hab p h1 h2
  obtain ⟨_, _, rfl⟩ := List.mem_map.1 h1
  obtain ⟨_, _, e⟩ := List.mem_map.1 h2
  exact hab (Prod.mk.inj e).1.symm

/-- In a forest of largest weight two positions with an eligible pair are joined by edges that are not lighter than the pair. -/
theorem bottleneck {level : ℕ} {nodes : List Node} {w : ℕ × ℕ → K} {pairs : List (ℕ × ℕ)} (hw : ∀ p, 0 ≤ w p) (h : IsMaxForest level nodes w pairs) {a b : Fin nodes.length} (hab : a < b) (he : eligible level nodes a b) :
    (graph nodes.length (pairs.filter fun p => decide (w (a.val, b.val) ≤ w p))).Reachable a b := by
  classical
  by_contra hno
  obtain ⟨G, hG⟩ : ∃ G, G = graph nodes.length pairs := ⟨_, rfl⟩
  have hac := h.forest.acyclic
  have hel : G ≤ SimpleGraph.fromRel fun a b : Fin nodes.length => a < b ∧ eligible level nodes a b := by
    intro x y hxy
    rw [hG, graph_adj] at hxy
    refine (SimpleGraph.fromRel_adj _ _ _).2 ⟨hxy.1, ?_⟩
    rcases hxy.2 with hp | hp
    · exact Or.inl ⟨(h.forest.eligible _ hp).1, (h.forest.eligible _ hp).2.2⟩
    · exact Or.inr ⟨(h.forest.eligible _ hp).1, (h.forest.eligible _ hp).2.2⟩
  have hreach := h.forest.spanning a b hab he
  rw [← hG] at hac hreach
  obtain ⟨p, hp⟩ := hreach.exists_isPath
  obtain ⟨d, hd, hd1, hd2⟩ := p.exists_boundary_dart {x | (graph nodes.length (pairs.filter fun p => decide (w (a.val, b.val) ≤ w p))).Reachable a x} (SimpleGraph.Reachable.refl _) hno
  have hadj := d.adj
  obtain ⟨x, hx⟩ : ∃ x, x = d.fst := ⟨_, rfl⟩
  obtain ⟨y, hy⟩ : ∃ y, y = d.snd := ⟨_, rfl⟩
  have hed : s(x, y) ∈ p.edges := by
    rw [SimpleGraph.Walk.edges, List.mem_map]
    exact ⟨d, hd, by rw [hx, hy]; rfl⟩
  rw [← hx, ← hy] at hadj
  rw [← hx] at hd1
  rw [← hy] at hd2
  -- the light edge
  obtain ⟨q, hq, hqs, hqw⟩ : ∃ q ∈ pairs, (q = (x.val, y.val) ∨ q = (y.val, x.val)) ∧ w q < w (a.val, b.val) := by
    have hxy := hadj
    rw [hG, graph_adj] at hxy
    have key : ∀ q ∈ pairs, (q = (x.val, y.val) ∨ q = (y.val, x.val)) → w q < w (a.val, b.val) := by
      intro q hq hqs
      by_contra hge
      refine hd2 (SimpleGraph.Reachable.trans hd1 (SimpleGraph.Adj.reachable ?_))
      rw [graph_adj]
      refine ⟨hxy.1, ?_⟩
      rcases hqs with rfl | rfl
      · exact Or.inl (List.mem_filter.2 ⟨hq, by simpa using hge⟩)
      · exact Or.inr (List.mem_filter.2 ⟨hq, by simpa using hge⟩)
    rcases hxy.2 with hq | hq
    · exact ⟨_, hq, Or.inl rfl, key _ hq (Or.inl rfl)⟩
    · exact ⟨_, hq, Or.inr rfl, key _ hq (Or.inr rfl)⟩
  have hsep : ¬ (G.deleteEdges {s(x, y)}).Reachable a b := by
    rw [SimpleGraph.reachable_deleteEdges_iff_exists_walk]
    rintro ⟨p', hp'⟩
    have := hac.subsingleton_path a b |>.elim ⟨p, hp⟩ ⟨p'.toPath.1, p'.toPath.2⟩
    have e : p = p'.toPath.1 := congrArg Subtype.val this
    rw [e] at hed
    exact hp' (p'.edges_toPath_subset_edges hed)
  have hT := SimpleGraph.IsAcyclic.sup_edge_of_not_reachable hsep (hac.anti (SimpleGraph.deleteEdges_le _))
  have hTle : (G.deleteEdges {s(x, y)} ⊔ SimpleGraph.edge a b) ≤ SimpleGraph.fromRel fun a b : Fin nodes.length => a < b ∧ eligible level nodes a b := by
    refine sup_le ((SimpleGraph.deleteEdges_le _).trans hel) ?_
    rw [SimpleGraph.edge_le_iff]
    right
    exact (SimpleGraph.fromRel_adj _ _ _).2 ⟨hab.ne, Or.inl ⟨hab, he⟩⟩
  obtain ⟨F, hF1, hF2, hF3, hF4⟩ := SimpleGraph.exists_isAcyclic_reachable_eq_le_of_le_of_isAcyclic hTle hT
  have hmax := h.max _ (forest_rowsOf hF2 hF3 hF4)
  rw [← List.sum_toFinset _ (rowsOf_nodup F), ← List.sum_toFinset _ h.forest.nodup] at hmax
  have hnew : (a.val, b.val) ∉ pairs.toFinset.erase q := by
    intro hm
    have hm2 := List.mem_toFinset.1 (Finset.mem_of_mem_erase hm)
    refine hno (SimpleGraph.Adj.reachable ?_)
    rw [graph_adj]
    exact ⟨hab.ne, Or.inl (List.mem_filter.2 ⟨hm2, by simp⟩)⟩
  have hsub : insert (a.val, b.val) (pairs.toFinset.erase q) ⊆ (rowsOf F).toFinset := by
    intro r hr
    rw [List.mem_toFinset, mem_rowsOf]
    rcases Finset.mem_insert.1 hr with rfl | hr
    · exact ⟨hab, a.2, b.2, hF1 (Or.inr ((SimpleGraph.edge_adj _ _ _ _).2 ⟨Or.inl ⟨rfl, rfl⟩, hab.ne⟩))⟩
    · obtain ⟨hne, hr⟩ := Finset.mem_erase.1 hr
      have hr := List.mem_toFinset.1 hr
      have er := h.forest.eligible r hr
      have hr1 : r.1 < nodes.length := er.1.trans er.2.1
      refine ⟨er.1, hr1, er.2.1, hF1 (Or.inl ?_)⟩
      rw [SimpleGraph.deleteEdges_adj]
      constructor
      · rw [hG, graph_adj]
        exact ⟨fun e => er.1.ne (congrArg Fin.val e), Or.inl hr⟩
      · intro hm
        rw [Set.mem_singleton_iff, Sym2.eq_iff] at hm
        have eq := h.forest.eligible q hq
        apply hne
        rcases hm with ⟨h1, h2⟩ | ⟨h1, h2⟩
        · have h1 : r.1 = x.val := congrArg Fin.val h1
          have h2 : r.2 = y.val := congrArg Fin.val h2
          rcases hqs with rfl | rfl
          · exact Prod.ext h1 h2
          · exfalso
            have := er.1
            have := eq.1
            simp only at *
            omega
        · have h1 : r.1 = y.val := congrArg Fin.val h1
          have h2 : r.2 = x.val := congrArg Fin.val h2
          rcases hqs with rfl | rfl
          · exfalso
            have := er.1
            have := eq.1
            simp only at *
            omega
          · exact Prod.ext h1 h2
  have h1 := Finset.sum_le_sum_of_subset_of_nonneg hsub (fun r _ _ => hw r)
  rw [Finset.sum_insert hnew] at h1
  have h2 := Finset.sum_erase_add _ w (List.mem_toFinset.2 hq)
  linarith

omit [IsStrictOrderedRing K] in
/-- There is a forest of largest weight. -/
theorem exists_maxForest (level : ℕ) (nodes : List Node) (w : ℕ × ℕ → K) : ∃ pairs, IsMaxForest level nodes w pairs := by
  classical
  obtain ⟨p0, h0⟩ := exists_forest level nodes
  let A := ((Finset.range nodes.length ×ˢ Finset.range nodes.length).powerset).filter fun s => ∃ pairs, IsSpanningForest level nodes pairs ∧ pairs.toFinset = s
  have hA : ∀ pairs, IsSpanningForest level nodes pairs → pairs.toFinset ∈ A := by
    intro pairs hp
    refine Finset.mem_filter.2 ⟨Finset.mem_powerset.2 fun q hq => ?_, pairs, hp, rfl⟩
    have := hp.eligible q (List.mem_toFinset.1 hq)
    rw [Finset.mem_product, Finset.mem_range, Finset.mem_range]
    omega
  obtain ⟨s, hs, hmax⟩ := Finset.exists_max_image A (fun s => ∑ q ∈ s, w q) ⟨_, hA p0 h0⟩
  obtain ⟨_, pairs, hp, rfl⟩ := Finset.mem_filter.1 hs
  refine ⟨pairs, hp, fun pairs' hp' => ?_⟩
  rw [← List.sum_toFinset _ hp.nodup, ← List.sum_toFinset _ hp'.nodup]
  exact hmax _ (hA _ hp')

end
end Skfolio.Vine
