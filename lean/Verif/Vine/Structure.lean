import Verif.Vine.Lemmas
import Mathlib.Data.List.GetD

/-! The trees that `fit` builds make a regular vine. -/
set_option autoImplicit false

namespace Skfolio.Vine

/-! ### Counting the edges of a forest -/

theorem graph_adj {m : ℕ} {pairs : List (ℕ × ℕ)} {a b : Fin m} : (graph m pairs).Adj a b ↔ a ≠ b ∧ ((a.val, b.val) ∈ pairs ∨ (b.val, a.val) ∈ pairs) := SimpleGraph.fromRel_adj _ _ _

theorem acyclic_card {V : Type} [Fintype V] [Nonempty V] (G : SimpleGraph V) [Fintype G.edgeSet] (h : G.IsAcyclic) : G.edgeFinset.card + 1 ≤ Fintype.card V := by
  classical
  obtain ⟨T, h1, h2, h3⟩ := SimpleGraph.Connected.exists_isTree_le_of_le_of_isAcyclic (G := (⊤ : SimpleGraph V)) SimpleGraph.connected_top (H := G) le_top h
  rw [← h3.card_edgeFinset]
  exact Nat.add_le_add_right (Finset.card_le_card (SimpleGraph.edgeFinset_mono h1)) 1

/-- A forest has fewer edges inside a set of nodes than the set has nodes. -/
theorem forest_count {m : ℕ} {pairs : List (ℕ × ℕ)} (hp : ∀ p ∈ pairs, p.1 < p.2 ∧ p.2 < m) (hn : pairs.Nodup) (ha : (graph m pairs).IsAcyclic) (S : Finset ℕ) :
    pairs.countP (fun p => decide (p.1 ∈ S ∧ p.2 ∈ S)) ≤ S.card - 1 := by
  classical
  by_cases hne : ∃ p ∈ pairs, p.1 ∈ S ∧ p.2 ∈ S
  · obtain ⟨p0, hp0, hS0, _⟩ := hne
    have hlt0 : p0.1 < m := (hp p0 hp0).1.trans (hp p0 hp0).2
    let T : Set (Fin m) := {a | a.val ∈ S}
    have : Nonempty T := ⟨⟨⟨p0.1, hlt0⟩, hS0⟩⟩
    have hT := acyclic_card ((graph m pairs).induce T) (ha.induce T)
    have hTS : Fintype.card T ≤ S.card := by
      rw [← Fintype.card_coe S]
      refine Fintype.card_le_of_injective (fun a : T => (⟨a.1.val, a.2⟩ : S)) ?_
      intro a b h
      simp only [Subtype.mk.injEq] at h
      exact Subtype.ext (Fin.ext h)
    have key : pairs.countP (fun p => decide (p.1 ∈ S ∧ p.2 ∈ S)) ≤ ((graph m pairs).induce T).edgeFinset.card := by
      rw [List.countP_eq_length_filter, ← List.toFinset_card_of_nodup (hn.filter _)]
      let f : ℕ × ℕ → Sym2 T := fun p => if h : (p.1 < m ∧ p.1 ∈ S) ∧ (p.2 < m ∧ p.2 ∈ S) then s(⟨⟨p.1, h.1.1⟩, h.1.2⟩, ⟨⟨p.2, h.2.1⟩, h.2.2⟩) else s(Classical.arbitrary T, Classical.arbitrary T)
      have hmem : ∀ p, p ∈ (pairs.filter fun p => decide (p.1 ∈ S ∧ p.2 ∈ S)).toFinset → p ∈ pairs ∧ (p.1 < m ∧ p.1 ∈ S) ∧ (p.2 < m ∧ p.2 ∈ S) := by
        intro p h
        simp only [List.mem_toFinset, List.mem_filter, decide_eq_true_eq] at h
        exact ⟨h.1, ⟨(hp p h.1).1.trans (hp p h.1).2, h.2.1⟩, (hp p h.1).2, h.2.2⟩
      refine Finset.card_le_card_of_injOn f ?_ ?_
      · intro p hpm
        obtain ⟨h1, h2⟩ := hmem p hpm
        simp only [f, h2, and_self, dite_true]
        rw [Finset.mem_coe, SimpleGraph.mem_edgeFinset, SimpleGraph.mem_edgeSet, SimpleGraph.comap_adj, graph_adj]
        refine ⟨?_, Or.inl h1⟩
        intro e
        have := congrArg Fin.val e
        exact absurd this (hp p h1).1.ne
      · intro p hpm q hqm e
        obtain ⟨h1, h2⟩ := hmem p hpm
        obtain ⟨h3, h4⟩ := hmem q hqm
        simp only [f, h2, h4, and_self, dite_true, Sym2.eq_iff, Subtype.mk.injEq, Fin.mk.injEq] at e
        have := (hp p h1).1
        have := (hp q h3).1
        rcases e with ⟨e1, e2⟩ | ⟨e1, e2⟩
        · exact Prod.ext e1 e2
        · omega
    omega
  · have : pairs.countP (fun p => decide (p.1 ∈ S ∧ p.2 ∈ S)) = 0 := by
      rw [List.countP_eq_zero]
      intro p hp' h
      exact hne ⟨p, hp', by simpa using h⟩
    omega

/-- The number of edges of the graph. -/
theorem graph_card {m : ℕ} {pairs : List (ℕ × ℕ)} (hp : ∀ p ∈ pairs, p.1 < p.2 ∧ p.2 < m) (hn : pairs.Nodup) [Fintype (graph m pairs).edgeSet] : (graph m pairs).edgeFinset.card = pairs.length := by
  classical
  rw [← List.toFinset_card_of_nodup hn]
  refine (Finset.card_bij (fun p h => s(⟨p.1, (hp p (List.mem_toFinset.1 h)).1.trans (hp p (List.mem_toFinset.1 h)).2⟩, ⟨p.2, (hp p (List.mem_toFinset.1 h)).2⟩)) ?_ ?_ ?_).symm
  · intro p h
    rw [SimpleGraph.mem_edgeFinset, SimpleGraph.mem_edgeSet, graph_adj]
    refine ⟨?_, Or.inl (List.mem_toFinset.1 h)⟩
    intro e
    exact absurd (congrArg Fin.val e) (hp p (List.mem_toFinset.1 h)).1.ne
  · intro p h q h' e
    have := (hp p (List.mem_toFinset.1 h)).1
    have := (hp q (List.mem_toFinset.1 h')).1
    simp only [Sym2.eq_iff, Fin.mk.injEq] at e
    rcases e with ⟨e1, e2⟩ | ⟨e1, e2⟩
    · exact Prod.ext e1 e2
    · omega
  · intro e he
    induction e using Sym2.ind with
    | _ a b =>
      rw [SimpleGraph.mem_edgeFinset, SimpleGraph.mem_edgeSet, graph_adj] at he
      rcases he.2 with h | h
      · exact ⟨(a.val, b.val), List.mem_toFinset.2 h, rfl⟩
      · exact ⟨(b.val, a.val), List.mem_toFinset.2 h, Sym2.eq_swap⟩

/-! ### The nodes of the next level -/

/-- The edge of a pair of positions. -/
def edgeOf (nodes : List Node) (p : ℕ × ℕ) : Node := .edge (nodes.getD p.1 (.root 0)) (nodes.getD p.2 (.root 0))

theorem nextNodes_eq {nodes : List Node} {pairs : List (ℕ × ℕ)} (hp : ∀ p ∈ pairs, p.1 < p.2 ∧ p.2 < nodes.length) : nextNodes nodes pairs = pairs.map (edgeOf nodes) := by
  unfold nextNodes
  induction pairs with
  | nil => rfl
  | cons p ps ih =>
    have h := hp p (by simp)
    have h1 : nodes[p.1]? = some (nodes.getD p.1 (.root 0)) := by
      rw [List.getElem?_eq_getElem (h.1.trans h.2), List.getD_eq_getElem _ _ (h.1.trans h.2)]
    have h2 : nodes[p.2]? = some (nodes.getD p.2 (.root 0)) := by
      rw [List.getElem?_eq_getElem h.2, List.getD_eq_getElem _ _ h.2]
    rw [List.filterMap_cons, h1, h2]
    simp only [List.map_cons]
    rw [ih (fun q hq => hp q (by simp [hq]))]
    rfl

theorem getD_inj {nodes : List Node} (hn : nodes.Nodup) {i j : ℕ} (hi : i < nodes.length) (hj : j < nodes.length) (h : nodes.getD i (.root 0) = nodes.getD j (.root 0)) : i = j := by
  rw [List.getD_eq_getElem _ _ hi, List.getD_eq_getElem _ _ hj] at h
  exact (List.Nodup.getElem_inj_iff hn).1 h

theorem edgeOf_inj {nodes : List Node} (hn : nodes.Nodup) {p q : ℕ × ℕ} (hp : p.1 < p.2 ∧ p.2 < nodes.length) (hq : q.1 < q.2 ∧ q.2 < nodes.length) (h : edgeOf nodes p = edgeOf nodes q) : p = q := by
  simp only [edgeOf, Node.edge.injEq] at h
  exact Prod.ext (getD_inj hn (hp.1.trans hp.2) (hq.1.trans hq.2) h.1) (getD_inj hn hp.2 hq.2 h.2)

/-- One side of an edge of the next level: `x` is the shared node. -/
theorem half {l r x : Node} {o : ℕ} (h1 : vars x ⊆ vars l) (h2 : vars x ⊆ vars r) (hc : (vars l ∩ vars r).card ≤ (vars x).card) (ho : o ∈ vars l) (ho' : o ∉ vars x)
    (h3 : vars l \ {o} ⊆ vars x) : o ∉ vars r ∧ vars l \ {o} ⊆ vars r := by
  refine ⟨fun h => ho' ?_, h3.trans h2⟩
  have := Finset.eq_of_subset_of_card_le (Finset.subset_inter h1 h2) hc
  rw [this]
  exact Finset.mem_inter.2 ⟨ho, h⟩

theorem good_sides {a b : Node} (g : Good (.edge a b)) :
    (own (.edge a b) false ∉ vars a ∧ vars (.edge a b) \ {own (.edge a b) false} ⊆ vars a) ∧ (own (.edge a b) true ∉ vars b ∧ vars (.edge a b) \ {own (.edge a b) true} ⊆ vars b) := by
  cases g with
  | edge _ _ d hl hr hd a1 a2 b1 b2 =>
    rw [own_left hd, own_right hd]
    refine ⟨⟨b1, ?_⟩, a1, ?_⟩
    · intro x hx
      simp only [vars, Finset.mem_sdiff, Finset.mem_union, Finset.mem_singleton] at hx
      rcases hx.1 with h | h
      · exact h
      · exact b2 (by simp [h, hx.2])
    · intro x hx
      simp only [vars, Finset.mem_sdiff, Finset.mem_union, Finset.mem_singleton] at hx
      rcases hx.1 with h | h
      · exact a2 (by simp [h, hx.2])
      · exact h

theorem good_card {a b : Node} (g : Good (.edge a b)) : (vars (.edge a b)).card = (vars a).card + 1 ∧ (vars (.edge a b)).card = (vars b).card + 1 := by
  obtain ⟨d, _, _, _, h1, h2⟩ := good_edge g
  have e1 : vars (.edge a b) = vars b ∪ (vars a \ vars b) := by simp [vars, Finset.union_comm]
  have e2 : vars (.edge a b) = vars a ∪ (vars b \ vars a) := by simp [vars]
  constructor
  · rw [e2, Finset.card_union_of_disjoint Finset.disjoint_sdiff, h2, Finset.card_singleton]
  · rw [e1, Finset.card_union_of_disjoint Finset.disjoint_sdiff, h1, Finset.card_singleton]

theorem vars_left (a b : Node) : vars a ⊆ vars (.edge a b) := Finset.subset_union_left
theorem vars_right (a b : Node) : vars b ⊆ vars (.edge a b) := Finset.subset_union_right

/-- An edge between nodes with `k + 1` variables and at least `k + 2` together that share a node. -/
theorem good_next {l r : Node} {k : ℕ} {d : Bool × Bool} (gl : Good l) (gr : Good r) (hd : sides l r = some d) (cl : (vars l).card = k + 1) (cr : (vars r).card = k + 1)
    (hc : k + 2 ≤ (vars l ∪ vars r).card) : Good (.edge l r) := by
  match l, r with
  | .root i, .root j =>
    simp only [sides] at hd
    cases hd
    have : i ≠ j := by
      rintro rfl
      simp [vars] at hc cl
    exact .edge _ _ (true, true) gl gr rfl (by simpa [own, vars] using this) (by simp [own, vars]) (by simpa [own, vars] using this.symm) (by simp [own, vars])
  | .root i, .edge c e => simp [sides] at hd
  | .edge a b, .root j => simp [sides] at hd
  | .edge a b, .edge c e =>
    have hu := Finset.card_union_add_card_inter (vars (.edge a b)) (vars (.edge c e))
    have ca := good_card gl
    have cc := good_card gr
    obtain ⟨⟨l1, l2⟩, l3, l4⟩ := good_sides gl
    obtain ⟨⟨r1, r2⟩, r3, r4⟩ := good_sides gr
    have hi : (vars (.edge a b) ∩ vars (.edge c e)).card ≤ k := by omega
    have hi' : (vars (.edge c e) ∩ vars (.edge a b)).card ≤ k := by rwa [Finset.inter_comm]
    simp only [sides] at hd
    split_ifs at hd with h1 h2 h3
    · cases hd
      subst h1
      have A := half (vars_left a b) (vars_left a e) (by omega) (own_mem gl false) l1 l2
      have B := half (vars_left a e) (vars_left a b) (by omega) (own_mem gr false) r1 r2
      exact .edge _ _ (true, true) gl gr (by simp [sides]) A.1 A.2 B.1 B.2
    · cases hd
      subst h2
      have A := half (vars_right a b) (vars_left b e) (by omega) (own_mem gl true) l3 l4
      have B := half (vars_left b e) (vars_right a b) (by omega) (own_mem gr false) r1 r2
      exact .edge _ _ (false, true) gl gr (by simp [sides, h1]) A.1 A.2 B.1 B.2
    · cases hd
      subst h3
      have A := half (vars_right a b) (vars_right c b) (by omega) (own_mem gl true) l3 l4
      have B := half (vars_right c b) (vars_right a b) (by omega) (own_mem gr true) r3 r4
      exact .edge _ _ (false, false) gl gr (by simp [sides, h1, h2]) A.1 A.2 B.1 B.2

/-- Two edges between positions, the first not after the second by rows, that share exactly one node have the shared node where `shared_node_is_left` looks. -/
theorem sides_ordered {nodes : List Node} (hn : nodes.Nodup) {p q : ℕ × ℕ} (hp : p.1 < p.2 ∧ p.2 < nodes.length) (hq : q.1 < q.2 ∧ q.2 < nodes.length) (h : p.1 ≤ q.1)
    (hs : shareOneNode (edgeOf nodes p) (edgeOf nodes q) = true) : ∃ d, sides (edgeOf nodes p) (edgeOf nodes q) = some d := by
  by_contra hno
  push Not at hno
  simp only [edgeOf, sides] at hno
  split_ifs at hno with h1 h2 h3
  · exact hno _ rfl
  · exact hno _ rfl
  · exact hno _ rfl
  · have h4 : nodes.getD p.1 (.root 0) ≠ nodes.getD q.2 (.root 0) := by
      intro e
      have := getD_inj hn (hp.1.trans hp.2) hq.2 e
      omega
    simp only [shareOneNode, edgeOf, beq_iff_eq] at hs
    have : (({nodes.getD p.1 (.root 0), nodes.getD p.2 (.root 0)} : Finset Node) ∩ {nodes.getD q.1 (.root 0), nodes.getD q.2 (.root 0)}) = ∅ := by
      ext z
      simp only [Finset.mem_inter, Finset.mem_insert, Finset.mem_singleton, Finset.notMem_empty, iff_false, not_and, not_or]
      rintro (rfl | rfl)
      · exact ⟨h1, h4⟩
      · exact ⟨h2, h3⟩
    rw [this] at hs
    simp at hs

/-- Two different edges that meet in a node share exactly one. -/
theorem share_of_meet {nodes : List Node} (hn : nodes.Nodup) {p q : ℕ × ℕ} (hp : p.1 < p.2 ∧ p.2 < nodes.length) (hq : q.1 < q.2 ∧ q.2 < nodes.length) (hne : p ≠ q) {u : ℕ}
    (h1 : u = p.1 ∨ u = p.2) (h2 : u = q.1 ∨ u = q.2) : shareOneNode (edgeOf nodes p) (edgeOf nodes q) = true := by
  have inj : ∀ i j, i < nodes.length → j < nodes.length → (nodes.getD i (.root 0) = nodes.getD j (.root 0) ↔ i = j) := fun i j hi hj => ⟨getD_inj hn hi hj, fun e => by rw [e]⟩
  simp only [shareOneNode, edgeOf, beq_iff_eq]
  rw [Finset.card_eq_one]
  refine ⟨nodes.getD u (.root 0), ?_⟩
  have hp1 : p.1 < nodes.length := hp.1.trans hp.2
  have hq1 : q.1 < nodes.length := hq.1.trans hq.2
  have hpq : ¬ (p.1 = q.1 ∧ p.2 = q.2) := fun e => hne (Prod.ext e.1 e.2)
  ext z
  simp only [Finset.mem_inter, Finset.mem_insert, Finset.mem_singleton]
  constructor
  · rintro ⟨rfl | rfl, h⟩
    · rw [inj _ _ hp1 hq1, inj _ _ hp1 hq.2] at h
      rw [inj _ _ hp1 (by omega)]
      omega
    · rw [inj _ _ hp.2 hq1, inj _ _ hp.2 hq.2] at h
      rw [inj _ _ hp.2 (by omega)]
      omega
  · rintro rfl
    rw [inj _ _ (by omega) hp1, inj _ _ (by omega) hp.2, inj _ _ (by omega) hq1, inj _ _ (by omega) hq.2]
    exact ⟨h1, h2⟩

/-- All that the induction over the levels needs. -/
structure Level (n k : ℕ) (nodes : List Node) : Prop where
  nodup : nodes.Nodup
  good : ∀ a ∈ nodes, Good a ∧ (vars a).card = k + 1 ∧ vars a ⊆ Finset.range n
  count : ∀ V : Finset ℕ, nodes.countP (fun a => decide (vars a ⊆ V)) ≤ V.card - k
  ordered : nodes.Pairwise fun a b => k = 0 ∨ shareOneNode a b = true → ∃ d, sides a b = some d
  connected : ∀ pairs, IsSpanningForest k nodes pairs → (graph nodes.length pairs).Preconnected
  length : k < n → nodes.length = n - k

theorem level_roots (n : ℕ) : Level n 0 ((List.range n).map Node.root) where
  nodup := List.nodup_range.map (fun a b h => by cases h; rfl)
  good := by
    intro a ha
    simp only [List.mem_map, List.mem_range] at ha
    obtain ⟨i, hi, rfl⟩ := ha
    exact ⟨.root i, by simp [vars], by simpa [vars] using hi⟩
  count := by
    intro V
    rw [List.countP_map, List.countP_eq_length_filter, ← List.toFinset_card_of_nodup (List.nodup_range.filter _)]
    refine Finset.card_le_card ?_
    intro i hi
    simpa [vars] using (List.mem_filter.1 (List.mem_toFinset.1 hi)).2
  ordered := by
    rw [List.pairwise_map]
    exact List.pairwise_of_forall fun a b _ => ⟨(true, true), rfl⟩
  connected := by
    intro pairs h a b
    have el : ∀ a b : Fin ((List.range n).map Node.root).length, eligible 0 ((List.range n).map Node.root) a b := by
      intro a b
      unfold eligible
      rw [List.getElem?_eq_getElem a.2, List.getElem?_eq_getElem b.2]
      exact Or.inl rfl
    rcases lt_trichotomy a b with hab | rfl | hab
    · exact h.spanning a b hab (el a b)
    · exact SimpleGraph.Reachable.refl _
    · exact (h.spanning b a hab (el b a)).symm
  length := by simp

theorem level_next {n k : ℕ} {nodes : List Node} {pairs : List (ℕ × ℕ)} (L : Level n k nodes) (h : IsSpanningForest k nodes pairs) : Level n (k + 1) (nextNodes nodes pairs) := by
  have hp : ∀ p ∈ pairs, p.1 < p.2 ∧ p.2 < nodes.length := fun p hp => ⟨(h.eligible p hp).1, (h.eligible p hp).2.1⟩
  have hmem : ∀ i, i < nodes.length → nodes.getD i (.root 0) ∈ nodes := fun i hi => by rw [List.getD_eq_getElem _ _ hi]; exact List.getElem_mem hi
  rw [nextNodes_eq hp]
  have nodup : (pairs.map (edgeOf nodes)).Nodup := h.nodup.map_on fun p h1 q h2 e => edgeOf_inj L.nodup (hp p h1) (hp q h2) e
  have count : ∀ V : Finset ℕ, (pairs.map (edgeOf nodes)).countP (fun a => decide (vars a ⊆ V)) ≤ V.card - (k + 1) := by
    intro V
    let S : Finset ℕ := (Finset.range nodes.length).filter fun i => vars (nodes.getD i (.root 0)) ⊆ V
    have hS : S.card = nodes.countP (fun a => decide (vars a ⊆ V)) := by
      have e : nodes = (List.range nodes.length).map fun i => nodes.getD i (.root 0) := by
        apply List.ext_getElem
        · simp
        · intro i h1 h2
          rw [List.getElem_map, List.getElem_range, List.getD_eq_getElem _ _ h1]
      conv_rhs => rw [e]
      rw [List.countP_map, List.countP_eq_length_filter, ← List.toFinset_card_of_nodup (List.nodup_range.filter _)]
      congr 1
      ext i
      simp [S]
    have := forest_count hp h.nodup h.acyclic S
    have hV := L.count V
    rw [List.countP_map]
    have e : pairs.countP ((fun a => decide (vars a ⊆ V)) ∘ edgeOf nodes) = pairs.countP (fun p => decide (p.1 ∈ S ∧ p.2 ∈ S)) := by
      refine List.countP_congr fun p h1 => ?_
      have hlt := hp p h1
      have : p.1 < nodes.length := hlt.1.trans hlt.2
      simp only [Function.comp, edgeOf, vars, decide_eq_true_eq, S, Finset.mem_filter, Finset.mem_range, Finset.union_subset_iff]
      tauto
    rw [e]
    omega
  have good : ∀ a ∈ pairs.map (edgeOf nodes), Good a ∧ (vars a).card = k + 1 + 1 ∧ vars a ⊆ Finset.range n := by
    intro a ha
    have ha' := ha
    rw [List.mem_map] at ha
    obtain ⟨p, h1, rfl⟩ := ha
    have hlt := hp p h1
    have hlt1 : p.1 < nodes.length := hlt.1.trans hlt.2
    obtain ⟨g1, c1, s1⟩ := L.good _ (hmem p.1 hlt1)
    obtain ⟨g2, c2, s2⟩ := L.good _ (hmem p.2 hlt.2)
    have el := (h.eligible p h1).2.2
    unfold eligible at el
    rw [List.getElem?_eq_getElem hlt1, List.getElem?_eq_getElem hlt.2] at el
    simp only at el
    obtain ⟨d, hd⟩ := List.pairwise_iff_getElem.1 L.ordered p.1 p.2 hlt1 hlt.2 hlt.1 el
    rw [← List.getD_eq_getElem _ (.root 0) hlt1, ← List.getD_eq_getElem _ (.root 0) hlt.2] at hd
    have lower : k + 2 ≤ (vars (edgeOf nodes p)).card := by
      have := count (vars (edgeOf nodes p))
      have : 0 < (pairs.map (edgeOf nodes)).countP (fun a => decide (vars a ⊆ vars (edgeOf nodes p))) := List.countP_pos_iff.2 ⟨_, ha', by simp⟩
      omega
    have G := good_next g1 g2 hd c1 c2 lower
    refine ⟨G, ?_, Finset.union_subset s1 s2⟩
    rw [edgeOf, (good_card G).1, c1]
  have ordered : (pairs.map (edgeOf nodes)).Pairwise fun a b => k + 1 = 0 ∨ shareOneNode a b = true → ∃ d, sides a b = some d := by
    rw [List.pairwise_map]
    have := h.rows
    rw [List.pairwise_iff_getElem] at this ⊢
    intro i j hi hj hij hs
    exact sides_ordered L.nodup (hp _ (List.getElem_mem hi)) (hp _ (List.getElem_mem hj)) (this i j hi hj hij) (hs.resolve_left (by omega))
  refine ⟨nodup, good, count, ordered, ?_, ?_⟩
  · intro pairs' h' i j
    have hlen : (pairs.map (edgeOf nodes)).length = pairs.length := List.length_map _
    have hget : ∀ i : Fin (pairs.map (edgeOf nodes)).length, pairs[i.val]'(hlen ▸ i.2) ∈ pairs := fun i => List.getElem_mem _
    have meet : ∀ (u : ℕ) (i j : Fin (pairs.map (edgeOf nodes)).length), (u = (pairs[i.val]'(hlen ▸ i.2)).1 ∨ u = (pairs[i.val]'(hlen ▸ i.2)).2) →
        (u = (pairs[j.val]'(hlen ▸ j.2)).1 ∨ u = (pairs[j.val]'(hlen ▸ j.2)).2) → (graph (pairs.map (edgeOf nodes)).length pairs').Reachable i j := by
      intro u i j hi hj
      have elig : ∀ i j : Fin (pairs.map (edgeOf nodes)).length, i ≠ j → (u = (pairs[i.val]'(hlen ▸ i.2)).1 ∨ u = (pairs[i.val]'(hlen ▸ i.2)).2) →
        (u = (pairs[j.val]'(hlen ▸ j.2)).1 ∨ u = (pairs[j.val]'(hlen ▸ j.2)).2) → eligible (k + 1) (pairs.map (edgeOf nodes)) i j := by
        intro i j hne hi hj
        unfold eligible
        rw [List.getElem?_eq_getElem i.2, List.getElem?_eq_getElem j.2]
        simp only [List.getElem_map]
        refine Or.inr (share_of_meet L.nodup (hp _ (hget i)) (hp _ (hget j)) ?_ hi hj)
        intro e
        exact hne (Fin.ext ((List.Nodup.getElem_inj_iff h.nodup).1 e))
      rcases lt_trichotomy i j with hij | rfl | hij
      · exact h'.spanning i j hij (elig i j hij.ne hi hj)
      · exact SimpleGraph.Reachable.refl _
      · exact (h'.spanning j i hij (elig j i hij.ne hj hi)).symm
    have walk : ∀ (u w : Fin nodes.length), (graph nodes.length pairs).Walk u w → ∀ i j : Fin (pairs.map (edgeOf nodes)).length, (u.val = (pairs[i.val]'(hlen ▸ i.2)).1 ∨ u.val = (pairs[i.val]'(hlen ▸ i.2)).2) →
        (w.val = (pairs[j.val]'(hlen ▸ j.2)).1 ∨ w.val = (pairs[j.val]'(hlen ▸ j.2)).2) → (graph (pairs.map (edgeOf nodes)).length pairs').Reachable i j := by
      intro u w p
      induction p with
      | nil => exact fun i j hi hj => meet _ i j hi hj
      | cons hadj _ ih =>
        intro i j hi hj
        rw [graph_adj] at hadj
        rcases hadj.2 with hm | hm
        · obtain ⟨t, ht, e⟩ := List.getElem_of_mem hm
          have e1 := congrArg Prod.fst e
          have e2 := congrArg Prod.snd e
          exact (meet _ i ⟨t, hlen ▸ ht⟩ hi (Or.inl e1.symm)).trans (ih ⟨t, hlen ▸ ht⟩ j (Or.inr e2.symm) hj)
        · obtain ⟨t, ht, e⟩ := List.getElem_of_mem hm
          have e1 := congrArg Prod.fst e
          have e2 := congrArg Prod.snd e
          exact (meet _ i ⟨t, hlen ▸ ht⟩ hi (Or.inr e2.symm)).trans (ih ⟨t, hlen ▸ ht⟩ j (Or.inl e1.symm) hj)
    have bi := hp _ (hget i)
    have bj := hp _ (hget j)
    obtain ⟨w⟩ := L.connected pairs h ⟨_, bi.2⟩ ⟨_, bj.2⟩
    exact walk _ _ w i j (Or.inr rfl) (Or.inr rfl)
  · intro hk
    have hl := L.length (by omega)
    have : Nonempty (Fin nodes.length) := ⟨⟨0, by omega⟩⟩
    have T : (graph nodes.length pairs).IsTree := ⟨⟨L.connected pairs h⟩, h.acyclic⟩
    classical
    have c := T.card_edgeFinset
    rw [graph_card hp h.nodup, Fintype.card_fin] at c
    rw [List.length_map]
    omega

theorem built_level {n k : ℕ} {nodes : List Node} (h : Built n k nodes) : Level n k nodes := by
  induction h with
  | roots => exact level_roots n
  | next k nodes pairs _ hf ih => exact level_next ih hf

end Skfolio.Vine
