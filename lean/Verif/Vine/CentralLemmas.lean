import Verif.Vine.Central
import Verif.Vine.Steps

/-! The central assets through the levels of the trees. -/
set_option autoImplicit false

namespace Skfolio.Vine

/-- Whether the node at a position is central. -/
def centralAt (S : Finset ℕ) (nodes : List Node) (i : ℕ) : Prop := vars (nodes.getD i (.root 0)) ⊆ S

instance (S : Finset ℕ) (nodes : List Node) (i : ℕ) : Decidable (centralAt S nodes i) := inferInstanceAs (Decidable (vars (nodes.getD i (.root 0)) ⊆ S))

/-- The eligible pairs as a graph. -/
def eligibleGraph (level : ℕ) (nodes : List Node) : SimpleGraph (Fin nodes.length) := SimpleGraph.fromRel fun a b => a < b ∧ eligible level nodes a b

/-- The eligible pairs of central nodes as a graph. -/
def centralGraph (S : Finset ℕ) (level : ℕ) (nodes : List Node) : SimpleGraph (Fin nodes.length) := SimpleGraph.fromRel fun a b => (a < b ∧ eligible level nodes a b) ∧ centralAt S nodes a ∧ centralAt S nodes b

/-- What the central nodes of a level are like. -/
structure CentralLevel (S : Finset ℕ) (k : ℕ) (nodes : List Node) : Prop where
  count : S.card - k ≤ nodes.countP fun m => decide (vars m ⊆ S)
  connected : ∀ i j : Fin nodes.length, centralAt S nodes i → centralAt S nodes j → (centralGraph S k nodes).Reachable i j
  attached : k < S.card → ∀ i : Fin nodes.length, ¬ centralAt S nodes i → ∃ j : Fin nodes.length, centralAt S nodes j ∧ (eligibleGraph k nodes).Adj i j
  later : S.card ≤ k → ∀ m ∈ nodes, S ⊆ vars m

section
variable {K : Type} [Field K] [LinearOrder K] [IsStrictOrderedRing K]

omit [LinearOrder K] [IsStrictOrderedRing K] in
theorem weight_eq (S : Finset ℕ) (nodes : List Node) (dep : ℕ × ℕ → K) (M : K) {p : ℕ × ℕ} (h1 : p.1 < nodes.length) (h2 : p.2 < nodes.length) :
    weight S nodes dep M p = if centralAt S nodes p.1 ∧ centralAt S nodes p.2 then dep p + 3 * M else if centralAt S nodes p.1 ∨ centralAt S nodes p.2 then dep p + 2 * M else dep p := by
  have e : ∀ i (h : i < nodes.length), centralAt S nodes i ↔ central S nodes[i] = true := by
    intro i h
    rw [central_iff, centralAt, List.getD_eq_getElem _ _ h]
  unfold weight
  rw [List.getElem?_eq_getElem h1, List.getElem?_eq_getElem h2]
  simp only [Bool.and_eq_true, Bool.or_eq_true, e _ h1, e _ h2]

section
variable {S : Finset ℕ} {k : ℕ} {nodes : List Node} {dep : ℕ × ℕ → K} {pairs : List (ℕ × ℕ)}

/-- The edges between central nodes. -/
def strong (S : Finset ℕ) (nodes : List Node) (pairs : List (ℕ × ℕ)) : List (ℕ × ℕ) := pairs.filter fun p => decide (centralAt S nodes p.1 ∧ centralAt S nodes p.2)

theorem graph_mono {m : ℕ} {A B : List (ℕ × ℕ)} (h : ∀ p ∈ A, p ∈ B) : graph m A ≤ graph m B := by
  intro a b hab
  rw [graph_adj] at hab ⊢
  exact ⟨hab.1, hab.2.imp (h _) (h _)⟩

theorem strong_of_weight (h : Chosen S k nodes dep pairs) {a b : ℕ} (hb : b < nodes.length) (ha : a < nodes.length) (ca : centralAt S nodes a) (cb : centralAt S nodes b) {p : ℕ × ℕ} (hp : p ∈ pairs)
    (hw : weight S nodes dep (maxDep k nodes dep) (a, b) ≤ weight S nodes dep (maxDep k nodes dep) p) : centralAt S nodes p.1 ∧ centralAt S nodes p.2 := by
  have e := h.2.forest.eligible p hp
  rw [weight_eq S nodes dep _ (p := (a, b)) ha hb, weight_eq S nodes dep _ (e.1.trans e.2.1) e.2.1, if_pos ⟨ca, cb⟩] at hw
  by_contra hno
  rw [if_neg hno] at hw
  have h1 := h.1 (a, b)
  have h2 := le_maxDep dep (mem_eligiblePairs.2 e)
  have h3 := maxDep_nonneg k nodes dep
  split_ifs at hw <;> linarith

/-- The central nodes are joined by edges between central nodes. -/
theorem strong_reachable (C : CentralLevel S k nodes) (h : Chosen S k nodes dep pairs) {i j : Fin nodes.length} (hi : centralAt S nodes i) (hj : centralAt S nodes j) : (graph nodes.length (strong S nodes pairs)).Reachable i j := by
  refine reachable_of_adj ?_ (C.connected i j hi hj)
  have key : ∀ a b : Fin nodes.length, (a < b ∧ eligible k nodes a b) ∧ centralAt S nodes a ∧ centralAt S nodes b → (graph nodes.length (strong S nodes pairs)).Reachable a b := by
    rintro a b ⟨⟨hab, he⟩, ca, cb⟩
    refine (bottleneck (weight_nonneg h.1) h.2 hab he).mono (graph_mono fun p hp => ?_)
    obtain ⟨hp, hw⟩ := List.mem_filter.1 hp
    exact List.mem_filter.2 ⟨hp, decide_eq_true (strong_of_weight h b.2 a.2 ca cb hp (of_decide_eq_true hw))⟩
  intro a b hab
  rcases ((SimpleGraph.fromRel_adj _ _ _).1 hab).2 with hh | hh
  · exact key a b hh
  · exact (key b a hh).symm

theorem attached_reachable (h : Chosen S k nodes dep pairs) {p : ℕ × ℕ} (hp : p ∈ pairs) (h1 : ¬ centralAt S nodes p.1) (h2 : ¬ centralAt S nodes p.2) {i j : Fin nodes.length} (hj : centralAt S nodes j) (hij : (eligibleGraph k nodes).Adj i j) :
    (graph nodes.length (pairs.filter fun q => decide (q ≠ p))).Reachable i j := by
  have e := h.2.forest.eligible p hp
  have key : ∀ a b : Fin nodes.length, a < b ∧ eligible k nodes a b → centralAt S nodes a ∨ centralAt S nodes b → (graph nodes.length (pairs.filter fun q => decide (q ≠ p))).Reachable a b := by
    rintro a b ⟨hab, he⟩ hc
    refine (bottleneck (weight_nonneg h.1) h.2 hab he).mono (graph_mono fun q hq => ?_)
    obtain ⟨hq, hw⟩ := List.mem_filter.1 hq
    refine List.mem_filter.2 ⟨hq, decide_eq_true ?_⟩
    rintro rfl
    have hw := of_decide_eq_true hw
    rw [weight_eq S nodes dep _ (p := (a.val, b.val)) a.2 b.2, weight_eq S nodes dep _ (e.1.trans e.2.1) e.2.1, if_neg (show ¬ (centralAt S nodes q.1 ∧ centralAt S nodes q.2) by tauto), if_neg (show ¬ (centralAt S nodes q.1 ∨ centralAt S nodes q.2) by tauto)] at hw
    have h1 := h.1 (a.val, b.val)
    have h2 := le_maxDep dep (mem_eligiblePairs.2 e)
    have h3 := maxDep_nonneg k nodes dep
    split_ifs at hw
    · linarith
    · linarith
  rcases ((SimpleGraph.fromRel_adj _ _ _).1 hij).2 with hh | hh
  · exact key i j hh (Or.inr hj)
  · exact (key j i hh (Or.inl hj)).symm

/-- An edge of a forest is the only way between its ends. -/
theorem forest_edge {level : ℕ} (h : IsSpanningForest level nodes pairs) {p : ℕ × ℕ} (hp : p ∈ pairs) (h1 : p.1 < nodes.length) (h2 : p.2 < nodes.length) :
    ¬ (graph nodes.length (pairs.filter fun q => decide (q ≠ p))).Reachable ⟨p.1, h1⟩ ⟨p.2, h2⟩ := by
  intro hr
  have e := h.eligible p hp
  have hle : graph nodes.length (pairs.filter fun q => decide (q ≠ p)) ≤ (graph nodes.length pairs).deleteEdges {s(⟨p.1, h1⟩, ⟨p.2, h2⟩)} := by
    intro a b hab
    rw [graph_adj] at hab
    rw [SimpleGraph.deleteEdges_adj, graph_adj]
    refine ⟨⟨hab.1, hab.2.imp (fun x => (List.mem_filter.1 x).1) (fun x => (List.mem_filter.1 x).1)⟩, ?_⟩
    rw [Set.mem_singleton_iff, Sym2.eq_iff]
    rintro (⟨rfl, rfl⟩ | ⟨rfl, rfl⟩)
    · rcases hab.2 with x | x
      · simpa using (List.mem_filter.1 x).2
      · have := (h.eligible _ (List.mem_filter.1 x).1).1
        simp only at this
        omega
    · rcases hab.2 with x | x
      · have := (h.eligible _ (List.mem_filter.1 x).1).1
        simp only at this
        omega
      · simpa using (List.mem_filter.1 x).2
  obtain ⟨w, hw⟩ := SimpleGraph.reachable_deleteEdges_iff_exists_walk.1 (hr.mono hle)
  have hadj : (graph nodes.length pairs).Adj ⟨p.1, h1⟩ ⟨p.2, h2⟩ := by
    rw [graph_adj]
    exact ⟨fun x => e.1.ne (congrArg Fin.val x), Or.inl hp⟩
  have := (h.acyclic.subsingleton_path _ _).elim (SimpleGraph.Path.singleton hadj) w.toPath
  refine hw (w.edges_toPath_subset_edges ?_)
  rw [← this]
  simp [SimpleGraph.Path.singleton]

/-- As long as there are central nodes, every edge has a central node. -/
theorem edge_central (C : CentralLevel S k nodes) (h : Chosen S k nodes dep pairs) (hk : k < S.card) {p : ℕ × ℕ} (hp : p ∈ pairs) : centralAt S nodes p.1 ∨ centralAt S nodes p.2 := by
  by_contra hno
  rw [not_or] at hno
  have e := h.2.forest.eligible p hp
  have hl1 : p.1 < nodes.length := e.1.trans e.2.1
  obtain ⟨c, hc, hac⟩ := C.attached hk ⟨p.1, hl1⟩ hno.1
  obtain ⟨d, hd, hbd⟩ := C.attached hk ⟨p.2, e.2.1⟩ hno.2
  have h1 := attached_reachable h hp hno.1 hno.2 hc hac
  have h2 := attached_reachable h hp hno.1 hno.2 hd hbd
  have h3 : (graph nodes.length (pairs.filter fun q => decide (q ≠ p))).Reachable c d := by
    refine (strong_reachable C h hc hd).mono (graph_mono fun q hq => ?_)
    obtain ⟨hq, hs⟩ := List.mem_filter.1 hq
    refine List.mem_filter.2 ⟨hq, decide_eq_true ?_⟩
    rintro rfl
    exact hno.1 (of_decide_eq_true hs).1
  exact forest_edge h.2.forest hp hl1 e.2.1 (h1.trans (h3.trans h2.symm))

theorem countP_positions (nodes : List Node) (f : Node → Bool) : nodes.countP f = ((Finset.univ : Finset (Fin nodes.length)).filter fun i => f (nodes.getD i.val (.root 0)) = true).card := by
  have e : nodes = (List.finRange nodes.length).map fun i => nodes.getD i.val (.root 0) := by
    apply List.ext_getElem
    · simp
    · intro i h1 h2
      rw [List.getElem_map, List.getElem_finRange, Fin.val_cast, List.getD_eq_getElem _ _ h1]
  conv_lhs => rw [e]
  rw [List.countP_map, List.countP_eq_length_filter, ← List.toFinset_card_of_nodup ((List.nodup_finRange _).filter _)]
  congr 1
  ext i
  simp

/-- The number of edges between central nodes. -/
theorem strong_count (C : CentralLevel S k nodes) (h : Chosen S k nodes dep pairs) : (nodes.countP fun m => decide (vars m ⊆ S)) - 1 ≤ (strong S nodes pairs).length := by
  classical
  have hp : ∀ p ∈ strong S nodes pairs, p.1 < p.2 ∧ p.2 < nodes.length := fun p hp => ⟨(h.2.forest.eligible p (List.mem_filter.1 hp).1).1, (h.2.forest.eligible p (List.mem_filter.1 hp).1).2.1⟩
  let T : Set (Fin nodes.length) := {i | centralAt S nodes i}
  have hcard : (nodes.countP fun m => decide (vars m ⊆ S)) = Fintype.card T := by
    rw [countP_positions, Fintype.card_subtype]
    congr 1
    ext i
    simp [T, centralAt]
  rcases Nat.eq_zero_or_pos (Fintype.card T) with h0 | h0
  · rw [hcard, h0]
    simp
  have hne : Nonempty T := Fintype.card_pos_iff.1 h0
  have hwalk : ∀ (u v : Fin nodes.length), (graph nodes.length (strong S nodes pairs)).Walk u v → ∀ (hu : u ∈ T) (hv : v ∈ T), ((graph nodes.length (strong S nodes pairs)).induce T).Reachable ⟨u, hu⟩ ⟨v, hv⟩ := by
    intro u v w
    induction w with
    | nil => exact fun _ _ => SimpleGraph.Reachable.refl _
    | cons hadj _ ih =>
      intro hu hv
      have hw : ∀ {a b : Fin nodes.length}, (graph nodes.length (strong S nodes pairs)).Adj a b → b ∈ T := by
        intro a b hab
        rw [graph_adj] at hab
        rcases hab.2 with x | x
        · exact (of_decide_eq_true (List.mem_filter.1 x).2).2
        · exact (of_decide_eq_true (List.mem_filter.1 x).2).1
      refine SimpleGraph.Reachable.trans (SimpleGraph.Adj.reachable ?_) (ih (hw hadj) hv)
      exact hadj
  have hconn : ((graph nodes.length (strong S nodes pairs)).induce T).Connected := by
    refine ⟨fun a b => ?_⟩
    obtain ⟨w⟩ := strong_reachable C h a.2 b.2
    exact hwalk _ _ w a.2 b.2
  have h1 := hconn.card_vert_le_card_edgeSet_add_one
  have h2 : Nat.card ((graph nodes.length (strong S nodes pairs)).induce T).edgeSet ≤ Nat.card (graph nodes.length (strong S nodes pairs)).edgeSet :=
    Nat.card_le_card_of_injective _ (SimpleGraph.Embedding.mapEdgeSet (SimpleGraph.Embedding.induce T)).injective
  have h3 : Nat.card (graph nodes.length (strong S nodes pairs)).edgeSet = (strong S nodes pairs).length := by
    rw [← graph_card hp (h.2.forest.nodup.filter _), Nat.card_eq_fintype_card, SimpleGraph.card_edgeSet]
  rw [hcard, ← Nat.card_eq_fintype_card]
  omega

theorem centralLevel_roots {n : ℕ} (hS : S ⊆ Finset.range n) (hne : S.Nonempty) : CentralLevel S 0 ((List.range n).map Node.root) where
  count := by
    rw [List.countP_map, List.countP_eq_length_filter, ← List.toFinset_card_of_nodup (List.nodup_range.filter _), Nat.sub_zero]
    refine Finset.card_le_card fun i hi => ?_
    rw [List.mem_toFinset, List.mem_filter]
    exact ⟨List.mem_range.2 (Finset.mem_range.1 (hS hi)), by simpa [vars] using hi⟩
  connected := by
    intro i j hi hj
    by_cases hij : i = j
    · rw [hij]
    · refine SimpleGraph.Adj.reachable ((SimpleGraph.fromRel_adj _ _ _).2 ⟨hij, ?_⟩)
      have el : ∀ a b : Fin ((List.range n).map Node.root).length, eligible 0 ((List.range n).map Node.root) a b := by
        intro a b
        unfold eligible
        rw [List.getElem?_eq_getElem a.2, List.getElem?_eq_getElem b.2]
        exact Or.inl rfl
      rcases lt_or_gt_of_ne hij with hl | hl
      · exact Or.inl ⟨⟨hl, el i j⟩, hi, hj⟩
      · exact Or.inr ⟨⟨hl, el j i⟩, hj, hi⟩
  attached := by
    intro _ i hi
    obtain ⟨c, hc⟩ := hne
    have hcn : c < ((List.range n).map Node.root).length := by simpa using hS hc
    have hcc : centralAt S ((List.range n).map Node.root) c := by
      unfold centralAt
      rw [List.getD_eq_getElem _ _ hcn]
      simpa [vars] using hc
    refine ⟨⟨c, hcn⟩, hcc, (SimpleGraph.fromRel_adj _ _ _).2 ?_⟩
    have hne : i ≠ ⟨c, hcn⟩ := by
      rintro rfl
      exact hi hcc
    have el : ∀ a b : Fin ((List.range n).map Node.root).length, eligible 0 ((List.range n).map Node.root) a b := by
      intro a b
      unfold eligible
      rw [List.getElem?_eq_getElem a.2, List.getElem?_eq_getElem b.2]
      exact Or.inl rfl
    refine ⟨hne, ?_⟩
    rcases lt_or_gt_of_ne hne with hl | hl
    · exact Or.inl ⟨hl, el _ _⟩
    · exact Or.inr ⟨hl, el _ _⟩
  later := fun h => absurd (Finset.card_pos.2 hne) (by omega)

theorem centralAt_edge {p : ℕ × ℕ} (i : ℕ) (hi : i < pairs.length) (he : pairs[i] = p) : centralAt S (pairs.map (edgeOf nodes)) i ↔ centralAt S nodes p.1 ∧ centralAt S nodes p.2 := by
  unfold centralAt
  rw [List.getD_eq_getElem _ _ (by rw [List.length_map]; exact hi), List.getElem_map, he, edgeOf, vars, Finset.union_subset_iff]

theorem centralLevel_next {n : ℕ} (L : Level n k nodes) (C : CentralLevel S k nodes) (h : Chosen S k nodes dep pairs) : CentralLevel S (k + 1) (nextNodes nodes pairs) := by
  have hp : ∀ p ∈ pairs, p.1 < p.2 ∧ p.2 < nodes.length := fun p hp => ⟨(h.2.forest.eligible p hp).1, (h.2.forest.eligible p hp).2.1⟩
  have hmem : ∀ i, i < nodes.length → nodes.getD i (.root 0) ∈ nodes := fun i hi => by rw [List.getD_eq_getElem _ _ hi]; exact List.getElem_mem hi
  rw [nextNodes_eq hp]
  have hlen : (pairs.map (edgeOf nodes)).length = pairs.length := List.length_map _
  have elig : ∀ (u : ℕ) (i j : Fin (pairs.map (edgeOf nodes)).length), i ≠ j → (u = (pairs[i.val]'(hlen ▸ i.2)).1 ∨ u = (pairs[i.val]'(hlen ▸ i.2)).2) →
      (u = (pairs[j.val]'(hlen ▸ j.2)).1 ∨ u = (pairs[j.val]'(hlen ▸ j.2)).2) → eligible (k + 1) (pairs.map (edgeOf nodes)) i j := by
    intro u i j hne hi hj
    unfold eligible
    rw [List.getElem?_eq_getElem i.2, List.getElem?_eq_getElem j.2]
    simp only [List.getElem_map]
    refine Or.inr (share_of_meet L.nodup (hp _ (List.getElem_mem _)) (hp _ (List.getElem_mem _)) ?_ hi hj)
    intro e
    exact hne (Fin.ext ((List.Nodup.getElem_inj_iff h.2.forest.nodup).1 e))
  refine ⟨?_, ?_, ?_, ?_⟩
  · have h1 := strong_count C h
    have h2 := C.count
    have e : (pairs.map (edgeOf nodes)).countP (fun m => decide (vars m ⊆ S)) = (strong S nodes pairs).length := by
      rw [List.countP_map, strong, List.countP_eq_length_filter]
      congr 1
      refine List.filter_congr fun p _ => ?_
      exact decide_eq_decide.2 Finset.union_subset_iff
    rw [e]
    omega
  · intro i j hi hj
    have meet : ∀ (u : ℕ) (i j : Fin (pairs.map (edgeOf nodes)).length), centralAt S (pairs.map (edgeOf nodes)) i → centralAt S (pairs.map (edgeOf nodes)) j → (u = (pairs[i.val]'(hlen ▸ i.2)).1 ∨ u = (pairs[i.val]'(hlen ▸ i.2)).2) →
        (u = (pairs[j.val]'(hlen ▸ j.2)).1 ∨ u = (pairs[j.val]'(hlen ▸ j.2)).2) → (centralGraph S (k + 1) (pairs.map (edgeOf nodes))).Reachable i j := by
      intro u i j ci cj hi hj
      by_cases hij : i = j
      · rw [hij]
      · refine SimpleGraph.Adj.reachable ((SimpleGraph.fromRel_adj _ _ _).2 ⟨hij, ?_⟩)
        rcases lt_or_gt_of_ne hij with hl | hl
        · exact Or.inl ⟨⟨hl, elig u i j hij hi hj⟩, ci, cj⟩
        · exact Or.inr ⟨⟨hl, elig u j i (Ne.symm hij) hj hi⟩, cj, ci⟩
    have walk : ∀ (u w : Fin nodes.length), (graph nodes.length (strong S nodes pairs)).Walk u w → ∀ i j : Fin (pairs.map (edgeOf nodes)).length, centralAt S (pairs.map (edgeOf nodes)) i → centralAt S (pairs.map (edgeOf nodes)) j →
        (u.val = (pairs[i.val]'(hlen ▸ i.2)).1 ∨ u.val = (pairs[i.val]'(hlen ▸ i.2)).2) →
        (w.val = (pairs[j.val]'(hlen ▸ j.2)).1 ∨ w.val = (pairs[j.val]'(hlen ▸ j.2)).2) → (centralGraph S (k + 1) (pairs.map (edgeOf nodes))).Reachable i j := by
      intro u w p
      induction p with
      | nil => exact fun i j ci cj hi hj => meet _ i j ci cj hi hj
      | cons hadj _ ih =>
        intro i j ci cj hi hj
        rw [graph_adj] at hadj
        rcases hadj.2 with hm | hm
        · obtain ⟨hm, hs⟩ := List.mem_filter.1 hm
          obtain ⟨t, ht, e⟩ := List.getElem_of_mem hm
          have ct := (centralAt_edge t ht e).2 (of_decide_eq_true hs)
          have e1 := congrArg Prod.fst e
          have e2 := congrArg Prod.snd e
          exact (meet _ i ⟨t, hlen ▸ ht⟩ ci ct hi (Or.inl e1.symm)).trans (ih ⟨t, hlen ▸ ht⟩ j ct cj (Or.inr e2.symm) hj)
        · obtain ⟨hm, hs⟩ := List.mem_filter.1 hm
          obtain ⟨t, ht, e⟩ := List.getElem_of_mem hm
          have ct := (centralAt_edge t ht e).2 (of_decide_eq_true hs)
          have e1 := congrArg Prod.fst e
          have e2 := congrArg Prod.snd e
          exact (meet _ i ⟨t, hlen ▸ ht⟩ ci ct hi (Or.inr e2.symm)).trans (ih ⟨t, hlen ▸ ht⟩ j ct cj (Or.inl e1.symm) hj)
    have hip : i.val < pairs.length := hlen ▸ i.2
    have hjp : j.val < pairs.length := hlen ▸ j.2
    have bi := hp _ (List.getElem_mem hip)
    have bj := hp _ (List.getElem_mem hjp)
    have ci := (centralAt_edge i.val hip rfl).1 hi
    have cj := (centralAt_edge j.val hjp rfl).1 hj
    obtain ⟨w⟩ := strong_reachable C h (i := ⟨_, bi.2⟩) (j := ⟨_, bj.2⟩) ci.2 cj.2
    exact walk _ _ w i j hi hj (Or.inr rfl) (Or.inr rfl)
  · intro hk i hi
    have hip : i.val < pairs.length := hlen ▸ i.2
    -- the central end of the edge
    obtain ⟨u, hu, hul, cu⟩ : ∃ u, (u = (pairs[i.val]'hip).1 ∨ u = (pairs[i.val]'hip).2) ∧ u < nodes.length ∧ centralAt S nodes u := by
      have b := hp _ (List.getElem_mem hip)
      rcases edge_central C h (by omega) (List.getElem_mem hip) with c | c
      · exact ⟨_, Or.inl rfl, b.1.trans b.2, c⟩
      · exact ⟨_, Or.inr rfl, b.2, c⟩
    -- another central node
    obtain ⟨v, cv, hvu⟩ : ∃ v : Fin nodes.length, centralAt S nodes v ∧ v.val ≠ u := by
      have hc := C.count
      rw [countP_positions] at hc
      have h2 : 1 < ((Finset.univ : Finset (Fin nodes.length)).filter fun i => decide (vars (nodes.getD i.val (.root 0)) ⊆ S) = true).card := by omega
      obtain ⟨v, hv, hne⟩ := Finset.exists_mem_ne h2 ⟨u, hul⟩
      refine ⟨v, by simpa [centralAt] using hv, fun e => hne (Fin.ext e)⟩
    obtain ⟨w⟩ := strong_reachable C h (i := ⟨u, hul⟩) (j := v) cu cv
    obtain ⟨q, hq, huq⟩ : ∃ q ∈ strong S nodes pairs, u = q.1 ∨ u = q.2 := by
      cases w with
      | nil => exact absurd rfl hvu
      | cons hadj _ =>
        rw [graph_adj] at hadj
        rcases hadj.2 with x | x
        · exact ⟨_, x, Or.inl rfl⟩
        · exact ⟨_, x, Or.inr rfl⟩
    obtain ⟨hq, hs⟩ := List.mem_filter.1 hq
    obtain ⟨t, ht, e⟩ := List.getElem_of_mem hq
    have ct := (centralAt_edge t ht e).2 (of_decide_eq_true hs)
    refine ⟨⟨t, hlen ▸ ht⟩, ct, (SimpleGraph.fromRel_adj _ _ _).2 ?_⟩
    have hne : i ≠ ⟨t, hlen ▸ ht⟩ := by
      rintro rfl
      exact hi ct
    refine ⟨hne, ?_⟩
    have e' : u = (pairs[t]'ht).1 ∨ u = (pairs[t]'ht).2 := by rw [e]; exact huq
    rcases lt_or_gt_of_ne hne with hl | hl
    · exact Or.inl ⟨hl, elig u i ⟨t, hlen ▸ ht⟩ hne hu e'⟩
    · exact Or.inr ⟨hl, elig u ⟨t, hlen ▸ ht⟩ i hne.symm e' hu⟩
  · intro hk m hm
    obtain ⟨p, hpm, rfl⟩ := List.mem_map.1 hm
    have b := hp p hpm
    have b1 : p.1 < nodes.length := b.1.trans b.2
    rcases Nat.lt_or_ge k S.card with hlt | hge
    · have full : ∀ i, i < nodes.length → centralAt S nodes i → vars (nodes.getD i (.root 0)) = S := fun i hi hc => Finset.eq_of_subset_of_card_le hc (by rw [(L.good _ (hmem i hi)).2.1]; omega)
      rcases edge_central C h hlt hpm with c | c
      · rw [edgeOf, vars, full _ b1 c]
        exact Finset.subset_union_left
      · rw [edgeOf, vars, full _ b.2 c]
        exact Finset.subset_union_right
    · rw [edgeOf, vars]
      exact (C.later hge _ (hmem _ b1)).trans Finset.subset_union_left

end

omit [IsStrictOrderedRing K] in
theorem centralTrees_trees {n : ℕ} {S : Finset ℕ} {k : ℕ} {nodes edges : List Node} (h : CentralTrees K n S k nodes edges) : Trees n k nodes edges := by
  induction h with
  | roots => exact .roots
  | next k nodes edges dep pairs _ hc ih => exact .next k nodes edges pairs ih hc.2.forest

theorem centralTrees_level {n : ℕ} {S : Finset ℕ} (hS : S ⊆ Finset.range n) (hne : S.Nonempty) {k : ℕ} {nodes edges : List Node} (h : CentralTrees K n S k nodes edges) : Level n k nodes ∧ CentralLevel S k nodes := by
  induction h with
  | roots => exact ⟨level_roots n, centralLevel_roots hS hne⟩
  | next k nodes edges dep pairs _ hc ih => exact ⟨level_next ih.1 hc.2.forest, centralLevel_next ih.1 ih.2 hc⟩

end
end Skfolio.Vine
