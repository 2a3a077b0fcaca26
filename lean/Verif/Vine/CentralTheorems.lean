import Verif.Vine.CentralLemmas
import Verif.Vine.Theorems

/-!
**C56**: central assets are placed centrally, and sampling conditional on them takes all of them into account.
-/
set_option autoImplicit false

namespace Skfolio.Vine
open Skfolio.Copula (Inside IsInverse)

variable {K : Type} [Field K] [LinearOrder K] [IsStrictOrderedRing K]

section
variable {n k : ℕ} {S : Finset ℕ} {nodes edges : List Node} {dep : ℕ × ℕ → K} {pairs : List (ℕ × ℕ)}

omit [IsStrictOrderedRing K] in
theorem chosen_nextNodes (h : Chosen S k nodes dep pairs) : nextNodes nodes pairs = pairs.map (edgeOf nodes) := nextNodes_eq fun p hp => ⟨(h.2.forest.eligible p hp).1, (h.2.forest.eligible p hp).2.1⟩

/-- **C56.** The trees with central assets `S`, whatever the dependences of the assets. In the tree of level `k < |S|` exactly `|S| - k` nodes are made of central assets alone, and no edge joins two nodes that are not. -/
theorem C56_central_nodes (hS : S ⊆ Finset.range n) (h : CentralTrees K n S k nodes edges) (hc : Chosen S k nodes dep pairs) (hk : k < S.card) :
    (nodes.countP fun m => decide (vars m ⊆ S)) = S.card - k ∧ ∀ e ∈ nextNodes nodes pairs, ∃ l r, e = .edge l r ∧ l ∈ nodes ∧ r ∈ nodes ∧ (vars l ⊆ S ∨ vars r ⊆ S) := by
  have hne : S.Nonempty := Finset.card_pos.1 (by omega)
  obtain ⟨L, C⟩ := centralTrees_level hS hne h
  refine ⟨le_antisymm (L.count S) C.count, fun e he => ?_⟩
  rw [chosen_nextNodes hc] at he
  obtain ⟨p, hp, rfl⟩ := List.mem_map.1 he
  have b := hc.2.forest.eligible p hp
  have hmem : ∀ i, i < nodes.length → nodes.getD i (.root 0) ∈ nodes := fun i hi => by rw [List.getD_eq_getElem _ _ hi]; exact List.getElem_mem hi
  exact ⟨_, _, rfl, hmem _ (b.1.trans b.2.1), hmem _ b.2.1, edge_central C hc hk hp⟩

/-- **C56.** The tree of level `|S| - 1` has a node with exactly the central assets, and all edges of this tree go to it. All nodes of later trees have all central assets. -/
theorem C56_centre (hS : S ⊆ Finset.range n) (h : CentralTrees K n S k nodes edges) (hc : Chosen S k nodes dep pairs) :
    (k + 1 = S.card → ∃ z ∈ nodes, vars z = S ∧ ∀ e ∈ nextNodes nodes pairs, ∃ m ∈ nodes, e = .edge z m ∨ e = .edge m z) ∧ (S.Nonempty → S.card ≤ k → ∀ m ∈ nodes, S ⊆ vars m) := by
  refine ⟨fun hk => ?_, fun hne => (centralTrees_level hS hne h).2.later⟩
  obtain ⟨h1, h2⟩ := C56_central_nodes hS h hc (by omega)
  have hne : S.Nonempty := Finset.card_pos.1 (by omega)
  obtain ⟨L, C⟩ := centralTrees_level hS hne h
  have full : ∀ m ∈ nodes, vars m ⊆ S → vars m = S := fun m hm hc => Finset.eq_of_subset_of_card_le hc (by rw [(L.good _ hm).2.1]; omega)
  rw [show S.card - k = 1 by omega, List.countP_eq_length_filter, List.length_eq_one_iff] at h1
  obtain ⟨z, hz⟩ := h1
  have hzm : z ∈ nodes.filter fun m => decide (vars m ⊆ S) := by rw [hz]; simp
  obtain ⟨hz1, hz2⟩ := List.mem_filter.1 hzm
  have uniq : ∀ m ∈ nodes, vars m ⊆ S → m = z := by
    intro m hm hv
    have : m ∈ nodes.filter fun m => decide (vars m ⊆ S) := List.mem_filter.2 ⟨hm, decide_eq_true hv⟩
    rw [hz] at this
    exact List.mem_singleton.1 this
  refine ⟨z, hz1, full z hz1 (of_decide_eq_true hz2), fun e he => ?_⟩
  obtain ⟨l, r, rfl, hl, hr, hv | hv⟩ := h2 e he
  · exact ⟨r, hr, Or.inl (by rw [uniq l hl hv])⟩
  · exact ⟨l, hl, Or.inr (by rw [uniq r hr hv])⟩

end

/-- **C56.** With one central asset, it is joined to every other asset in the first tree. -/
theorem C56_single {n c : ℕ} {dep : ℕ × ℕ → K} {pairs : List (ℕ × ℕ)} (hcn : c < n) (hc : Chosen {c} 0 ((List.range n).map Node.root) dep pairs) {a : ℕ} (ha : a < n) (hac : a ≠ c) :
    Node.edge (.root a) (.root c) ∈ nextNodes ((List.range n).map Node.root) pairs ∨ Node.edge (.root c) (.root a) ∈ nextNodes ((List.range n).map Node.root) pairs := by
  obtain ⟨nodes, hno⟩ : ∃ nodes, nodes = (List.range n).map Node.root := ⟨_, rfl⟩
  have hlen : nodes.length = n := by simp [hno]
  have L := level_roots n
  rw [← hno] at hc L ⊢
  rw [chosen_nextNodes hc]
  obtain ⟨w⟩ := L.connected pairs hc.2.forest ⟨a, by omega⟩ ⟨c, by omega⟩
  have hget : ∀ i, i < n → nodes.getD i (.root 0) = .root i := by
    intro i hi
    rw [List.getD_eq_getElem _ _ (by omega)]
    simp [hno]
  have hC : CentralLevel {c} 0 nodes := hno ▸ centralLevel_roots (by simpa using hcn) (Finset.singleton_nonempty c)
  have key : ∀ p ∈ pairs, p.1 = c ∨ p.2 = c := by
    intro p hp
    have b := hc.2.forest.eligible p hp
    rcases edge_central hC hc (by simp) hp with h | h
    · rw [centralAt, hget _ (by omega)] at h
      left
      simpa [vars] using h
    · rw [centralAt, hget _ (by omega)] at h
      right
      simpa [vars] using h
  cases w with
  | nil => exact absurd rfl hac
  | @cons _ x _ hadj _ =>
    rw [graph_adj] at hadj
    rcases hadj.2 with hp | hp
    · have hx : x.val = c := (key _ hp).resolve_left hac
      left
      refine List.mem_map.2 ⟨_, hp, ?_⟩
      simp only [edgeOf, hget a ha, hx, hget c hcn]
    · have hx : x.val = c := (key _ hp).resolve_right hac
      right
      refine List.mem_map.2 ⟨_, hp, ?_⟩
      simp only [edgeOf, hget a ha, hx, hget c hcn]

/-- **C56.** With two central assets, they are joined in the first tree, and every edge of the first tree has one of them; in the second tree all edges go to the node of the two. -/
theorem C56_two {n c d : ℕ} (hcd : c ≠ d) (hcn : c < n) (hdn : d < n) {dep dep' : ℕ × ℕ → K} {pairs pairs' : List (ℕ × ℕ)} (hc : Chosen {c, d} 0 ((List.range n).map Node.root) dep pairs)
    (hc' : Chosen {c, d} 1 (nextNodes ((List.range n).map Node.root) pairs) dep' pairs') :
    (∀ e ∈ nextNodes ((List.range n).map Node.root) pairs, c ∈ vars e ∨ d ∈ vars e) ∧
      ∃ z ∈ nextNodes ((List.range n).map Node.root) pairs, vars z = {c, d} ∧ ∀ e ∈ nextNodes (nextNodes ((List.range n).map Node.root) pairs) pairs', ∃ m ∈ nextNodes ((List.range n).map Node.root) pairs, e = .edge z m ∨ e = .edge m z := by
  have hS : ({c, d} : Finset ℕ) ⊆ Finset.range n := by
    intro i hi
    rcases Finset.mem_insert.1 hi with rfl | hi
    · simpa using hcn
    · rw [Finset.mem_singleton.1 hi]
      simpa using hdn
  have hcard : ({c, d} : Finset ℕ).card = 2 := Finset.card_pair hcd
  have h0 : CentralTrees K n {c, d} 0 ((List.range n).map Node.root) [] := .roots
  refine ⟨fun e he => ?_, ?_⟩
  · obtain ⟨l, r, rfl, hl, hr, hv⟩ := (C56_central_nodes hS h0 hc (by omega)).2 e he
    obtain ⟨i, _, rfl⟩ := List.mem_map.1 hl
    obtain ⟨j, _, rfl⟩ := List.mem_map.1 hr
    simp only [vars, Finset.singleton_subset_iff, Finset.mem_insert, Finset.mem_singleton, Finset.mem_union] at hv ⊢
    tauto
  · exact (C56_centre hS (.next 0 _ _ _ _ h0 hc) hc').1 hcard.symm

/-! ### Sampling conditional on the central assets -/

/-- What the edges below a node are like: an edge with more assets than the central ones has a node with all of them. -/
theorem edges_centred {n : ℕ} {S : Finset ℕ} (hS : S ⊆ Finset.range n) (hne : S.Nonempty) {k : ℕ} {nodes edges : List Node} (h : CentralTrees K n S k nodes edges) :
    ∀ l r, Node.edge l r ∈ edges → S.card < (vars (.edge l r)).card → S ⊆ vars l ∨ S ⊆ vars r := by
  induction h with
  | roots => simp
  | next k nodes edges dep pairs ht hc ih =>
    intro l r hm hlt
    rcases List.mem_append.1 hm with hm | hm
    · exact ih l r hm hlt
    · have L' := level_next (centralTrees_level hS hne ht).1 hc.2.forest
      have hcard := (L'.good _ hm).2.1
      rcases Nat.lt_or_ge k S.card with hk | hk
      · obtain ⟨z, _, hz, hall⟩ := (C56_centre hS ht hc).1 (by omega)
        obtain ⟨m, _, e | e⟩ := hall _ hm
        · cases e
          exact Or.inl hz.ge
        · cases e
          exact Or.inr hz.ge
      · exact Or.inl ((C56_centre hS ht hc).2 hne hk l (ends_nodes hc.2.forest hm (by simp [endsOf])))

/-- Peeling a node with all central assets while conditioning on them. -/
theorem peel_central (listing : Finset ℕ → List ℕ) (hl : IsListing listing) {S : Finset ℕ} (cond : ℕ → Bool) (hcond : ∀ i, cond i = true ↔ i ∈ S) (counts : ℕ → ℕ → ℕ) {m : Node} (g : Good m) (hSm : S ⊆ vars m)
    (hQ : ∀ l r, Below (.edge l r) m → S.card < (vars (.edge l r)).card → S ⊆ vars l ∨ S ⊆ vars r) (j : ℕ) (P : List (Node × Bool)) (h : peel listing cond counts j m = some P) :
    ∀ a ∈ P, own a.1 a.2 ∉ S → S ⊆ vars a.1 := by
  induction g generalizing j P with
  | root i =>
    cases h
    simpa using fun _ => hSm
  | edge l r d gl gr hd a1 a2 b1 b2 ihl ihr =>
    have g : Good (.edge l r) := .edge l r d gl gr hd a1 a2 b1 b2
    obtain ⟨⟨s1, s2⟩, s3, s4⟩ := good_sides g
    obtain ⟨P0, p1, p2, p3⟩ := peel_spec listing hl cond counts g j
    rw [h] at p1
    cases p1
    rw [peel, good_condSets listing hl g l r rfl, Option.bind_some] at h
    simp only at h
    obtain ⟨Q, hq, rfl⟩ := Option.map_eq_some_iff.1 h
    -- if all assets are central there is nothing to show
    by_cases hall : vars (.edge l r) = S
    · intro a ha hn
      exact absurd (hall ▸ (p3 _).1 (List.mem_map_of_mem (f := fun e : Node × Bool => own e.1 e.2) ha)) hn
    have hlt : S.card < (vars (.edge l r)).card := Finset.card_lt_card (Finset.ssubset_iff_subset_ne.2 ⟨hSm, fun e => hall e.symm⟩)
    have hor := hQ l r (.self _) hlt
    intro a ha hn
    rcases List.mem_cons.1 ha with rfl | ha
    · exact hSm
    by_cases hb : isLeftBranch (own (.edge l r) true, own (.edge l r) false) cond (counts j) = true
    · rw [if_pos hb] at hq
      have hSr : S ⊆ vars r := by
        by_contra hno
        have hSl := hor.resolve_right hno
        have c2 : cond (own (.edge l r) false) = false := by
          rw [Bool.eq_false_iff]
          exact fun hh => s1 (hSl ((hcond _).1 hh))
        have c1 : cond (own (.edge l r) true) = true := by
          rw [hcond]
          by_contra hh
          refine hno fun i hi => s4 ?_
          rw [Finset.mem_sdiff, Finset.mem_singleton]
          exact ⟨hSm hi, fun e => hh (e ▸ hi)⟩
        simp [isLeftBranch, c1, c2] at hb
      exact ihr hSr (fun x y hxy => hQ x y (.right _ _ _ hxy)) _ _ hq a ha hn
    · rw [if_neg hb] at hq
      have hSl : S ⊆ vars l := by
        by_contra hno
        have hSr := hor.resolve_left hno
        have c1 : cond (own (.edge l r) true) = false := by
          rw [Bool.eq_false_iff]
          exact fun hh => s3 (hSr ((hcond _).1 hh))
        have c2 : cond (own (.edge l r) false) = true := by
          rw [hcond]
          by_contra hh
          refine hno fun i hi => s2 ?_
          rw [Finset.mem_sdiff, Finset.mem_singleton]
          exact ⟨hSm hi, fun e => hh (e ▸ hi)⟩
        simp [isLeftBranch, c1, c2] at hb
      exact ihl hSl (fun x y hxy => hQ x y (.left _ _ _ hxy)) _ _ hq a ha hn

/-- In a star with at least two edges the loop over the leaves ends at the centre. -/
theorem strip_star (listing : Finset ℕ → List ℕ) (cond : ℕ → Bool) (counts : ℕ → ℕ) (fuel : ℕ) {R : List Node} (hn : R.Nodup) (T : TreeEdges R.toFinset) (h2 : 2 ≤ R.length) {z : Node} (hz : ∀ e ∈ R, z ∈ endsOf e)
    {q : List (Node × Bool) × Node × Bool} (hq : stripLeaves listing cond counts fuel R = some q) : stemOf q.2 = z := by
  cases fuel with
  | zero => cases hq
  | succ fuel =>
    have hform : ∀ e ∈ R, ∃ l r, e = .edge l r ∧ l ≠ r := fun e he => T.form e (List.mem_toFinset.2 he)
    have hdz : 2 ≤ deg R.toFinset z := by
      rw [deg, Finset.filter_true_of_mem fun e he => hz e (List.mem_toFinset.1 he), List.toFinset_card_of_nodup hn]
      exact h2
    have hleaf : ∀ f ∈ R, ∃ w ∈ endsOf f, deg R.toFinset w = 1 := by
      intro f hf
      obtain ⟨w, ew, hne⟩ := other_end T (List.mem_toFinset.2 hf) (hz f hf)
      refine ⟨w, by rw [ew]; simp, le_antisymm ?_ (Finset.card_pos.2 ⟨f, Finset.mem_filter.2 ⟨List.mem_toFinset.2 hf, by rw [ew]; simp⟩⟩)⟩
      have hsub : (R.toFinset.filter fun e => w ∈ endsOf e) ⊆ R.toFinset.filter fun e => endsOf e ⊆ {z, w} := by
        intro e he
        obtain ⟨he, hwe⟩ := Finset.mem_filter.1 he
        refine Finset.mem_filter.2 ⟨he, ?_⟩
        obtain ⟨w', ew', _⟩ := other_end T he (hz e (List.mem_toFinset.1 he))
        rw [ew'] at hwe ⊢
        have : w = w' := by simpa [hne.symm] using hwe
        rw [this]
      have := T.forest {z, w}
      rw [Finset.card_pair hne] at this
      exact (Finset.card_le_card hsub).trans this
    obtain ⟨sel, hsel⟩ : ∃ sel, sel = selectLeaves listing cond counts R := ⟨_, rfl⟩
    have hfst := select_fst listing cond counts hn hform
    have hfull : sel.map Prod.fst = R := by
      rw [hsel, hfst, List.filter_eq_self]
      exact fun f hf => decide_eq_true (hleaf f hf)
    have hrest : (R.filter fun e => !(sel.map Prod.fst).contains e) = [] := by
      rw [hfull, List.filter_eq_nil_iff]
      intro e he
      simp [he]
    have hunf : stripLeaves listing cond counts (fuel + 1) R = match (generalizing := false) (R.filter fun e => !(sel.map Prod.fst).contains e), R.getLast?, sel.getLast? with
        | [], some e, some s => some (sortByCost listing counts sel, e, s.2)
        | [], _, _ => none
        | rest, _, _ => (stripLeaves listing cond counts fuel rest).map fun q => (sortByCost listing counts sel ++ q.1, q.2) := by
      rw [hsel]
      rfl
    have hlast : R.getLast? = sel.getLast?.map Prod.fst := by rw [← hfull, List.getLast?_map]
    rw [hunf, hrest, hlast] at hq
    cases hs : sel.getLast? with
    | none =>
      rw [hs] at hq
      simp at hq
    | some s =>
      rw [hs] at hq
      simp only [Option.map_some, Option.some.injEq] at hq
      rw [← hq]
      have hsm : s ∈ sel := List.mem_of_getLast? hs
      obtain ⟨h3, h4⟩ := select_mem listing cond counts hn (hsel ▸ hsm)
      have := hz s.1 h3
      rw [(ends_entry T (List.mem_toFinset.2 h3)).1] at this
      simp only [Finset.mem_insert, Finset.mem_singleton] at this
      rcases this with e | e
      · exact e.symm
      · rw [← e] at h4
        omega

section
variable {n k : ℕ} {S : Finset ℕ} {nodes edges : List Node} {dep : ℕ × ℕ → K} {pairs : List (ℕ × ℕ)}

theorem reverseOrder_central (hS : S ⊆ Finset.range n) (hne : S.Nonempty) (h : CentralTrees K n S k nodes edges) (hc : Chosen S k nodes dep pairs) (hk : k + 1 < n) (hs : S.card ≤ k + 1) {listing : Finset ℕ → List ℕ} (hl : IsListing listing)
    (cond : ℕ → Bool) (hcond : ∀ i, cond i = true ↔ i ∈ S) (counts : ℕ → ℕ → ℕ) {P : List (Node × Bool)} (hP : reverseOrder listing cond counts (nextNodes nodes pairs) = some P) :
    ∀ a ∈ P, own a.1 a.2 ∉ S → S ⊆ vars a.1 := by
  have hnext := CentralTrees.next k nodes edges dep pairs h hc
  obtain ⟨L, C⟩ := centralTrees_level hS hne h
  obtain ⟨L', C'⟩ := centralTrees_level hS hne hnext
  have hQ := edges_centred hS hne hnext
  have hbel := trees_below (centralTrees_trees hnext)
  have hQn : ∀ m ∈ nextNodes nodes pairs, ∀ l r, Below (.edge l r) m → S.card < (vars (.edge l r)).card → S ⊆ vars l ∨ S ⊆ vars r := by
    intro m hm l r hb
    rcases hbel.1 m hm _ hb with h | ⟨i, h⟩
    · exact hQ l r h
    · cases h
  have hlast := C'.later hs
  obtain ⟨E, hE⟩ : ∃ E, E = nextNodes nodes pairs := ⟨_, rfl⟩
  rw [← hE] at hP
  unfold reverseOrder at hP
  split at hP
  · rename_i e
    have he : e ∈ nextNodes nodes pairs := by rw [← hE]; simp
    exact peel_central listing hl cond hcond counts (L'.good e he).1 (hlast e he) (hQn e he) 0 P hP
  · rename_i hnot
    rw [hE] at hP
    have T := treeEdges_next L hc.2.forest hk
    obtain ⟨q, q1, q2, q3, q4⟩ := strip_spec listing cond (counts 0) (nextNodes nodes pairs).length (nextNodes nodes pairs) L'.nodup T le_rfl
    rw [q1, Option.bind_some] at hP
    obtain ⟨l, r, e5, _⟩ := T.form _ (List.mem_toFinset.2 q2)
    have hstem : ∀ m ∈ nodes, stemOf q.2 = m → S ⊆ vars m := by
      intro m hm hst
      rcases Nat.lt_or_ge k S.card with hlt | hge
      · obtain ⟨z, hz, hzS, hall⟩ := (C56_centre hS h hc).1 (by omega)
        have h2 : 2 ≤ (nextNodes nodes pairs).length := by
          have h1 := L'.length hk
          rcases hN : nextNodes nodes pairs with _ | ⟨x, _ | ⟨y, ys⟩⟩
          · rw [hN] at h1
            simp at h1
            omega
          · exact absurd (hE.trans hN) (hnot x)
          · simp
        have := strip_star listing cond (counts 0) (nextNodes nodes pairs).length L'.nodup T h2 (z := z) (by
          intro e he
          obtain ⟨m, _, rfl | rfl⟩ := hall e he <;> simp [endsOf]) q1
        rw [← hst, this, hzS]
      · exact C.later hge m hm
    obtain ⟨order, m, b⟩ := q
    simp only at e5 q2 q3 q4 hstem hP
    subst e5
    obtain ⟨Q, hq, rfl⟩ := Option.map_eq_some_iff.1 hP
    have hcn : stemOf (.edge l r, b) ∈ nodes := ends_nodes hc.2.forest q2 (by cases b <;> simp [stemOf, endsOf])
    intro a ha hn
    rcases List.mem_append.1 ha with ha | ha
    · exact hlast a.1 (q4.mem_iff.1 (List.mem_map_of_mem ha))
    · refine peel_central listing hl cond hcond counts (L.good _ hcn).1 (hstem _ hcn rfl) ?_ 1 Q hq a ha hn
      intro x y hxy
      refine hQn _ q2 x y ?_
      cases b
      · exact .left _ _ _ hxy
      · exact .right _ _ _ hxy

/-- **C56.** Sampling from a vine with the central assets `S`, with at least as many trees as central assets, conditional on the assets `S`. The order has every other asset with a node that has all assets `S`, so that it is drawn from its distribution
given all assets that are conditioned on (and some of those drawn before it). -/
theorem C56_sampling_order (hS : S ⊆ Finset.range n) (hne : S.Nonempty) (h : CentralTrees K n S k nodes edges) (hc : Chosen S k nodes dep pairs) (hk : k + 1 < n) (hs : S.card ≤ k + 1) {listing : Finset ℕ → List ℕ} (hl : IsListing listing)
    (counts : ℕ → ℕ → ℕ) : ∃ order, samplingOrder listing n (fun i => decide (i ∈ S)) counts (nextNodes nodes pairs) = some order ∧ (∀ i < n, ∃ e ∈ order, getVar listing e.1 e.2 = some i) ∧
      ∀ e ∈ order, ∀ i, getVar listing e.1 e.2 = some i → i ∉ S → S ⊆ vars e.1 := by
  obtain ⟨P, e1, e2, e3, e4, _, e6⟩ := samplingOrder_spec listing hl (centralTrees_level hS hne h).1 hc.2.forest hk (fun i => decide (i ∈ S)) counts
  have hP := reverseOrder_central hS hne h hc hk hs hl _ (by simp) counts e6
  have hg := elim_good (elim_replaced (fun i => decide (i ∈ S)) e2)
  refine ⟨_, e1, fun i hi => ?_, fun e he i hi hn => ?_⟩
  · obtain ⟨a, ha, rfl⟩ := List.mem_map.1 ((e3 i).2 hi)
    have hm : replaced (fun i => decide (i ∈ S)) a ∈ P.map (replaced fun i => decide (i ∈ S)) := List.mem_map_of_mem ha
    refine ⟨_, List.mem_reverse.2 hm, ?_⟩
    rw [good_getVar listing hl (hg _ hm), own_replaced]
  · rw [List.mem_reverse] at he
    rw [good_getVar listing hl (hg _ he)] at hi
    obtain ⟨a, ha, rfl⟩ := List.mem_map.1 he
    rw [own_replaced] at hi
    cases hi
    rw [replaced, if_neg (by simpa using hn)]
    exact hP a ha hn

/-- **C56.** Sampling conditional on the central assets, with exchangeable copulas: the result is a sample as in C54 in which every step is conditional on all assets `S`; in a full vine it is conditional on the assets `S` and on all assets drawn before. -/
theorem C56_conditional_sampling (hS : S ⊆ Finset.range n) (hne : S.Nonempty) (h : CentralTrees K n S k nodes edges) (hc : Chosen S k nodes dep pairs) (hk : k + 1 < n) (hs : S.card ≤ k + 1) {listing : Finset ℕ → List ℕ} (hl : IsListing listing)
    {eps : ℝ} (h0 : 0 < eps) (h1 : eps < 1 / 2) (cop : Node → Cop ℝ) (hi : ∀ m, IsInverse (cop m).partialDerivative (cop m).inversePartialDerivative) (he : ∀ m, Exchangeable (cop m)) (cond : ℕ → Option ℝ)
    (hcond : ∀ i, (cond i).isSome = true ↔ i ∈ S) (counts : ℕ → ℕ → ℕ) (rand : List ℝ) (hr : rand.length = ((List.range n).filter fun i => (cond i).isNone).length) :
    ∃ order inits s x steps, samplingOrder listing n (fun i => (cond i).isSome) counts (nextNodes nodes pairs) = some order ∧ initSamples listing eps cond order rand = some inits ∧ propagate cop inits = some s ∧
      (∀ i < n, s.pseudo i = some (x i)) ∧ IsSample cop (nextNodes nodes pairs) n (fun i => (cond i).map (clip eps)) (rand.map (clip eps)) x steps ∧
      (∀ e ∈ steps, S ⊆ vars e.2) ∧ (k + 2 = n → ∀ pre e post, steps = pre ++ e :: post → vars e.2 = S ∪ insert e.1 (pre.map Prod.fst).toFinset) := by
  obtain ⟨P, e1, e2, e3, e4, e5, e6⟩ := samplingOrder_spec listing hl (centralTrees_level hS hne h).1 hc.2.forest hk (fun i => (cond i).isSome) counts
  have hP := reverseOrder_central hS hne h hc hk hs hl _ hcond counts e6
  obtain ⟨inits, s, x, i1, i2, i3, i4⟩ := sample_of_elim listing hl h0 h1 hi cond rand n (nextNodes nodes pairs) P e2 e3 e4 (fun e heP hf m hm => he m) (by rw [hr]; exact free_length cond n P e2 e3)
  have hsteps : ∀ e ∈ stepsOf cond (P.map (replaced fun i => (cond i).isSome)).reverse, S ⊆ vars e.2 := by
    intro e hes
    obtain ⟨pre, post, hsp⟩ := List.append_of_mem hes
    obtain ⟨B, a, A, p1, p2, rfl, _⟩ := steps_split cond P hsp
    refine hP a (by rw [p1]; simp) fun hm => ?_
    have := (hcond _).2 hm
    rw [free] at p2
    rw [Option.isNone_iff_eq_none] at p2
    rw [p2] at this
    simp at this
  refine ⟨_, inits, s, x, _, e1, i1, i2, i3, i4, hsteps, fun hkn pre e post hsp => ?_⟩
  ext i
  rw [Finset.mem_union, Finset.mem_insert, List.mem_toFinset]
  constructor
  · intro him
    by_cases hie : i = e.1
    · exact Or.inr (Or.inl hie)
    · rcases i4.known pre e post hsp i him hie with hh | hh
      · left
        rw [← hcond]
        simpa using hh
      · exact Or.inr (Or.inr hh)
  · rintro (him | rfl | him)
    · exact hsteps e (by rw [hsp]; simp) him
    · exact (i4.nodes e (by rw [hsp]; simp)).2
    · exact steps_full _ P (e5 hkn) hsp i him

end

omit [IsStrictOrderedRing K] in
/-- **C56.** Trees as in the theorems exist for every number of assets and of trees, all central assets and all dependences. -/
theorem C56_exists (n : ℕ) (S : Finset ℕ) (dep : ℕ → ℕ × ℕ → K) (hd : ∀ k p, 0 < dep k p) (k : ℕ) : ∃ nodes edges pairs, CentralTrees K n S k nodes edges ∧ Chosen S k nodes (dep k) pairs := by
  induction k with
  | zero =>
    obtain ⟨pairs, hp⟩ := exists_maxForest 0 ((List.range n).map Node.root) (weight S ((List.range n).map Node.root) (dep 0) (maxDep 0 ((List.range n).map Node.root) (dep 0)))
    exact ⟨_, _, pairs, .roots, hd 0, hp⟩
  | succ k ih =>
    obtain ⟨nodes, edges, pairs, h1, h2⟩ := ih
    obtain ⟨pairs', hp⟩ := exists_maxForest (k + 1) (nextNodes nodes pairs) (weight S (nextNodes nodes pairs) (dep (k + 1)) (maxDep (k + 1) (nextNodes nodes pairs) (dep (k + 1))))
    exact ⟨_, _, pairs', .next k nodes edges (dep k) pairs h1 h2, hd _, hp⟩

/-! Conditioning on some of the central assets only: three assets, all central, joined as 0 - 1 - 2. -/

/-- The second edge of the first tree. -/
def bc : Node := .edge (.root 1) (.root 2)

/-- The dependences of the example: the assets 0 and 2 are joined more weakly. -/
def pathDep : ℕ × ℕ → ℚ := fun p => if p = (0, 2) then 1 / 4 else 1 / 2

theorem pathDep_pos (p : ℕ × ℕ) : 0 < pathDep p := by
  unfold pathDep
  split_ifs <;> norm_num

theorem path_first : IsSpanningForest 0 ((List.range 3).map Node.root) [(0, 1), (1, 2)] := by
  refine forest_of_connected (m := 2) rfl (fun p hp => ?_) (by decide) (by decide) rfl ?_
  · rcases List.mem_cons.1 hp with rfl | hp
    · exact ⟨by decide, by decide, Or.inl rfl⟩
    · rw [List.mem_singleton.1 hp]
      exact ⟨by decide, by decide, Or.inl rfl⟩
  have h01 : (graph ((List.range 3).map Node.root).length [(0, 1), (1, 2)]).Adj ⟨0, by decide⟩ ⟨1, by decide⟩ := graph_adj.2 ⟨by decide, by decide⟩
  have h12 : (graph ((List.range 3).map Node.root).length [(0, 1), (1, 2)]).Adj ⟨1, by decide⟩ ⟨2, by decide⟩ := graph_adj.2 ⟨by decide, by decide⟩
  intro j
  fin_cases j
  · exact SimpleGraph.Reachable.refl _
  · exact h01.reachable
  · exact h01.reachable.trans h12.reachable

theorem path_second : IsSpanningForest 1 [ab, bc] [(0, 1)] := by
  refine forest_of_connected (m := 1) rfl ?_ (by decide) (by decide) rfl ?_
  · intro p hp
    rw [List.mem_singleton.1 hp]
    exact ⟨by decide, by decide, Or.inr (by decide)⟩
  intro j
  fin_cases j
  · exact SimpleGraph.Reachable.refl _
  · exact SimpleGraph.Adj.reachable (graph_adj.2 ⟨by decide, by decide⟩)

/-- A forest of the right number of edges, none of which is lighter than any eligible pair, is a largest one. -/
theorem max_of_equal {level : ℕ} {nodes : List Node} {w : ℕ × ℕ → K} {pairs : List (ℕ × ℕ)} (h : IsSpanningForest level nodes pairs) (hl : pairs.length = nodes.length - 1) (c : K) (hc0 : 0 ≤ c) (hc : ∀ p ∈ pairs, w p = c)
    (hle : ∀ p : ℕ × ℕ, p.1 < p.2 → p.2 < nodes.length → w p ≤ c) : IsMaxForest level nodes w pairs := by
  refine ⟨h, fun pairs' h' => ?_⟩
  have e1 : (pairs.map w).sum = pairs.length • c := by
    rw [List.sum_eq_card_nsmul (pairs.map w) c (by
      intro x hx
      obtain ⟨p, hp, rfl⟩ := List.mem_map.1 hx
      exact hc p hp), List.length_map]
  have e2 : (pairs'.map w).sum ≤ pairs'.length • c := by
    have := List.sum_le_card_nsmul (pairs'.map w) c (by
      intro x hx
      obtain ⟨p, hp, rfl⟩ := List.mem_map.1 hx
      exact hle p (h'.eligible p hp).1 (h'.eligible p hp).2.1)
    rwa [List.length_map] at this
  have hlen : pairs'.length ≤ pairs.length := by
    have := forest_count (fun p hp => ⟨(h'.eligible p hp).1, (h'.eligible p hp).2.1⟩) h'.nodup h'.acyclic (Finset.range nodes.length)
    rw [Finset.card_range, List.countP_eq_length.2 (fun p hp => by
      have := h'.eligible p hp
      simp only [Finset.mem_range, decide_eq_true_eq]
      omega)] at this
    omega
  rw [e1]
  exact e2.trans (nsmul_le_nsmul_left hc0 hlen)

theorem path_weight (nodes : List Node) (hv : ∀ m ∈ nodes, vars m ⊆ ({0, 1, 2} : Finset ℕ)) (M : ℚ) {p : ℕ × ℕ} (h1 : p.1 < nodes.length) (h2 : p.2 < nodes.length) : weight {0, 1, 2} nodes pathDep M p = pathDep p + 3 * M := by
  have hc : ∀ i, i < nodes.length → centralAt {0, 1, 2} nodes i := by
    intro i hi
    rw [centralAt, List.getD_eq_getElem _ _ hi]
    exact hv _ (List.getElem_mem hi)
  rw [weight_eq _ _ _ _ h1 h2, if_pos ⟨hc _ h1, hc _ h2⟩]

theorem path_chosen_first : Chosen {0, 1, 2} 0 ((List.range 3).map Node.root) pathDep [(0, 1), (1, 2)] := by
  refine ⟨pathDep_pos, ?_⟩
  obtain ⟨M, hM⟩ : ∃ M, M = maxDep 0 ((List.range 3).map Node.root) pathDep := ⟨_, rfl⟩
  have h0 : 0 ≤ M := hM ▸ maxDep_nonneg _ _ _
  rw [← hM]
  have hv : ∀ m ∈ (List.range 3).map Node.root, vars m ⊆ ({0, 1, 2} : Finset ℕ) := by decide
  refine max_of_equal path_first rfl (1 / 2 + 3 * M) (by linarith) (fun p hp => ?_) (fun p h1 h2 => ?_)
  · have := path_first.eligible p hp
    rw [path_weight _ hv M (this.1.trans this.2.1) this.2.1]
    simp only [List.mem_cons, List.not_mem_nil, or_false] at hp
    rcases hp with rfl | rfl <;> norm_num [pathDep]
  · rw [path_weight _ hv M (h1.trans h2) h2]
    have : pathDep p ≤ 1 / 2 := by
      unfold pathDep
      split_ifs <;> norm_num
    linarith

theorem path_chosen_second : Chosen {0, 1, 2} 1 [ab, bc] pathDep [(0, 1)] := by
  refine ⟨pathDep_pos, ?_⟩
  obtain ⟨M, hM⟩ : ∃ M, M = maxDep 1 [ab, bc] pathDep := ⟨_, rfl⟩
  have h0 : 0 ≤ M := hM ▸ maxDep_nonneg _ _ _
  rw [← hM]
  have hv : ∀ m ∈ [ab, bc], vars m ⊆ ({0, 1, 2} : Finset ℕ) := by decide
  refine max_of_equal path_second rfl (1 / 2 + 3 * M) (by linarith) (fun p hp => ?_) (fun p h1 h2 => ?_)
  · have := path_second.eligible p hp
    rw [path_weight _ hv M (this.1.trans this.2.1) this.2.1]
    rw [List.mem_singleton.1 hp]
    norm_num [pathDep]
  · rw [path_weight _ hv M (h1.trans h2) h2]
    have : pathDep p ≤ 1 / 2 := by
      unfold pathDep
      split_ifs <;> norm_num
    linarith

theorem path_trees : CentralTrees ℚ 3 {0, 1, 2} 1 [ab, bc] [ab, bc] := .next 0 _ _ _ _ .roots path_chosen_first

theorem path_good : Good (.edge ab bc) := ((built_level (.next 1 _ _ (.next 0 _ _ .roots path_first) path_second)).good _ (by show _ ∈ [Node.edge ab bc]; simp)).1

/-- **C56.** All the assets that are conditioned on must be central, and the other way round: with the three assets 0, 1 and 2 central and joined as 0 - 1 - 2, no warning is given when conditioning on the assets 0 and 2, but asset 1 is drawn given
one of the two only. -/
theorem C56_part_of_central : ∃ (nodes edges : List Node) (pairs : List (ℕ × ℕ)), CentralTrees ℚ 3 {0, 1, 2} 1 nodes edges ∧ Chosen {0, 1, 2} 1 nodes pathDep pairs ∧
    ∀ (listing : Finset ℕ → List ℕ), IsListing listing → ∀ counts, ∃ order, samplingOrder listing 3 (fun i => decide (i = 0 ∨ i = 2)) counts (nextNodes nodes pairs) = some order ∧
      ∃ e ∈ order, getVar listing e.1 e.2 = some 1 ∧ (vars e.1 = {0, 1} ∨ vars e.1 = {1, 2}) := by
  refine ⟨[ab, bc], [ab, bc], [(0, 1)], path_trees, path_chosen_second, fun listing hl counts => ?_⟩
  have e1 : condSets listing (.edge ab bc) = some ⟨(0, 2), {1}⟩ := by
    rw [good_condSets listing hl path_good ab bc rfl]
    decide
  have g1 := good_getVar listing hl (.root 2) true
  have g2 := good_getVar listing hl (.root 0) true
  have g3 := good_getVar listing hl path_good true
  have g4 := good_getVar listing hl path_good false
  have hn : nextNodes [ab, bc] [(0, 1)] = [.edge ab bc] := rfl
  rw [hn]
  by_cases hle : counts 0 0 ≤ counts 0 2
  · have p1 : peel listing (fun i => decide (i = 0 ∨ i = 2)) counts 1 bc = some [(bc, true), (.root 2, true)] := by simp [bc, peel, condSets, isLeftBranch]
    have p0 : peel listing (fun i => decide (i = 0 ∨ i = 2)) counts 0 (.edge ab bc) = some [(.edge ab bc, true), (bc, true), (.root 2, true)] := by
      rw [peel, e1]
      simp [isLeftBranch, hle, ← Bool.decide_or, p1]
    have gb : getVar listing bc true = some 1 := rfl
    refine ⟨[(.root 2, true), (bc, true), (.root 0, true)], ?_, (bc, true), by simp, gb, Or.inr (by decide)⟩
    rw [samplingOrder, reverseOrder, p0]
    simp [replaceConditioned, g1, gb, g3, own]
    decide
  · have p1 : peel listing (fun i => decide (i = 0 ∨ i = 2)) counts 1 ab = some [(ab, false), (.root 0, true)] := by simp [ab, peel, condSets, isLeftBranch]
    have p0 : peel listing (fun i => decide (i = 0 ∨ i = 2)) counts 0 (.edge ab bc) = some [(.edge ab bc, false), (ab, false), (.root 0, true)] := by
      rw [peel, e1]
      simp [isLeftBranch, hle, ← Bool.decide_or, p1]
    have gb : getVar listing ab false = some 1 := rfl
    refine ⟨[(.root 0, true), (ab, false), (.root 2, true)], ?_, (ab, false), by simp, gb, Or.inl (by decide)⟩
    rw [samplingOrder, reverseOrder, p0]
    simp [replaceConditioned, g2, gb, g4, own]
    decide

/-- The hypotheses of the theorems are met, with three central assets of which there are as many as can be. -/
example : ({0, 1, 2} : Finset ℕ) ⊆ Finset.range 3 ∧ CentralTrees ℚ 3 {0, 1, 2} 1 [ab, bc] [ab, bc] ∧ Chosen {0, 1, 2} 1 [ab, bc] pathDep [(0, 1)] := ⟨by decide, path_trees, path_chosen_second⟩

/-- With one central asset of four, and three trees. -/
example : ∃ (nodes edges : List Node) (pairs : List (ℕ × ℕ)), CentralTrees ℚ 4 {2} 2 nodes edges ∧ Chosen (K := ℚ) {2} 2 nodes (fun _ => 1) pairs ∧ ({2} : Finset ℕ) ⊆ Finset.range 4 ∧ ({2} : Finset ℕ).card ≤ 3 := by
  obtain ⟨nodes, edges, pairs, h1, h2⟩ := C56_exists (K := ℚ) 4 {2} (fun _ _ => 1) (by simp) 2
  exact ⟨nodes, edges, pairs, h1, h2, by decide, by decide⟩

end Skfolio.Vine
