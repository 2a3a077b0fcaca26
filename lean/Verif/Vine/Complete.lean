import Verif.Vine.Strip

/-! The sampling order of a vine built by `fit`. -/
set_option autoImplicit false

namespace Skfolio.Vine

theorem treeEdges_next {n k : ℕ} {nodes : List Node} {pairs : List (ℕ × ℕ)} (L : Level n k nodes) (h : IsSpanningForest k nodes pairs) (hk : k + 1 < n) : TreeEdges (nextNodes nodes pairs).toFinset := by
  have hp : ∀ p ∈ pairs, p.1 < p.2 ∧ p.2 < nodes.length := fun p hp => ⟨(h.eligible p hp).1, (h.eligible p hp).2.1⟩
  have L' := level_next L h
  have hlen := L'.length hk
  have hl0 := L.length (by omega)
  rw [nextNodes_eq hp] at *
  have form : ∀ e ∈ (pairs.map (edgeOf nodes)).toFinset, ∃ l r, e = .edge l r ∧ l ≠ r := by
    intro e he
    obtain ⟨p, h1, rfl⟩ := List.mem_map.1 (List.mem_toFinset.1 he)
    refine ⟨_, _, rfl, fun e => ?_⟩
    have := getD_inj L.nodup ((hp p h1).1.trans (hp p h1).2) (hp p h1).2 e
    have := (hp p h1).1
    omega
  have forest : ∀ S : Finset Node, ((pairs.map (edgeOf nodes)).toFinset.filter fun e => endsOf e ⊆ S).card ≤ S.card - 1 := by
    intro S
    let I : Finset ℕ := (Finset.range nodes.length).filter fun i => nodes.getD i (.root 0) ∈ S
    have hI : I.card ≤ S.card := by
      refine Finset.card_le_card_of_injOn (fun i => nodes.getD i (.root 0)) ?_ ?_
      · intro i hi
        exact (Finset.mem_filter.1 hi).2
      · intro i hi j hj e
        exact getD_inj L.nodup (Finset.mem_range.1 (Finset.mem_filter.1 hi).1) (Finset.mem_range.1 (Finset.mem_filter.1 hj).1) e
    have c := forest_count hp h.nodup h.acyclic I
    have e : ((pairs.map (edgeOf nodes)).toFinset.filter fun e => endsOf e ⊆ S).card = pairs.countP (fun p => decide (p.1 ∈ I ∧ p.2 ∈ I)) := by
      have e1 : ((pairs.map (edgeOf nodes)).toFinset.filter fun e => endsOf e ⊆ S) = ((pairs.map (edgeOf nodes)).filter fun e => decide (endsOf e ⊆ S)).toFinset := by
        rw [List.toFinset_filter]
        simp
      rw [e1, List.toFinset_card_of_nodup (L'.nodup.filter _), ← List.countP_eq_length_filter, List.countP_map]
      refine List.countP_congr fun p h1 => ?_
      have hlt := hp p h1
      have : p.1 < nodes.length := hlt.1.trans hlt.2
      simp only [Function.comp, edgeOf, endsOf, decide_eq_true_eq, I, Finset.mem_filter, Finset.mem_range, Finset.insert_subset_iff, Finset.singleton_subset_iff]
      tauto
    rw [e]
    omega
  refine ⟨form, forest, ?_⟩
  have hcardE : (pairs.map (edgeOf nodes)).toFinset.card = n - (k + 1) := by rw [List.toFinset_card_of_nodup L'.nodup, hlen]
  have hup : (ends (pairs.map (edgeOf nodes)).toFinset).card ≤ nodes.length := by
    rw [← List.toFinset_card_of_nodup L.nodup]
    refine Finset.card_le_card fun v hv => ?_
    obtain ⟨e, he, hve⟩ := mem_ends.1 hv
    obtain ⟨p, h1, rfl⟩ := List.mem_map.1 (List.mem_toFinset.1 he)
    have hlt := hp p h1
    have : p.1 < nodes.length := hlt.1.trans hlt.2
    simp only [edgeOf, endsOf, Finset.mem_insert, Finset.mem_singleton] at hve
    rw [List.mem_toFinset]
    rcases hve with rfl | rfl
    · rw [List.getD_eq_getElem _ _ this]
      exact List.getElem_mem _
    · rw [List.getD_eq_getElem _ _ hlt.2]
      exact List.getElem_mem _
  have hlow := forest (ends (pairs.map (edgeOf nodes)).toFinset)
  rw [Finset.filter_true_of_mem (fun e he v hv => mem_ends.2 ⟨e, he, hv⟩)] at hlow
  omega

/-- A node of a level is an end of an edge above it. -/
theorem ends_nodes {k : ℕ} {nodes : List Node} {pairs : List (ℕ × ℕ)} (h : IsSpanningForest k nodes pairs) {e v : Node} (he : e ∈ nextNodes nodes pairs) (hv : v ∈ endsOf e) : v ∈ nodes := by
  have hp : ∀ p ∈ pairs, p.1 < p.2 ∧ p.2 < nodes.length := fun p hp => ⟨(h.eligible p hp).1, (h.eligible p hp).2.1⟩
  rw [nextNodes_eq hp] at he
  obtain ⟨p, h1, rfl⟩ := List.mem_map.1 he
  have hlt := hp p h1
  have : p.1 < nodes.length := hlt.1.trans hlt.2
  simp only [edgeOf, endsOf, Finset.mem_insert, Finset.mem_singleton] at hv
  rcases hv with rfl | rfl
  · rw [List.getD_eq_getElem _ _ this]
    exact List.getElem_mem _
  · rw [List.getD_eq_getElem _ _ hlt.2]
    exact List.getElem_mem _

/-- A leaf order followed by the peeling of the last node is an elimination order. -/
theorem leafOrder_elim {n k : ℕ} {nodes : List Node} {pairs : List (ℕ × ℕ)} (L : Level n k nodes) (h : IsSpanningForest k nodes pairs) {c : Node} (hc : c ∈ nodes) {P : List (Node × Bool)} (hP : Elim P)
    (hPv : ∀ i, i ∈ P.map (fun e => own e.1 e.2) ↔ i ∈ vars c) (order : List (Node × Bool)) (ho : LeafOrder c order) (hm : ∀ a ∈ order, a.1 ∈ nextNodes nodes pairs) :
    Elim (order ++ P) ∧ (∀ i, i ∈ (order ++ P).map (fun e => own e.1 e.2) ↔ i ∈ (insert c (ends (order.map Prod.fst).toFinset)).biUnion vars) ∧
      (insert c (ends (order.map Prod.fst).toFinset)).card = order.length + 1 ∧ ((insert c (ends (order.map Prod.fst).toFinset)).biUnion vars).card = k + (order.length + 1) := by
  have L' := level_next L h
  induction order with
  | nil =>
    have : insert c (ends (([] : List (Node × Bool)).map Prod.fst).toFinset) = {c} := by simp [ends]
    rw [this]
    refine ⟨hP, fun i => ?_, by simp, ?_⟩
    · rw [List.nil_append, hPv i, Finset.singleton_biUnion]
    · simp [(L.good c hc).2.1]
  | cons a as ih =>
    obtain ⟨h1, h2, h3⟩ := ho
    obtain ⟨i1, i2, i3, i4⟩ := ih h3 (fun x hx => hm x (by simp [hx]))
    have ha := hm a (by simp)
    obtain ⟨g, gc, gs⟩ := L'.good _ ha
    obtain ⟨n0, b⟩ := a
    match n0, g with
    | .root i, _ => simp [vars] at gc
    | .edge l r, g =>
    obtain ⟨S, hS⟩ : ∃ S, S = insert c (ends (as.map Prod.fst).toFinset) := ⟨_, rfl⟩
    rw [← hS] at h1 h2 i2 i3 i4
    have hS' : insert c (ends (((Node.edge l r, b) :: as).map Prod.fst).toFinset) = insert (leafOf (.edge l r, b)) S := by
      have : ends (((Node.edge l r, b) :: as).map Prod.fst).toFinset = endsOf (.edge l r) ∪ ends (as.map Prod.fst).toFinset := by
        simp [ends, List.toFinset_cons, Finset.biUnion_insert]
      rw [this]
      have e : endsOf (.edge l r) = {stemOf (.edge l r, b), leafOf (.edge l r, b)} := by
        cases b
        · rfl
        · exact Finset.pair_comm _ _
      rw [e]
      ext v
      have h2' := h2
      rw [hS, Finset.mem_insert] at h2'
      simp only [hS, Finset.mem_insert, Finset.mem_union, Finset.mem_singleton]
      constructor
      · rintro (h | (h | h) | h)
        · exact Or.inr (Or.inl h)
        · subst h
          exact Or.inr h2'
        · exact Or.inl h
        · exact Or.inr (Or.inr h)
      · rintro (h | h | h)
        · exact Or.inr (Or.inl (Or.inr h))
        · exact Or.inl h
        · exact Or.inr (Or.inr h)
    obtain ⟨a0, ha0⟩ : ∃ a0, a0 = own (.edge l r) b := ⟨_, rfl⟩
    have hside : a0 ∉ vars (stemOf (.edge l r, b)) ∧ vars (.edge l r) \ {a0} ⊆ vars (stemOf (.edge l r, b)) ∧ vars (leafOf (.edge l r, b)) ⊆ vars (.edge l r) := by
      obtain ⟨s1, s2⟩ := good_sides g
      cases b
      · exact ⟨ha0 ▸ s1.1, ha0 ▸ s1.2, vars_right l r⟩
      · exact ⟨ha0 ▸ s2.1, ha0 ▸ s2.2, vars_left l r⟩
    have hleafmem : a0 ∈ vars (leafOf (.edge l r, b)) := by
      have := own_mem g b
      rw [← ha0] at this
      have hn := hside.1
      cases b
      · simp only [stemOf, leafOf, vars, Finset.mem_union, Bool.false_eq_true, if_false] at this hn ⊢
        exact this.resolve_left hn
      · simp only [stemOf, leafOf, vars, Finset.mem_union, if_true] at this hn ⊢
        exact this.resolve_right hn
    have hU : (insert (leafOf (.edge l r, b)) S).biUnion vars = insert a0 (S.biUnion vars) := by
      ext i
      rw [Finset.biUnion_insert, Finset.mem_union, Finset.mem_insert]
      constructor
      · rintro (hi | hi)
        · by_cases hia : i = a0
          · exact Or.inl hia
          · exact Or.inr (Finset.mem_biUnion.2 ⟨_, h2, hside.2.1 (Finset.mem_sdiff.2 ⟨hside.2.2 hi, by simpa using hia⟩)⟩)
        · exact Or.inr hi
      · rintro (rfl | hi)
        · exact Or.inl hleafmem
        · exact Or.inr hi
    have hSn : insert (leafOf (.edge l r, b)) S ⊆ nodes.toFinset := by
      intro v hv
      rw [List.mem_toFinset]
      rw [← hS', Finset.mem_insert] at hv
      rcases hv with rfl | hv
      · exact hc
      · obtain ⟨e, he, hve⟩ := mem_ends.1 hv
        obtain ⟨x, hx, rfl⟩ := List.mem_map.1 (List.mem_toFinset.1 he)
        exact ends_nodes h (hm x hx) hve
    have hcount : (insert (leafOf (.edge l r, b)) S).card ≤ (insert a0 (S.biUnion vars)).card - k := by
      refine le_trans ?_ (L.count _)
      rw [List.countP_eq_length_filter, ← List.toFinset_card_of_nodup (L.nodup.filter _)]
      refine Finset.card_le_card fun v hv => ?_
      rw [List.mem_toFinset, List.mem_filter]
      refine ⟨List.mem_toFinset.1 (hSn hv), decide_eq_true ?_⟩
      rw [← hU]
      exact Finset.subset_biUnion_of_mem vars hv
    have hcS : (insert (leafOf (.edge l r, b)) S).card = as.length + 2 := by rw [Finset.card_insert_of_notMem h1, i3]
    have hnew : a0 ∉ S.biUnion vars := by
      intro hmem
      rw [Finset.insert_eq_of_mem hmem, hcS, i4] at hcount
      omega
    refine ⟨⟨g, ?_, ?_, i1⟩, ?_, ?_, ?_⟩
    · rw [List.append_eq, i2]
      exact ha0 ▸ hnew
    · intro i hi hne
      rw [List.append_eq, i2]
      exact Finset.mem_biUnion.2 ⟨_, h2, hside.2.1 (Finset.mem_sdiff.2 ⟨hi, by simpa [ha0] using hne⟩)⟩
    · intro i
      rw [hS', hU, List.cons_append, List.map_cons, List.mem_cons, i2, Finset.mem_insert, ha0]
    · rw [hS', hcS, List.length_cons]
    · rw [hS', hU, Finset.card_insert_of_notMem hnew, i4, List.length_cons]
      omega

theorem peel_below (listing : Finset ℕ → List ℕ) (cond : ℕ → Bool) (counts : ℕ → ℕ → ℕ) (n : Node) (k : ℕ) (P : List (Node × Bool)) (h : peel listing cond counts k n = some P) : ∀ e ∈ P, Below e.1 n := by
  induction n generalizing k P with
  | root i =>
    cases h
    simp [Below.self]
  | edge l r ihl ihr =>
    rw [peel] at h
    obtain ⟨s, _, h⟩ := Option.bind_eq_some_iff.1 h
    simp only at h
    obtain ⟨Q, hq, rfl⟩ := Option.map_eq_some_iff.1 h
    intro e he
    rcases List.mem_cons.1 he with rfl | he
    · exact .self _
    · split_ifs at hq
      · exact .right _ _ _ (ihr _ _ hq e he)
      · exact .left _ _ _ (ihl _ _ hq e he)

theorem peel_full (listing : Finset ℕ → List ℕ) (hl : ∀ s, (listing s).Nodup ∧ ∀ a, a ∈ listing s ↔ a ∈ s) (cond : ℕ → Bool) (counts : ℕ → ℕ → ℕ) {n : Node} (g : Good n) (k : ℕ) (P : List (Node × Bool)) (h : peel listing cond counts k n = some P) :
    ∀ B a A, P = B ++ a :: A → ∀ i ∈ A.map (fun e => own e.1 e.2), i ∈ vars a.1 := by
  induction g generalizing k P with
  | root i =>
    cases h
    intro B a A e
    rcases List.append_eq_cons_iff.1 e.symm with ⟨rfl, e'⟩ | ⟨B', rfl, e'⟩
    · cases e'
      simp
    · simp at e'
  | edge l r d gl gr hd a1 a2 b1 b2 ihl ihr =>
    have g : Good (.edge l r) := .edge l r d gl gr hd a1 a2 b1 b2
    obtain ⟨Q, e1, e2, e3⟩ := peel_spec listing hl cond counts g k
    rw [h] at e1
    cases e1
    rw [peel] at h
    obtain ⟨s, _, h⟩ := Option.bind_eq_some_iff.1 h
    simp only at h
    obtain ⟨Q, hq, rfl⟩ := Option.map_eq_some_iff.1 h
    intro B a A e i hi
    rcases List.append_eq_cons_iff.1 e.symm with ⟨rfl, e'⟩ | ⟨B', rfl, e'⟩
    · rw [List.cons.injEq] at e'
      rw [e'.1]
      refine (e3 i).1 ?_
      rw [← e'.2, List.map_cons]
      exact List.mem_cons_of_mem _ hi
    · split_ifs at hq
      · exact ihr _ _ hq B' a A e' i hi
      · exact ihl _ _ hq B' a A e' i hi

/-- `_sampling_order` succeeds on the trees of `fit`, and its order lets every variable be computed from those before it. -/
theorem samplingOrder_spec (listing : Finset ℕ → List ℕ) (hl : ∀ s, (listing s).Nodup ∧ ∀ a, a ∈ listing s ↔ a ∈ s) {n k : ℕ} {nodes : List Node} {pairs : List (ℕ × ℕ)} (L : Level n k nodes) (h : IsSpanningForest k nodes pairs)
    (hk : k + 1 < n) (cond : ℕ → Bool) (counts : ℕ → ℕ → ℕ) :
    ∃ P, samplingOrder listing n cond counts (nextNodes nodes pairs) = some (P.map (replaced cond)).reverse ∧ Elim P ∧ (∀ i, i ∈ P.map (fun e => own e.1 e.2) ↔ i < n) ∧ (∀ e ∈ P, ∃ m ∈ nextNodes nodes pairs, Below e.1 m) ∧
      (k + 2 = n → ∀ B a A, P = B ++ a :: A → ∀ i ∈ A.map (fun e => own e.1 e.2), i ∈ vars a.1) ∧ reverseOrder listing cond counts (nextNodes nodes pairs) = some P := by
  have L' := level_next L h
  have hlen := L'.length hk
  have T := treeEdges_next L h hk
  obtain ⟨E, hE⟩ : ∃ E, E = nextNodes nodes pairs := ⟨_, rfl⟩
  have main : ∃ P, reverseOrder listing cond counts E = some P ∧ Elim P ∧ (∀ i, i ∈ P.map (fun e => own e.1 e.2) ↔ i < n) ∧ (∀ e ∈ P, ∃ m ∈ E, Below e.1 m) ∧
      (k + 2 = n → ∀ B a A, P = B ++ a :: A → ∀ i ∈ A.map (fun e => own e.1 e.2), i ∈ vars a.1) := by
    unfold reverseOrder
    split
    · rename_i e
      have he : e ∈ nextNodes nodes pairs := by rw [← hE]; simp
      obtain ⟨g, gc, gs⟩ := L'.good e he
      obtain ⟨P, e1, e2, e3⟩ := peel_spec listing hl cond counts g 0
      refine ⟨P, e1, e2, fun i => ?_, fun a ha => ⟨e, by simp, peel_below _ _ _ _ _ _ e1 a ha⟩, fun _ => peel_full listing hl cond counts g 0 P e1⟩
      have : n - (k + 1) = 1 := by rw [← hlen, ← hE]; rfl
      have : vars e = Finset.range n := Finset.eq_of_subset_of_card_le gs (by rw [Finset.card_range]; omega)
      rw [e3, this, Finset.mem_range]
    · rename_i hnot
      rw [hE]
      obtain ⟨q, e1, e2, e3, e4⟩ := strip_spec listing cond (counts 0) _ _ L'.nodup T le_rfl
      rw [e1]
      simp only [Option.bind_some]
      obtain ⟨l, r, e5, _⟩ := T.form _ (List.mem_toFinset.2 e2)
      obtain ⟨order, m, b⟩ := q
      simp only at e5 e2 e3 e4 ⊢
      subst e5
      have hc : stemOf (.edge l r, b) ∈ nodes := ends_nodes h e2 (by cases b <;> simp [stemOf, endsOf])
      obtain ⟨P, p1, p2, p3⟩ := peel_spec listing hl cond counts (L.good _ hc).1 1
      obtain ⟨o1, o2, o3, o4⟩ := leafOrder_elim L h hc p2 p3 order e3 (fun a ha => e4.mem_iff.1 (List.mem_map_of_mem ha))
      have hst : (if b = true then r else l) = stemOf (.edge l r, b) := rfl
      refine ⟨order ++ P, by show Option.map _ (peel listing cond counts 1 (if b = true then r else l)) = _; rw [hst, p1]; rfl, o1, fun i => ?_, ?_, fun hkn => ?_⟩
      rotate_left
      · intro a ha
        rcases List.mem_append.1 ha with ha | ha
        · exact ⟨a.1, e4.mem_iff.1 (List.mem_map_of_mem ha), .self _⟩
        · refine ⟨_, e2, ?_⟩
          have := peel_below _ _ _ _ _ _ p1 a ha
          cases b
          · exact .left _ _ _ this
          · exact .right _ _ _ this
      · exfalso
        rw [hkn.symm] at hlen
        obtain ⟨e, he⟩ := List.length_eq_one_iff.1 (show (nextNodes nodes pairs).length = 1 by omega)
        exact hnot e (hE.trans he)
      have hol : order.length = n - (k + 1) := by rw [← hlen, ← e4.length_eq, List.length_map]
      have : (insert (stemOf (.edge l r, b)) (ends (order.map Prod.fst).toFinset)).biUnion vars = Finset.range n := by
        refine Finset.eq_of_subset_of_card_le ?_ (by rw [Finset.card_range, o4]; omega)
        intro j hj
        obtain ⟨v, hv, hjv⟩ := Finset.mem_biUnion.1 hj
        rcases Finset.mem_insert.1 hv with rfl | hv
        · exact (L.good _ hc).2.2 hjv
        · obtain ⟨e, he, hve⟩ := mem_ends.1 hv
          obtain ⟨x, hx, rfl⟩ := List.mem_map.1 (List.mem_toFinset.1 he)
          exact (L.good v (ends_nodes h (e4.mem_iff.1 (List.mem_map_of_mem hx)) hve)).2.2 hjv
      rw [o2, this, Finset.mem_range]
  obtain ⟨P, hP, hEl, hv, hbel, hfull⟩ := main
  refine ⟨P, ?_, hEl, hv, hE ▸ hbel, hfull, hE ▸ hP⟩
  have hn := elim_nodup (elim_replaced cond hEl)
  have hlenP : (P.map (replaced cond)).length = n := by
    have h1 : (P.map fun e => own e.1 e.2).toFinset = Finset.range n := by
      ext i
      rw [List.mem_toFinset, hv, Finset.mem_range]
    rw [List.length_map, ← List.length_map (f := fun e : Node × Bool => own e.1 e.2), ← List.toFinset_card_of_nodup (elim_nodup hEl), h1, Finset.card_range]
  rw [samplingOrder, ← hE]
  rw [hP, Option.bind_some, mapM_replace listing hl cond P (elim_good hEl), Option.bind_some, if_pos ⟨List.Nodup.of_map _ hn, hlenP⟩]

end Skfolio.Vine
