import Verif.Vine.Order

/-! Taking away the leaves of the last tree of a truncated vine, round by round. -/
set_option autoImplicit false

namespace Skfolio.Vine

/-- The two ends of an edge. -/
def endsOf : Node → Finset Node
  | .edge l r => {l, r}
  | .root _ => ∅

/-- The ends of some edges. -/
def ends (R : Finset Node) : Finset Node := R.biUnion endsOf

/-- The number of edges at a node. -/
def deg (R : Finset Node) (v : Node) : ℕ := (R.filter fun e => v ∈ endsOf e).card

theorem degree_eq {R : List Node} (h : R.Nodup) (v : Node) : degree R v = deg R.toFinset v := by
  unfold degree deg
  rw [List.countP_eq_length_filter, ← List.toFinset_card_of_nodup (h.filter _), List.toFinset_filter]
  congr 1
  ext e
  simp only [Finset.mem_filter, List.mem_toFinset]
  cases e with
  | root i => simp [endsOf]
  | edge l r =>
    have : (l = v ∨ r = v) ↔ (v = l ∨ v = r) := by rw [eq_comm, eq_comm (a := r)]
    simp [endsOf, this]

/-- Edges that make a tree. -/
structure TreeEdges (R : Finset Node) : Prop where
  form : ∀ e ∈ R, ∃ l r, e = .edge l r ∧ l ≠ r
  forest : ∀ S : Finset Node, (R.filter fun e => endsOf e ⊆ S).card ≤ S.card - 1
  tree : (ends R).card = R.card + 1

theorem TreeEdges.ends_card {R : Finset Node} (T : TreeEdges R) {e : Node} (he : e ∈ R) : (endsOf e).card = 2 := by
  obtain ⟨l, r, rfl, h⟩ := T.form e he
  exact Finset.card_pair h

theorem mem_ends {R : Finset Node} {v : Node} : v ∈ ends R ↔ ∃ e ∈ R, v ∈ endsOf e := by simp [ends]

theorem deg_pos {R : Finset Node} {v : Node} (h : v ∈ ends R) : 1 ≤ deg R v := by
  obtain ⟨e, he, hv⟩ := mem_ends.1 h
  exact Finset.card_pos.2 ⟨e, Finset.mem_filter.2 ⟨he, hv⟩⟩

/-- A tree with an edge has a leaf. -/
theorem TreeEdges.exists_leaf {R : Finset Node} (T : TreeEdges R) : ∃ e ∈ R, ∃ v ∈ endsOf e, deg R v = 1 := by
  by_contra hno
  push Not at hno
  have h2 : ∀ v ∈ ends R, 2 ≤ deg R v := by
    intro v hv
    have := deg_pos hv
    obtain ⟨e, he, hv'⟩ := mem_ends.1 hv
    have := hno e he v hv'
    omega
  have key := Finset.sum_card_bipartiteAbove_eq_sum_card_bipartiteBelow (s := ends R) (t := R) (fun v e => v ∈ endsOf e)
  have e1 : ∑ v ∈ ends R, (Finset.bipartiteAbove (fun v e => v ∈ endsOf e) R v).card = ∑ v ∈ ends R, deg R v := rfl
  have e2 : ∑ e ∈ R, (Finset.bipartiteBelow (fun v e => v ∈ endsOf e) (ends R) e).card = ∑ e ∈ R, 2 := by
    refine Finset.sum_congr rfl fun e he => ?_
    rw [← T.ends_card he]
    congr 1
    ext v
    simp only [Finset.bipartiteBelow, Finset.mem_filter, and_iff_right_iff_imp]
    exact fun hv => mem_ends.2 ⟨e, he, hv⟩
  have e3 : ∑ v ∈ ends R, 2 ≤ ∑ v ∈ ends R, deg R v := Finset.sum_le_sum h2
  rw [e1, e2] at key
  simp only [Finset.sum_const, smul_eq_mul] at key e3
  have := T.tree
  omega

/-- A leaf has one edge. -/
theorem deg_one_unique {R : Finset Node} {v e f : Node} (h : deg R v = 1) (he : e ∈ R) (hf : f ∈ R) (hve : v ∈ endsOf e) (hvf : v ∈ endsOf f) : e = f := by
  obtain ⟨g, hg⟩ := Finset.card_eq_one.1 h
  have h1 : e ∈ R.filter fun e => v ∈ endsOf e := Finset.mem_filter.2 ⟨he, hve⟩
  have h2 : f ∈ R.filter fun e => v ∈ endsOf e := Finset.mem_filter.2 ⟨hf, hvf⟩
  rw [hg, Finset.mem_singleton] at h1 h2
  rw [h1, h2]

/-- The end of an edge that is not `o`. -/
def otherOf (o : Node) : Node → Node
  | .edge l r => if l = o then r else l
  | .root i => .root i

theorem otherOf_spec {R : Finset Node} (T : TreeEdges R) {e o : Node} (he : e ∈ R) (ho : o ∈ endsOf e) : endsOf e = {o, otherOf o e} ∧ o ≠ otherOf o e := by
  obtain ⟨l, r, rfl, h⟩ := T.form e he
  simp only [endsOf, Finset.mem_insert, Finset.mem_singleton] at ho
  rcases ho with rfl | rfl
  · simp [otherOf, endsOf, h]
  · simp only [otherOf, endsOf, if_neg h]
    exact ⟨Finset.pair_comm _ _, h.symm⟩

theorem other_end {R : Finset Node} (T : TreeEdges R) {e o : Node} (he : e ∈ R) (ho : o ∈ endsOf e) : ∃ w, endsOf e = {o, w} ∧ o ≠ w := by
  obtain ⟨l, r, rfl, h⟩ := T.form e he
  simp only [endsOf, Finset.mem_insert, Finset.mem_singleton] at ho
  rcases ho with rfl | rfl
  · exact ⟨r, rfl, h⟩
  · exact ⟨l, Finset.pair_comm _ _, h.symm⟩

/-- If the other end `o` of an edge with a leaf has only edges with a leaf, the tree is a star around `o`. -/
theorem TreeEdges.star {R : Finset Node} (T : TreeEdges R) {e v o : Node} (he : e ∈ R) (hev : endsOf e = {o, v}) (hov : o ≠ v) (hv : deg R v = 1)
    (hall : ∀ f ∈ R, o ∈ endsOf f → ∃ w ∈ endsOf f, deg R w = 1) : ∀ f ∈ R, o ∈ endsOf f ∧ ∀ w ∈ endsOf f, w ≠ o → deg R w = 1 := by
  classical
  let D := R.filter fun f => o ∈ endsOf f
  have hoe : o ∈ endsOf e := by rw [hev]; simp
  have leafD : ∀ f ∈ D, ∀ w ∈ endsOf f, w ≠ o → deg R w = 1 := by
    intro f hf w hw hne
    obtain ⟨hfR, hfo⟩ := Finset.mem_filter.1 hf
    obtain ⟨w', ew, hw'⟩ := other_end T hfR hfo
    have hw1 : w = w' := by rw [ew] at hw; simpa [hne] using hw
    subst hw1
    obtain ⟨z, hz, hz1⟩ := hall f hfR hfo
    rw [ew] at hz
    simp only [Finset.mem_insert, Finset.mem_singleton] at hz
    rcases hz with rfl | rfl
    · have := deg_one_unique hz1 he hfR hoe hfo
      subst this
      have : w = v := by rw [hev] at ew; have : w ∈ ({z, v} : Finset Node) := by rw [ew]; simp
                         simpa [hne] using this
      rw [this]; exact hv
    · exact hz1
  have hDends : (ends D).card = D.card + 1 := by
    have ho : o ∈ ends D := mem_ends.2 ⟨e, Finset.mem_filter.2 ⟨he, hoe⟩, hoe⟩
    have hcard : ((ends D).erase o).card = D.card := by
      symm
      refine Finset.card_bij (fun f _ => otherOf o f) ?_ ?_ ?_
      · intro f hf
        obtain ⟨hfR, hfo⟩ := Finset.mem_filter.1 hf
        obtain ⟨ew, hne⟩ := otherOf_spec T hfR hfo
        exact Finset.mem_erase.2 ⟨hne.symm, mem_ends.2 ⟨f, hf, by rw [ew]; simp⟩⟩
      · intro f hf g hg e
        obtain ⟨hfR, hfo⟩ := Finset.mem_filter.1 hf
        obtain ⟨hgR, hgo⟩ := Finset.mem_filter.1 hg
        obtain ⟨ew, hne⟩ := otherOf_spec T hfR hfo
        obtain ⟨ew', hne'⟩ := otherOf_spec T hgR hgo
        exact deg_one_unique (leafD f hf (otherOf o f) (by rw [ew]; simp) hne.symm) hfR hgR (by rw [ew]; simp) (by rw [ew', e]; simp)
      · intro w hw
        obtain ⟨f, hf, hwf⟩ := mem_ends.1 (Finset.mem_of_mem_erase hw)
        obtain ⟨hfR, hfo⟩ := Finset.mem_filter.1 hf
        obtain ⟨ew, hne⟩ := otherOf_spec T hfR hfo
        refine ⟨f, hf, ?_⟩
        rw [ew] at hwf
        simpa [(Finset.mem_erase.1 hw).1, eq_comm] using hwf
    rw [← Finset.card_erase_add_one ho, hcard]
  have hsub : ends D ⊆ ends R := Finset.biUnion_subset_biUnion_of_subset_left _ (Finset.filter_subset _ _)
  have hout : ∀ f ∈ R \ D, endsOf f ⊆ ends R \ ends D := by
    intro f hf w hw
    obtain ⟨hfR, hfD⟩ := Finset.mem_sdiff.1 hf
    refine Finset.mem_sdiff.2 ⟨mem_ends.2 ⟨f, hfR, hw⟩, fun hwD => ?_⟩
    obtain ⟨g, hg, hwg⟩ := mem_ends.1 hwD
    by_cases hwo : w = o
    · subst hwo
      exact hfD (Finset.mem_filter.2 ⟨hfR, hw⟩)
    · have := deg_one_unique (leafD g hg w hwg hwo) hfR (Finset.mem_filter.1 hg).1 hw hwg
      exact hfD (this ▸ hg)
  have hcount := T.forest (ends R \ ends D)
  have hle : (R \ D).card ≤ (R.filter fun e => endsOf e ⊆ ends R \ ends D).card := Finset.card_le_card fun f hf => Finset.mem_filter.2 ⟨(Finset.mem_sdiff.1 hf).1, hout f hf⟩
  have c1 := Finset.card_sdiff_of_subset hsub
  have c2 := Finset.card_sdiff_of_subset (Finset.filter_subset (fun f => o ∈ endsOf f) R)
  have c3 : D.card ≤ R.card := Finset.card_le_card (Finset.filter_subset _ _)
  have hT := T.tree
  have hempty : (R \ D).card = 0 := by
    change (R \ D).card = R.card - D.card at c2
    omega
  intro f hf
  have hfD : f ∈ D := by
    by_contra h
    have : f ∈ R \ D := Finset.mem_sdiff.2 ⟨hf, h⟩
    rw [Finset.card_eq_zero.1 hempty] at this
    simp at this
  exact ⟨(Finset.mem_filter.1 hfD).2, leafD f hfD⟩

/-- The end of the edge of an entry on the side of its flag, and the one on the other side. -/
def leafOf : Node × Bool → Node
  | (.edge l r, b) => if b then l else r
  | (.root i, _) => .root i

def stemOf : Node × Bool → Node
  | (.edge l r, b) => if b then r else l
  | (.root i, _) => .root i

theorem ends_entry {R : Finset Node} (T : TreeEdges R) {a : Node × Bool} (h : a.1 ∈ R) : endsOf a.1 = {stemOf a, leafOf a} ∧ stemOf a ≠ leafOf a := by
  obtain ⟨n, b⟩ := a
  obtain ⟨l, r, e, hne⟩ := T.form n h
  subst e
  cases b
  · exact ⟨rfl, hne⟩
  · exact ⟨Finset.pair_comm _ _, hne.symm⟩

section
variable (listing : Finset ℕ → List ℕ) (cond : ℕ → Bool) (counts : ℕ → ℕ)

theorem select_mem {R : List Node} (hn : R.Nodup) {a : Node × Bool} (h : a ∈ selectLeaves listing cond counts R) : a.1 ∈ R ∧ deg R.toFinset (leafOf a) = 1 := by
  unfold selectLeaves at h
  rw [List.mem_filterMap] at h
  obtain ⟨e, he, hs⟩ := h
  cases e with
  | root i => simp at hs
  | edge l r =>
    simp only [degree_eq hn] at hs
    by_cases h1 : deg R.toFinset l = 1 <;> by_cases h2 : deg R.toFinset r = 1
    · simp [h1, h2] at hs
      subst hs
      refine ⟨he, ?_⟩
      simp only [leafOf]
      split_ifs
      · exact h1
      · exact h2
    · simp [h1, h2] at hs
      subst hs
      exact ⟨he, h1⟩
    · have h1' : (deg R.toFinset l == 1) = false := by simpa using h1
      simp only [h1', h2, BEq.rfl, Bool.or_true, if_true, Bool.false_and, Bool.false_eq_true, if_false, Option.some.injEq] at hs
      subst hs
      exact ⟨he, h2⟩
    · simp [h1, h2] at hs

theorem select_fst {R : List Node} (hn : R.Nodup) (hf : ∀ e ∈ R, ∃ l r, e = .edge l r ∧ l ≠ r) :
    (selectLeaves listing cond counts R).map Prod.fst = R.filter fun e => decide (∃ v ∈ endsOf e, deg R.toFinset v = 1) := by
  unfold selectLeaves
  rw [List.map_filterMap, ← List.filterMap_eq_filter]
  refine List.filterMap_congr fun e he => ?_
  obtain ⟨l, r, rfl, hne⟩ := hf e he
  have hiff : (∃ v ∈ endsOf (.edge l r), deg R.toFinset v = 1) ↔ deg R.toFinset l = 1 ∨ deg R.toFinset r = 1 := by simp [endsOf]
  simp only [degree_eq hn, Option.guard, hiff]
  by_cases h1 : deg R.toFinset l = 1 <;> by_cases h2 : deg R.toFinset r = 1 <;> simp [h1, h2]

theorem select_nodup {R : List Node} (hn : R.Nodup) (hf : ∀ e ∈ R, ∃ l r, e = .edge l r ∧ l ≠ r) : ((selectLeaves listing cond counts R).map Prod.fst).Nodup := by
  rw [select_fst listing cond counts hn hf]
  exact hn.filter _

theorem sort_perm (L : List (Node × Bool)) : (sortByCost listing counts L).Perm L := List.mergeSort_perm _ _

end

/-- An order of the edges of a tree in which every edge has a leaf of the rest on the side of its flag; `c` is the node that is left at the end. -/
def LeafOrder (c : Node) : List (Node × Bool) → Prop
  | [] => True
  | a :: rest => leafOf a ∉ insert c (ends (rest.map Prod.fst).toFinset) ∧ stemOf a ∈ insert c (ends (rest.map Prod.fst).toFinset) ∧ LeafOrder c rest

theorem leafOrder_append {R : Finset Node} (T : TreeEdges R) (c : Node) (A Q : List (Node × Bool)) (hA : ∀ a ∈ A, a.1 ∈ R ∧ deg R (leafOf a) = 1) (hnd : (A.map Prod.fst).Nodup)
    (hc : ∀ a ∈ A, leafOf a ≠ c) (hQ : LeafOrder c Q) (hdis : ∀ a ∈ A, ∀ q ∈ Q, q.1 ∈ R ∧ q.1 ≠ a.1) (hst : ∀ a ∈ A, stemOf a ∈ insert c (ends (Q.map Prod.fst).toFinset)) : LeafOrder c (A ++ Q) := by
  induction A with
  | nil => exact hQ
  | cons a as ih =>
    rw [List.map_cons, List.nodup_cons] at hnd
    refine ⟨?_, ?_, ih (fun x hx => hA x (by simp [hx])) hnd.2 (fun x hx => hc x (by simp [hx])) (fun x hx => hdis x (by simp [hx])) (fun x hx => hst x (by simp [hx]))⟩
    · obtain ⟨haR, had⟩ := hA a (by simp)
      rw [Finset.mem_insert, not_or]
      refine ⟨hc a (by simp), fun h => ?_⟩
      obtain ⟨e, he, hv⟩ := mem_ends.1 h
      have hva : leafOf a ∈ endsOf a.1 := by rw [(ends_entry T haR).1]; simp
      rw [List.append_eq, List.map_append, List.toFinset_append, Finset.mem_union, List.mem_toFinset, List.mem_toFinset] at he
      rcases he with he | he
      · obtain ⟨x, hx, rfl⟩ := List.mem_map.1 he
        have := deg_one_unique had haR (hA x (by simp [hx])).1 hva hv
        exact hnd.1 (this ▸ he)
      · obtain ⟨x, hx, rfl⟩ := List.mem_map.1 he
        have hq := hdis a (by simp) x hx
        exact hq.2 (deg_one_unique had haR hq.1 hva hv).symm
    · rw [List.append_eq, List.map_append, List.toFinset_append]
      have := hst a (by simp)
      rw [Finset.mem_insert] at this ⊢
      rcases this with h | h
      · exact Or.inl h
      · obtain ⟨e, he, hv⟩ := mem_ends.1 h
        exact Or.inr (mem_ends.2 ⟨e, Finset.mem_union_right _ he, hv⟩)

/-- A star: all edges have a leaf. The other end of any entry is the centre. -/
theorem star_stem {R : Finset Node} (T : TreeEdges R) (hall : ∀ f ∈ R, ∃ w ∈ endsOf f, deg R w = 1) {a b : Node × Bool} (ha : a.1 ∈ R) (hb : b.1 ∈ R) (la : deg R (leafOf a) = 1) (lb : deg R (leafOf b) = 1)
    (hab : a.1 = b.1 → a = b) : stemOf a = stemOf b := by
  obtain ⟨ea, na⟩ := ends_entry T ha
  obtain ⟨eb, nb⟩ := ends_entry T hb
  have S := T.star ha ea na la (fun f hf _ => hall f hf)
  obtain ⟨h1, h2⟩ := S b.1 hb
  by_contra hne
  rw [eb] at h1
  simp only [Finset.mem_insert, Finset.mem_singleton] at h1
  have h3 : stemOf a = leafOf b := h1.resolve_left hne
  have hsa : deg R (stemOf a) = 1 := by rw [h3]; exact lb
  have : a.1 = b.1 := deg_one_unique hsa ha hb (by rw [ea]; simp) (by rw [eb, h3]; simp)
  exact hne (by rw [hab this])

/-- What is left after a round is a tree again, with all the other ends. -/
theorem TreeEdges.round {R : Finset Node} (T : TreeEdges R) (L : Finset Node) (hL : L = R.filter fun e => ∃ v ∈ endsOf e, deg R v = 1) (hR : (R \ L).Nonempty) :
    TreeEdges (R \ L) ∧ ∀ a : Node × Bool, a.1 ∈ R → deg R (leafOf a) = 1 → stemOf a ∈ ends (R \ L) ∧ leafOf a ∉ ends (R \ L) := by
  classical
  have key : ∀ a : Node × Bool, a.1 ∈ R → deg R (leafOf a) = 1 → stemOf a ∈ ends (R \ L) ∧ leafOf a ∉ ends (R \ L) := by
    intro a ha hd
    obtain ⟨ea, na⟩ := ends_entry T ha
    have hva : leafOf a ∈ endsOf a.1 := by rw [ea]; simp
    constructor
    · by_contra hno
      have S := T.star ha ea na hd (fun f hf ho => by
        by_contra hx
        refine hno (mem_ends.2 ⟨f, Finset.mem_sdiff.2 ⟨hf, fun h => hx ?_⟩, ho⟩)
        rw [hL] at h
        exact (Finset.mem_filter.1 h).2)
      obtain ⟨f, hf⟩ := hR
      obtain ⟨hfR, hfL⟩ := Finset.mem_sdiff.1 hf
      obtain ⟨h1, h2⟩ := S f hfR
      exact hno (mem_ends.2 ⟨f, hf, h1⟩)
    · intro h
      obtain ⟨f, hf, hv⟩ := mem_ends.1 h
      obtain ⟨hfR, hfL⟩ := Finset.mem_sdiff.1 hf
      have := deg_one_unique hd ha hfR hva hv
      rw [hL] at hfL
      exact hfL (Finset.mem_filter.2 ⟨hfR, leafOf a, hv, hd⟩)
  refine ⟨⟨fun e he => T.form e (Finset.mem_sdiff.1 he).1, fun S => ?_, ?_⟩, key⟩
  · refine le_trans (Finset.card_le_card ?_) (T.forest S)
    exact Finset.filter_subset_filter _ Finset.sdiff_subset
  · -- the flag of each edge with a leaf
    let flag : Node → Bool := fun e => decide (deg R (leafOf (e, true)) = 1)
    have hflag : ∀ e ∈ L, e ∈ R ∧ deg R (leafOf (e, flag e)) = 1 := by
      intro e he
      rw [hL] at he
      obtain ⟨heR, v, hv, hd⟩ := Finset.mem_filter.1 he
      refine ⟨heR, ?_⟩
      obtain ⟨l, r, rfl, hne⟩ := T.form e heR
      by_cases h : deg R l = 1
      · have : flag (.edge l r) = true := decide_eq_true h
        rw [this]
        exact h
      · have : flag (.edge l r) = false := decide_eq_false h
        rw [this]
        simp only [endsOf, Finset.mem_insert, Finset.mem_singleton] at hv
        rcases hv with rfl | rfl
        · exact absurd hd h
        · exact hd
    have hcard : (ends R \ ends (R \ L)).card = L.card := by
      symm
      refine Finset.card_bij (fun e _ => leafOf (e, flag e)) ?_ ?_ ?_
      · intro e he
        obtain ⟨h1, h2⟩ := hflag e he
        exact Finset.mem_sdiff.2 ⟨mem_ends.2 ⟨e, h1, by rw [(ends_entry T (a := (e, flag e)) h1).1]; simp⟩, (key (e, flag e) h1 h2).2⟩
      · intro e he f hf hef
        obtain ⟨h1, h2⟩ := hflag e he
        obtain ⟨h3, h4⟩ := hflag f hf
        exact deg_one_unique h2 h1 h3 (by rw [(ends_entry T (a := (e, flag e)) h1).1]; simp) (by rw [hef, (ends_entry T (a := (f, flag f)) h3).1]; simp)
      · intro v hv
        obtain ⟨hv1, hv2⟩ := Finset.mem_sdiff.1 hv
        obtain ⟨e, he, hve⟩ := mem_ends.1 hv1
        have heL : e ∈ L := by
          by_contra h
          exact hv2 (mem_ends.2 ⟨e, Finset.mem_sdiff.2 ⟨he, h⟩, hve⟩)
        refine ⟨e, heL, ?_⟩
        obtain ⟨h1, h2⟩ := hflag e heL
        rw [(ends_entry T (a := (e, flag e)) h1).1] at hve
        simp only [Finset.mem_insert, Finset.mem_singleton] at hve
        rcases hve with h | h
        · exact absurd (h ▸ (key (e, flag e) h1 h2).1) hv2
        · exact h.symm
    have hsub : ends (R \ L) ⊆ ends R := Finset.biUnion_subset_biUnion_of_subset_left _ Finset.sdiff_subset
    have hLR : L ⊆ R := hL ▸ Finset.filter_subset _ _
    have c1 := Finset.card_sdiff_of_subset hsub
    have c2 := Finset.card_sdiff_of_subset hLR
    have c3 := Finset.card_le_card hsub
    have c4 := Finset.card_le_card hLR
    have := T.tree
    omega

theorem strip_spec (listing : Finset ℕ → List ℕ) (cond : ℕ → Bool) (counts : ℕ → ℕ) (fuel : ℕ) (R : List Node) (hn : R.Nodup) (T : TreeEdges R.toFinset) (hf : R.length ≤ fuel) :
    ∃ q, stripLeaves listing cond counts fuel R = some q ∧ q.2.1 ∈ R ∧ LeafOrder (stemOf q.2) q.1 ∧ (q.1.map Prod.fst).Perm R := by
  induction fuel generalizing R with
  | zero =>
    obtain ⟨e, he, _⟩ := T.exists_leaf
    have : R = [] := List.eq_nil_of_length_eq_zero (by omega)
    simp [this] at he
  | succ fuel ih =>
    have hform : ∀ e ∈ R, ∃ l r, e = .edge l r ∧ l ≠ r := fun e he => T.form e (List.mem_toFinset.2 he)
    obtain ⟨sel, hsel⟩ : ∃ sel, sel = selectLeaves listing cond counts R := ⟨_, rfl⟩
    have hfst := select_fst listing cond counts hn hform
    have hmem : ∀ a ∈ sel, a.1 ∈ R ∧ deg R.toFinset (leafOf a) = 1 := fun a ha => select_mem listing cond counts hn (hsel ▸ ha)
    have hnd := select_nodup listing cond counts hn hform
    rw [← hsel] at hfst hnd
    obtain ⟨rest, hrest⟩ : ∃ rest, rest = R.filter fun e => !(sel.map Prod.fst).contains e := ⟨_, rfl⟩
    have hperm := sort_perm listing counts sel
    have hsort : ∀ a, a ∈ sortByCost listing counts sel ↔ a ∈ sel := fun a => hperm.mem_iff
    have hsnd : ((sortByCost listing counts sel).map Prod.fst).Nodup := (hperm.map Prod.fst).nodup_iff.2 hnd
    have hsplit : (sel.map Prod.fst ++ rest).Perm R := by
      rw [hfst]
      have : rest = R.filter fun e => !decide (∃ v ∈ endsOf e, deg R.toFinset v = 1) := by
        rw [hrest, hfst]
        refine List.filter_congr fun e he => ?_
        congr 1
        rw [Bool.eq_iff_iff, List.contains_iff_mem, List.mem_filter]
        simp [he]
      rw [this]
      exact List.filter_append_perm _ _
    have hmemrest : ∀ e, e ∈ rest ↔ e ∈ R ∧ e ∉ sel.map Prod.fst := by
      intro e
      rw [hrest, List.mem_filter]
      simp
    obtain ⟨e0, he0, v0, hv0, hd0⟩ := T.exists_leaf
    have he0s : e0 ∈ sel.map Prod.fst := by
      rw [hfst, List.mem_filter]
      exact ⟨List.mem_toFinset.1 he0, decide_eq_true ⟨v0, hv0, hd0⟩⟩
    have hunf : stripLeaves listing cond counts (fuel + 1) R = match (generalizing := false) rest, R.getLast?, sel.getLast? with
        | [], some e, some s => some (sortByCost listing counts sel, e, s.2)
        | [], _, _ => none
        | rest, _, _ => (stripLeaves listing cond counts fuel rest).map fun q => (sortByCost listing counts sel ++ q.1, q.2) := by
      rw [hrest, hsel]
      rfl
    have hrn : rest.Nodup := hrest ▸ hn.filter _
    by_cases hr : rest = []
    · -- the last round: a star
      rw [hr, List.append_nil] at hsplit
      have hall : ∀ f ∈ R, ∃ w ∈ endsOf f, deg R.toFinset w = 1 := by
        intro f hf
        have := hsplit.mem_iff.2 hf
        rw [hfst, List.mem_filter] at this
        exact of_decide_eq_true this.2
      have hfull : sel.map Prod.fst = R := by
        rw [hfst, List.filter_eq_self]
        exact fun f hf => decide_eq_true (hall f hf)
      obtain ⟨s, hs⟩ : ∃ s, sel.getLast? = some s := by
        rcases h : sel.getLast? with _ | s
        · rw [List.getLast?_eq_none_iff] at h
          rw [h] at he0s
          simp at he0s
        · exact ⟨s, rfl⟩
      have hlast : R.getLast? = some s.1 := by rw [← hfull, List.getLast?_map, hs]; rfl
      have hsm : s ∈ sel := List.mem_of_getLast? hs
      refine ⟨(sortByCost listing counts sel, s.1, s.2), ?_, (hmem s hsm).1, ?_, ?_⟩
      · rw [hunf, hr, hlast, hs]
      · have hst : ∀ a ∈ sel, stemOf a = stemOf s := by
          intro a ha
          refine star_stem T (fun f hf => hall f (List.mem_toFinset.1 hf)) (List.mem_toFinset.2 (hmem a ha).1) (List.mem_toFinset.2 (hmem s hsm).1) (hmem a ha).2 (hmem s hsm).2 ?_
          exact fun e => List.inj_on_of_nodup_map hnd ha hsm e
        have := leafOrder_append T (stemOf s) (sortByCost listing counts sel) [] (fun a ha => ⟨List.mem_toFinset.2 (hmem a ((hsort a).1 ha)).1, (hmem a ((hsort a).1 ha)).2⟩) hsnd
          (fun a ha => by
            rw [← hst a ((hsort a).1 ha)]
            exact (ends_entry T (List.mem_toFinset.2 (hmem a ((hsort a).1 ha)).1)).2.symm) trivial (by simp) (fun a ha => by rw [hst a ((hsort a).1 ha)]; simp)
        rw [List.append_nil] at this
        exact this
      · exact (hperm.map Prod.fst).trans hsplit
    · have hlen : rest.length ≤ fuel := by
        have h1 := hsplit.length_eq
        have h2 : 0 < (sel.map Prod.fst).length := List.length_pos_of_mem he0s
        rw [List.length_append] at h1
        omega
      have hRL : rest.toFinset = R.toFinset \ (sel.map Prod.fst).toFinset := by
        ext e
        rw [List.mem_toFinset, hmemrest, Finset.mem_sdiff, List.mem_toFinset, List.mem_toFinset]
      obtain ⟨T', hT'⟩ := T.round (sel.map Prod.fst).toFinset (by rw [hfst, List.toFinset_filter]; simp) (by
        rw [← hRL]
        obtain ⟨e, he⟩ := List.exists_mem_of_ne_nil rest hr
        exact ⟨e, List.mem_toFinset.2 he⟩)
      rw [← hRL] at T' hT'
      obtain ⟨q, eq, h1, h2, h3⟩ := ih rest hrn T' hlen
      refine ⟨(sortByCost listing counts sel ++ q.1, q.2), ?_, ((hmemrest _).1 h1).1, ?_, ?_⟩
      · rw [hunf]
        rcases rest with _ | ⟨x, xs⟩
        · exact absurd rfl hr
        · simp only [eq, Option.map_some]
      · have hends : ends (q.1.map Prod.fst).toFinset = ends rest.toFinset := by
          congr 1
          ext e
          rw [List.mem_toFinset, List.mem_toFinset, h3.mem_iff]
        have hcin : stemOf q.2 ∈ ends rest.toFinset := by
          refine mem_ends.2 ⟨q.2.1, List.mem_toFinset.2 h1, ?_⟩
          rw [(ends_entry T' (List.mem_toFinset.2 h1)).1]
          simp
        refine leafOrder_append T _ _ _ (fun a ha => ⟨List.mem_toFinset.2 (hmem a ((hsort a).1 ha)).1, (hmem a ((hsort a).1 ha)).2⟩) hsnd ?_ h2 ?_ ?_
        · intro a ha e
          have := hmem a ((hsort a).1 ha)
          exact (hT' a (List.mem_toFinset.2 this.1) this.2).2 (e ▸ hcin)
        · intro a ha x hx
          have hxr : x.1 ∈ rest := h3.mem_iff.1 (List.mem_map_of_mem hx)
          refine ⟨List.mem_toFinset.2 ((hmemrest _).1 hxr).1, fun e => ((hmemrest _).1 hxr).2 ?_⟩
          rw [e]
          exact List.mem_map_of_mem ((hsort a).1 ha)
        · intro a ha
          rw [hends]
          have := hmem a ((hsort a).1 ha)
          exact Finset.mem_insert_of_mem (hT' a (List.mem_toFinset.2 this.1) this.2).1
      · rw [List.map_append]
        exact ((hperm.map Prod.fst).append h3).trans hsplit

end Skfolio.Vine
