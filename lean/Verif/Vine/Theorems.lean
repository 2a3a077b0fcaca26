import Verif.Vine.Steps
import Verif.Vine.Exists
import Verif.Copula.ClaytonTheorems
import Verif.Copula.RotationTheorems
import Mathlib.Algebra.BigOperators.Intervals

/-!
**C53**: the trees of a vine copula are a regular vine, with the data of every edge those of the conditional distributions. **C54**: sampling inverts the conditional distribution functions of the vine.
-/
set_option autoImplicit false

namespace Skfolio.Vine
open Skfolio.Copula (Inside IsInverse Rotation rotationPartial claytonPartial claytonInverse)

/-- `listing` lists the elements of every set, each once. -/
def IsListing (listing : Finset ℕ → List ℕ) : Prop := ∀ s, (listing s).Nodup ∧ ∀ a, a ∈ listing s ↔ a ∈ s

/-! ### C53 -/

/-- **C53.** The tree of level `k` has `n - k` nodes and `n - k - 1` edges whatever the dependence measures, so that the assertion in `fit` never fails; there is always a next tree. -/
theorem C53_number_of_edges {n k : ℕ} {nodes : List Node} (h : Built n k nodes) (hk : k < n) :
    nodes.length = n - k ∧ nodes.Nodup ∧ (∃ pairs, IsSpanningForest k nodes pairs) ∧ ∀ pairs, IsSpanningForest k nodes pairs → pairs.length = n - k - 1 ∧ (nextNodes nodes pairs).length = n - k - 1 := by
  have L := built_level h
  refine ⟨L.length hk, L.nodup, exists_forest k nodes, fun pairs hp => ?_⟩
  have hq : ∀ p ∈ pairs, p.1 < p.2 ∧ p.2 < nodes.length := fun p h1 => ⟨(hp.eligible p h1).1, (hp.eligible p h1).2.1⟩
  have e : (nextNodes nodes pairs).length = pairs.length := by rw [nextNodes_eq hq, List.length_map]
  rcases Nat.lt_or_ge (k + 1) n with h1 | h1
  · have := (level_next L hp).length h1
    omega
  · have hl := L.length hk
    have : pairs = [] := by
      refine List.eq_nil_iff_forall_not_mem.2 fun p hp => ?_
      have := hq p hp
      omega
    subst this
    simp [nextNodes]
    omega

/-- **C53.** The edge between two nodes of the tree of level `k`: the two nodes have `k` variables in common, which are the conditioning set, and one each of their own, which are the conditioned pair, that of the first node first. Neither
"Edges are not correctly ordered" is raised nor is the conditioned set ever of another size. -/
theorem C53_conditioned {n k : ℕ} {nodes : List Node} (h : Built n (k + 1) nodes) {listing : Finset ℕ → List ℕ} (hl : IsListing listing) {e : Node} (he : e ∈ nodes) :
    ∃ l r s, e = .edge l r ∧ sides l r ≠ none ∧ condSets listing e = some s ∧ vars l \ vars r = {s.conditioned.1} ∧ vars r \ vars l = {s.conditioned.2} ∧ s.conditioning = vars l ∩ vars r ∧ s.conditioning.card = k ∧
      s.conditioned.1 ≠ s.conditioned.2 ∧ vars e ⊆ Finset.range n := by
  obtain ⟨g, gc, gs⟩ := (built_level h).good e he
  match e, g with
  | .root i, _ => simp [vars] at gc
  | .edge l r, g =>
    obtain ⟨d, hd, gl, gr, h1, h2⟩ := good_edge g
    refine ⟨l, r, _, rfl, by simp [hd], good_condSets listing hl g l r rfl, ?_, ?_, rfl, ?_, own_ne g, gs⟩
    · rw [h1, own_left hd]
    · rw [h2, own_right hd]
    · have c := good_card g
      have u : (vars l ∪ vars r).card + (vars l ∩ vars r).card = (vars l).card + (vars r).card := Finset.card_union_add_card_inter _ _
      have v : (vars (.edge l r)) = vars l ∪ vars r := rfl
      rw [v] at c gc
      simp only
      omega

theorem trees_built {n k : ℕ} {nodes edges : List Node} (h : Trees n k nodes edges) : Built n k nodes := by
  induction h with
  | roots => exact .roots
  | next k nodes edges pairs _ hp ih => exact .next k nodes pairs ih hp

theorem trees_edges {n k : ℕ} {nodes edges : List Node} (h : Trees n k nodes edges) : ∀ e ∈ edges, Good e ∧ vars e ⊆ Finset.range n ∧ ∃ l r, e = .edge l r := by
  induction h with
  | roots => simp
  | next k nodes edges pairs ht hp ih =>
    intro e he
    rcases List.mem_append.1 he with he | he
    · exact ih e he
    · have L := level_next (built_level (trees_built ht)) hp
      obtain ⟨g, c, s⟩ := L.good e he
      refine ⟨g, s, ?_⟩
      match e with
      | .root i => simp [vars] at c
      | .edge l r => exact ⟨l, r, rfl⟩

/-- The value of the first and the second column at an edge: the conditional distribution functions of its two nodes' own variables given the variables they have in common. -/
def columns {K : Type} (cop : Node → Cop K) (x : ℕ → K) : Node → K × K
  | .root i => (x i, x i)
  | .edge l r => (condCdf cop x l (ownVar l r), condCdf cop x r (ownVar r l))

theorem getX_spec {K : Type} {cop : Node → Cop K} {x : ℕ → K} {l r : Node} (g : Good (.edge l r)) {s : State K} (hs : Sound cop x s) (hk : ∀ i ∈ vars (.edge l r), s.pseudo i ≠ none) :
    ∃ d p q, sides l r = some d ∧ read cop l (!d.1) s = some p ∧ read cop r (!d.2) p.2 = some q ∧ (p.1, q.1) = columns cop x (.edge l r) ∧ Sound cop x q.2 ∧ Extends s q.2 := by
  obtain ⟨d, hd, gl, gr, _, _⟩ := good_edge g
  obtain ⟨s1, e1, h1, x1⟩ := read_spec gl (!d.1) hs (fun i hi => hk i (vars_left l r hi))
  obtain ⟨s2, e2, h2, x2⟩ := read_spec gr (!d.2) h1 (fun i hi => x1.known (hk i (vars_right l r hi)))
  obtain ⟨o1, o2⟩ := good_ownVar g hd
  exact ⟨d, _, _, hd, e1, e2, by rw [columns, o1, o2], h2, x1.trans x2⟩

/-- **C53.** The data of every edge (`get_X`), computed from the pseudo values of the assets through the stored values of the nodes below, are the conditional distribution functions of the conditioned pair given the conditioning set, in
this order. -/
theorem C53_data {K : Type} {n k : ℕ} {nodes : List Node} (h : Built n (k + 1) nodes) {e : Node} (he : e ∈ nodes) (cop : Node → Cop K) (x : ℕ → K) (s : State K) (hs : s = ⟨fun i => some (x i), fun _ _ => none⟩) :
    getX cop e s = some (columns cop x e) := by
  obtain ⟨g, gc, gs⟩ := (built_level h).good e he
  match e, g with
  | .root i, _ => simp [vars] at gc
  | .edge l r, g =>
    obtain ⟨d, p, q, hd, e1, e2, e3, _, _⟩ := getX_spec g (cop := cop) (x := x) (s := s) (by rw [hs]; exact ⟨by simp, by simp⟩) (by simp [hs])
    simp [getX, hd, e1, e2, ← e3]

/-- **C53.** `score_samples` is the logarithm of the density of the vine: the sum, over the edges of all trees, of the logarithms of the copula densities at these conditional distribution functions. -/
theorem C53_score {n k : ℕ} {nodes edges : List Node} (h : Trees n k nodes edges) (cop : Node → Cop ℝ) (logDensity : Node → ℝ × ℝ → ℝ) (x : ℕ → ℝ) :
    scoreEdges cop logDensity edges ⟨fun i => if i < n then some (x i) else none, fun _ _ => none⟩ = some (edges.map fun e => logDensity e (columns cop x e)).sum := by
  have main : ∀ L : List Node, (∀ e ∈ L, Good e ∧ vars e ⊆ Finset.range n ∧ ∃ l r, e = .edge l r) → ∀ s : State ℝ, Sound cop x s → (∀ i < n, s.pseudo i ≠ none) →
      scoreEdges cop logDensity L s = some (L.map fun e => logDensity e (columns cop x e)).sum := by
    intro L
    induction L with
    | nil => intro _ s _ _; rfl
    | cons e L ih =>
      intro hL s hs hk
      obtain ⟨g, gs, l, r, rfl⟩ := hL e (by simp)
      obtain ⟨d, p, q, hd, e1, e2, e3, h1, h2⟩ := getX_spec g hs (fun i hi => hk i (Finset.mem_range.1 (gs hi)))
      have := ih (fun e he => hL e (by simp [he])) q.2 h1 (fun i hi => h2.known (hk i hi))
      simp [scoreEdges, hd, e1, e2, this, e3]
  refine main edges (trees_edges h) _ ⟨?_, by simp⟩ (by intro i hi; simp [hi])
  intro i t ht
  simp only at ht
  split_ifs at ht
  exact (Option.some.inj ht).symm

/-! Every pair occurs once. -/

theorem trees_below {n k : ℕ} {nodes edges : List Node} (h : Trees n k nodes edges) : (∀ e ∈ nodes, ∀ m, Below m e → m ∈ edges ∨ ∃ i, m = .root i) ∧ ∀ e ∈ edges, ∀ m, Below m e → m ∈ edges ∨ ∃ i, m = .root i := by
  induction h with
  | roots =>
    refine ⟨?_, by simp⟩
    intro e he m hm
    obtain ⟨i, _, rfl⟩ := List.mem_map.1 he
    cases hm
    exact Or.inr ⟨i, rfl⟩
  | next k nodes edges pairs ht hp ih =>
    have A : ∀ e ∈ nextNodes nodes pairs, ∀ m, Below m e → m ∈ edges ++ nextNodes nodes pairs ∨ ∃ i, m = .root i := by
      intro e he m hm
      cases hm with
      | self => exact Or.inl (by simp [he])
      | left l r hm =>
        rcases ih.1 l (ends_nodes hp he (by simp [endsOf])) m ‹_› with h | h
        · exact Or.inl (by simp [h])
        · exact Or.inr h
      | right l r hm =>
        rcases ih.1 r (ends_nodes hp he (by simp [endsOf])) m ‹_› with h | h
        · exact Or.inl (by simp [h])
        · exact Or.inr h
    refine ⟨A, ?_⟩
    intro e he m hm
    rcases List.mem_append.1 he with he | he
    · rcases ih.2 e he m hm with h | h
      · exact Or.inl (by simp [h])
      · exact Or.inr h
    · exact A e he m hm

theorem trees_count {n k : ℕ} {nodes edges : List Node} (h : Trees n k nodes edges) (hk : k < n) : edges.length = ∑ j ∈ Finset.range k, (n - 1 - j) := by
  induction h with
  | roots => simp
  | next k nodes edges pairs ht hp ih =>
    rw [List.length_append, ih (by omega), Finset.sum_range_succ, ((C53_number_of_edges (trees_built ht) (by omega)).2.2.2 pairs hp).2]
    omega

/-- The unordered pair of variables that an edge couples. -/
def pairOf (e : Node) : Finset ℕ := {own e true, own e false}

theorem exists_pair {e : Node} (g : Good e) {a b : ℕ} (hab : a ≠ b) (ha : a ∈ vars e) (hb : b ∈ vars e) : ∃ l r, Below (.edge l r) e ∧ pairOf (.edge l r) = {a, b} := by
  induction g with
  | root i =>
    simp only [vars, Finset.mem_singleton] at ha hb
    exact absurd (ha.trans hb.symm) hab
  | edge l r d gl gr hd a1 a2 b1 b2 ihl ihr =>
    have g : Good (.edge l r) := .edge l r d gl gr hd a1 a2 b1 b2
    by_cases h1 : a ∈ vars l ∧ b ∈ vars l
    · obtain ⟨x, y, h, e⟩ := ihl h1.1 h1.2
      exact ⟨x, y, .left _ _ _ h, e⟩
    by_cases h2 : a ∈ vars r ∧ b ∈ vars r
    · obtain ⟨x, y, h, e⟩ := ihr h2.1 h2.2
      exact ⟨x, y, .right _ _ _ h, e⟩
    refine ⟨l, r, .self _, ?_⟩
    obtain ⟨s1, s2⟩ := good_sides g
    obtain ⟨c, hc⟩ : ∃ c, c = own (.edge l r) true := ⟨_, rfl⟩
    obtain ⟨c', hc'⟩ : ∃ c, c = own (.edge l r) false := ⟨_, rfl⟩
    rw [← hc'] at s1
    rw [← hc] at s2
    rw [pairOf, ← hc, ← hc']
    have L : ∀ t, t ∈ vars (.edge l r) → t ∉ vars l → t = c' := fun t ht hn => by
      by_contra hne
      exact hn (s1.2 (by simp [ht, hne]))
    have R : ∀ t, t ∈ vars (.edge l r) → t ∉ vars r → t = c := fun t ht hn => by
      by_contra hne
      exact hn (s2.2 (by simp [ht, hne]))
    by_cases hal : a ∈ vars l
    · have hbl : b ∉ vars l := fun h => h1 ⟨hal, h⟩
      have e1 := L b hb hbl
      have hbr : b ∈ vars r := (Finset.mem_union.1 hb).resolve_left hbl
      have e2 := R a ha (fun h => h2 ⟨h, hbr⟩)
      rw [e1, e2]
    · have e1 := L a ha hal
      have har : a ∈ vars r := (Finset.mem_union.1 ha).resolve_left hal
      have e2 := R b hb (fun h => h2 ⟨har, h⟩)
      rw [e1, e2, Finset.pair_comm]

theorem sum_pairs (n : ℕ) : ∑ j ∈ Finset.range (n - 1), (n - 1 - j) = n.choose 2 := by
  have h := Finset.sum_range_reflect (fun j => j + 1) (n - 1)
  have : ∑ j ∈ Finset.range (n - 1), (n - 1 - j) = ∑ j ∈ Finset.range (n - 1), (n - 1 - 1 - j + 1) := by
    refine Finset.sum_congr rfl fun j hj => ?_
    have := Finset.mem_range.1 hj
    omega
  rw [this, h, Nat.choose_two_right]
  have h2 := Finset.sum_range_succ' (fun j => j) (n - 1)
  rw [add_zero] at h2
  rw [← h2]
  rcases n with _ | n
  · simp
  · rw [Nat.succ_sub_one, Finset.sum_range_id]
    rfl

/-- **C53.** In a full vine every pair of different assets is the conditioned pair of exactly one edge. -/
theorem C53_every_pair {n : ℕ} {nodes edges : List Node} (h : Trees n (n - 1) nodes edges) {listing : Finset ℕ → List ℕ} (hl : IsListing listing) {a b : ℕ} (ha : a < n) (hb : b < n) (hab : a ≠ b) :
    ∃ e ∈ edges, (∃ s, condSets listing e = some s ∧ ({s.conditioned.1, s.conditioned.2} : Finset ℕ) = {a, b}) ∧
      ∀ e' ∈ edges, (∃ s, condSets listing e' = some s ∧ ({s.conditioned.1, s.conditioned.2} : Finset ℕ) = {a, b}) → e' = e := by
  have hpair : ∀ e ∈ edges, ∀ c d : ℕ, (∃ s, condSets listing e = some s ∧ ({s.conditioned.1, s.conditioned.2} : Finset ℕ) = {c, d}) ↔ pairOf e = {c, d} := by
    intro e he c d
    obtain ⟨g, _, l, r, rfl⟩ := trees_edges h e he
    rw [good_condSets listing hl g l r rfl]
    constructor
    · rintro ⟨s, e, hs⟩
      cases e
      exact hs
    · intro hs
      exact ⟨_, rfl, hs⟩
  have L := built_level (trees_built h)
  obtain ⟨top, htop⟩ : ∃ t, nodes = [t] := List.length_eq_one_iff.1 (by rw [L.length (by omega)]; omega)
  obtain ⟨gt, ct, st⟩ := L.good top (by simp [htop])
  have hvt : vars top = Finset.range n := Finset.eq_of_subset_of_card_le st (by rw [Finset.card_range, ct]; omega)
  have surj : ∀ c d : ℕ, c < n → d < n → c ≠ d → ∃ e ∈ edges, pairOf e = {c, d} := by
    intro c d hc hd hcd
    obtain ⟨l, r, hb, hp⟩ := exists_pair gt hcd (by rw [hvt]; simpa using hc) (by rw [hvt]; simpa using hd)
    rcases (trees_below h).1 top (by simp [htop]) _ hb with h | ⟨i, h⟩
    · exact ⟨_, h, hp⟩
    · cases h
  have hcard : edges.toFinset.card ≤ ((Finset.range n).powersetCard 2).card := by
    rw [Finset.card_powersetCard, Finset.card_range, ← sum_pairs]
    refine (List.toFinset_card_le _).trans ?_
    rw [trees_count h (by omega)]
  have hinj : Set.InjOn pairOf (edges.toFinset : Set Node) := by
    refine Finset.injOn_of_surjOn_of_card_le pairOf (t := (Finset.range n).powersetCard 2) ?_ ?_ hcard
    · intro e he
      obtain ⟨g, gs, l, r, rfl⟩ := trees_edges h e (List.mem_toFinset.1 he)
      rw [Finset.mem_coe, Finset.mem_powersetCard]
      refine ⟨?_, Finset.card_pair (own_ne g)⟩
      intro i hi
      rcases Finset.mem_insert.1 hi with rfl | hi
      · exact gs (own_mem g true)
      · rw [Finset.mem_singleton.1 hi]
        exact gs (own_mem g false)
    · intro p hp
      rw [Finset.mem_coe, Finset.mem_powersetCard] at hp
      obtain ⟨c, d, hcd, rfl⟩ := Finset.card_eq_two.1 hp.2
      obtain ⟨e, he, hpe⟩ := surj c d (Finset.mem_range.1 (hp.1 (by simp))) (Finset.mem_range.1 (hp.1 (by simp))) hcd
      exact ⟨e, by simpa using he, hpe⟩
  obtain ⟨e, he, hpe⟩ := surj a b ha hb hab
  refine ⟨e, he, (hpair e he a b).2 hpe, fun e' he' hs => ?_⟩
  exact hinj (by simpa using he') (by simpa using he) (((hpair e' he' a b).1 hs).trans hpe.symm)

/-! ### C54 -/

theorem free_length {K : Type} (cond : ℕ → Option K) (n : ℕ) (P : List (Node × Bool)) (hP : Elim P) (hv : ∀ i, i ∈ P.map (fun e => own e.1 e.2) ↔ i < n) :
    (P.filter (free cond)).length = ((List.range n).filter fun i => (cond i).isNone).length := by
  have hperm : (P.map fun e => own e.1 e.2).Perm (List.range n) := by
    rw [List.perm_ext_iff_of_nodup (elim_nodup hP) List.nodup_range]
    intro i
    rw [hv, List.mem_range]
  rw [← (hperm.filter _).length_eq, List.filter_map, List.length_map]
  rfl

/-- **C54.** Sampling from a vine with `n` assets whose last tree has the given edges, full or truncated, whatever is conditioned on. `_sampling_order` succeeds, `_propagate_samples` ends with a value for every asset, a conditioned asset keeps its
conditioning sample, and the others get the values whose conditional distribution functions in the vine are their uniform numbers (all clipped to `[eps, 1 - eps]`). The copulas that are inverted for their second margin on the way must be
exchangeable. -/
theorem C54_sampling_partial {n k : ℕ} {nodes : List Node} {pairs : List (ℕ × ℕ)} (hB : Built n k nodes) (hp : IsSpanningForest k nodes pairs) (hk : k + 1 < n) {listing : Finset ℕ → List ℕ} (hl : IsListing listing) {eps : ℝ} (h0 : 0 < eps) (h1 : eps < 1 / 2)
    (cop : Node → Cop ℝ) (hc : ∀ m, IsInverse (cop m).partialDerivative (cop m).inversePartialDerivative) (cond : ℕ → Option ℝ) (counts : ℕ → ℕ → ℕ) (rand : List ℝ) (hr : rand.length = ((List.range n).filter fun i => (cond i).isNone).length)
    (he : ∀ order, samplingOrder listing n (fun i => (cond i).isSome) counts (nextNodes nodes pairs) = some order → ∀ e ∈ order, ∀ m ∈ rightEdges e.1 e.2, Exchangeable (cop m)) :
    ∃ order inits s x steps, samplingOrder listing n (fun i => (cond i).isSome) counts (nextNodes nodes pairs) = some order ∧ initSamples listing eps cond order rand = some inits ∧ propagate cop inits = some s ∧
      (∀ i < n, s.pseudo i = some (x i)) ∧ IsSample cop (nextNodes nodes pairs) n (fun i => (cond i).map (clip eps)) (rand.map (clip eps)) x steps := by
  obtain ⟨P, e1, e2, e3, e4, _⟩ := samplingOrder_spec listing hl (built_level hB) hp hk (fun i => (cond i).isSome) counts
  have hex := he _ e1
  obtain ⟨inits, s, x, i1, i2, i3, i4⟩ := sample_of_elim listing hl h0 h1 hc cond rand n (nextNodes nodes pairs) P e2 e3 e4
    (fun e heP hf m hm => hex e (List.mem_reverse.2 (List.mem_map.2 ⟨e, heP, replaced_free cond e hf⟩)) m hm) (by rw [hr]; exact free_length cond n P e2 e3)
  exact ⟨_, inits, s, x, _, e1, i1, i2, i3, i4⟩

/-- **C54.** With exchangeable copulas (independent, Gaussian, Student's t, and the Archimedean ones with rotation 0 or 180 degrees) sampling inverts the vine. -/
theorem C54_exchangeable_partial {n k : ℕ} {nodes : List Node} {pairs : List (ℕ × ℕ)} (hB : Built n k nodes) (hp : IsSpanningForest k nodes pairs) (hk : k + 1 < n) {listing : Finset ℕ → List ℕ} (hl : IsListing listing) {eps : ℝ} (h0 : 0 < eps) (h1 : eps < 1 / 2)
    (cop : Node → Cop ℝ) (hc : ∀ m, IsInverse (cop m).partialDerivative (cop m).inversePartialDerivative) (he : ∀ m, Exchangeable (cop m)) (cond : ℕ → Option ℝ) (counts : ℕ → ℕ → ℕ) (rand : List ℝ)
    (hr : rand.length = ((List.range n).filter fun i => (cond i).isNone).length) :
    ∃ order inits s x steps, samplingOrder listing n (fun i => (cond i).isSome) counts (nextNodes nodes pairs) = some order ∧ initSamples listing eps cond order rand = some inits ∧ propagate cop inits = some s ∧
      (∀ i < n, s.pseudo i = some (x i)) ∧ IsSample cop (nextNodes nodes pairs) n (fun i => (cond i).map (clip eps)) (rand.map (clip eps)) x steps :=
  C54_sampling_partial hB hp hk hl h0 h1 cop hc cond counts rand hr (fun _ _ _ _ m _ => he m)

/-- **C54.** In a full vine without conditioning the steps are the inverse Rosenblatt transform: each variable is determined by its conditional distribution function given all variables before it. -/
theorem C54_rosenblatt_partial {n k : ℕ} {nodes : List Node} {pairs : List (ℕ × ℕ)} (hB : Built n k nodes) (hp : IsSpanningForest k nodes pairs) (hk : k + 2 = n) {listing : Finset ℕ → List ℕ} (hl : IsListing listing) {eps : ℝ} (h0 : 0 < eps) (h1 : eps < 1 / 2)
    (cop : Node → Cop ℝ) (hc : ∀ m, IsInverse (cop m).partialDerivative (cop m).inversePartialDerivative) (he : ∀ m, Exchangeable (cop m)) (counts : ℕ → ℕ → ℕ) (rand : List ℝ) (hr : rand.length = n) :
    ∃ order inits s x steps, samplingOrder listing n (fun _ => false) counts (nextNodes nodes pairs) = some order ∧ initSamples listing eps (fun _ => none) order rand = some inits ∧ propagate cop inits = some s ∧
      (∀ i < n, s.pseudo i = some (x i)) ∧ IsSample cop (nextNodes nodes pairs) n (fun _ => none) (rand.map (clip eps)) x steps ∧
      ∀ pre e post, steps = pre ++ e :: post → vars e.2 = insert e.1 (pre.map Prod.fst).toFinset := by
  obtain ⟨P, e1, e2, e3, e4, e5, _⟩ := samplingOrder_spec listing hl (built_level hB) hp (by omega) (fun i => ((fun _ => none : ℕ → Option ℝ) i).isSome) counts
  obtain ⟨inits, s, x, i1, i2, i3, i4⟩ := sample_of_elim listing hl h0 h1 hc (fun _ => none) rand n (nextNodes nodes pairs) P e2 e3 e4
    (fun e heP hf m hm => he m) (by rw [hr, free_length _ n P e2 e3]; simp)
  refine ⟨_, inits, s, x, _, e1, i1, i2, i3, i4, fun pre e post h => ?_⟩
  ext i
  rw [Finset.mem_insert, List.mem_toFinset]
  constructor
  · intro hi
    by_cases hie : i = e.1
    · exact Or.inl hie
    · exact Or.inr ((i4.known pre e post h i hi hie).resolve_left (by simp))
  · rintro (rfl | hi)
    · exact (i4.nodes e (by rw [h]; simp)).2
    · exact steps_full _ P (e5 hk) h i hi

/-! A vine with three assets: asset 0 is coupled with 1 and with 2, and then 1 with 2 given 0. -/

/-- The edges of the first tree. -/
def ab : Node := .edge (.root 0) (.root 1)
def ac : Node := .edge (.root 0) (.root 2)

theorem forest_of_connected {m level : ℕ} {nodes : List Node} {pairs : List (ℕ × ℕ)} (hm : nodes.length = m + 1) (he : ∀ p ∈ pairs, p.1 < p.2 ∧ p.2 < nodes.length ∧ eligible level nodes p.1 p.2) (hn : pairs.Nodup)
    (hr : pairs.Pairwise fun p q => p.1 ≤ q.1) (hl : pairs.length = m) (hz : ∀ j : Fin nodes.length, (graph nodes.length pairs).Reachable ⟨0, by omega⟩ j) : IsSpanningForest level nodes pairs := by
  have hconn : (graph nodes.length pairs).Connected := by
    have : Nonempty (Fin nodes.length) := ⟨⟨0, by omega⟩⟩
    exact ⟨fun a b => (hz a).symm.trans (hz b)⟩
  refine ⟨he, hn, hr, ?_, fun a b _ _ => hconn.preconnected a b⟩
  classical
  have := graph_card (m := nodes.length) (fun p hp => ⟨(he p hp).1, (he p hp).2.1⟩) hn
  refine (SimpleGraph.isTree_iff_connected_and_card.2 ⟨hconn, ?_⟩).isAcyclic
  rw [Nat.card_eq_fintype_card, ← SimpleGraph.edgeFinset_card, this, hl, Nat.card_eq_fintype_card, Fintype.card_fin, hm]

theorem three_first : IsSpanningForest 0 ((List.range 3).map Node.root) [(0, 1), (0, 2)] := by
  refine forest_of_connected (m := 2) rfl (fun p hp => ?_) (by decide) (by decide) rfl ?_
  · rcases List.mem_cons.1 hp with rfl | hp
    · exact ⟨by decide, by decide, Or.inl rfl⟩
    · rw [List.mem_singleton.1 hp]
      exact ⟨by decide, by decide, Or.inl rfl⟩
  intro j
  fin_cases j
  · exact SimpleGraph.Reachable.refl _
  · exact SimpleGraph.Adj.reachable (graph_adj.2 ⟨by decide, by decide⟩)
  · exact SimpleGraph.Adj.reachable (graph_adj.2 ⟨by decide, by decide⟩)

theorem three_second : IsSpanningForest 1 [ab, ac] [(0, 1)] := by
  refine forest_of_connected (m := 1) rfl ?_ (by decide) (by decide) rfl ?_
  · intro p hp
    rw [List.mem_singleton.1 hp]
    exact ⟨by decide, by decide, Or.inr (by decide)⟩
  intro j
  fin_cases j
  · exact SimpleGraph.Reachable.refl _
  · exact SimpleGraph.Adj.reachable (graph_adj.2 ⟨by decide, by decide⟩)

theorem three_built : Built 3 1 [ab, ac] := .next 0 _ _ .roots three_first

theorem three_top : nextNodes [ab, ac] [(0, 1)] = [.edge ab ac] := rfl

/-- The independent copula. -/
def independent : Cop ℝ := ⟨fun b x => if b then x.2 else x.1, fun b x => if b then x.2 else x.1⟩

/-- A Clayton copula with its rotation. -/
noncomputable def clayton (θ : ℝ) (r : Rotation) : Cop ℝ := ⟨rotationPartial (claytonPartial θ) r, rotationPartial (claytonInverse θ) r⟩

theorem clayton_isInverse {θ : ℝ} (h : 0 < θ) (r : Rotation) : IsInverse (clayton θ r).partialDerivative (clayton θ r).inversePartialDerivative := Copula.C39_inverse _ _ (Copula.clayton_inverse h) r

theorem clayton_exchangeable (θ : ℝ) : Exchangeable (clayton θ .r0) ∧ Exchangeable (clayton θ .r180) := by
  constructor <;> intro u v _ _ <;> simp [clayton, rotationPartial, Copula.applyRotation, claytonPartial, Copula.marginSwap]

/-- The hypotheses of `C54_exchangeable_partial` and `C54_rosenblatt_partial` are met by a vine with three assets and Clayton copulas. -/
example : Built 3 1 [ab, ac] ∧ IsSpanningForest 1 [ab, ac] [(0, 1)] ∧ (∀ _ : Node, IsInverse (clayton 1 .r180).partialDerivative (clayton 1 .r180).inversePartialDerivative) ∧ ∀ _ : Node, Exchangeable (clayton 1 .r180) :=
  ⟨three_built, three_second, fun _ => clayton_isInverse one_pos _, fun _ => (clayton_exchangeable 1).2⟩

/-- A listing exists. -/
example : IsListing fun s => s.sort (· ≤ ·) := fun s => ⟨s.sort_nodup _, fun _ => s.mem_sort _⟩

/-- The copulas of the counterexample: a Clayton copula rotated by 90 degrees on the edge between assets 0 and 1, and independence elsewhere. -/
noncomputable def rotatedCop : Node → Cop ℝ := fun m => if m = ab then clayton 1 .r90 else independent

theorem rotatedCop_isInverse (m : Node) : IsInverse (rotatedCop m).partialDerivative (rotatedCop m).inversePartialDerivative := by
  unfold rotatedCop
  split_ifs
  · exact clayton_isInverse one_pos _
  · exact Copula.independent_copula.2.2.1

theorem rotated_inverse : (clayton 1 .r90).inversePartialDerivative false (3 / 4, 1 / 2) = 2 / 3 := by
  simp only [clayton, rotationPartial, Copula.applyRotation, claytonInverse, Copula.marginSwap]
  norm_num

theorem rotated_partial : (clayton 1 .r90).partialDerivative true (1 / 2, 2 / 3) = 16 / 25 := by
  simp only [clayton, rotationPartial, Copula.applyRotation, claytonPartial, Copula.marginSwap]
  norm_num

theorem three_good : Good (.edge ab ac) := ((built_level (.next 1 _ _ three_built three_second)).good _ (by rw [three_top]; simp)).1

theorem three_order {listing : Finset ℕ → List ℕ} (hl : IsListing listing) :
    samplingOrder listing 3 (fun _ => false) (conditioningCount listing [[ab, ac], [.edge ab ac]]) [.edge ab ac] = some [(.root 2, true), (ac, true), (.edge ab ac, true)] := by
  have e1 : condSets listing (.edge ab ac) = some ⟨(1, 2), {0}⟩ := by
    rw [good_condSets listing hl three_good ab ac rfl]
    decide
  have c0 : ∀ v, conditioningCount listing [[ab, ac], [.edge ab ac]] 0 v = if v = 0 then 1 else 0 := by
    intro v
    have e2 : condSets listing ab = some ⟨(0, 1), ∅⟩ := rfl
    have e3 : condSets listing ac = some ⟨(0, 2), ∅⟩ := rfl
    simp [conditioningCount, e1, e2, e3]
  have c1 : ∀ v, conditioningCount listing [[ab, ac], [.edge ab ac]] 1 v = 0 := by
    intro v
    simp [conditioningCount, ab, ac, condSets]
  generalize conditioningCount listing [[ab, ac], [.edge ab ac]] = C at *
  have p1 : peel listing (fun _ => false) C 1 ac = some [(ac, true), (.root 2, true)] := by
    simp [ac, peel, condSets, isLeftBranch, c1]
  have p0 : peel listing (fun _ => false) C 0 (.edge ab ac) = some [(.edge ab ac, true), (ac, true), (.root 2, true)] := by
    rw [peel, e1]
    simp [isLeftBranch, c0, p1]
  have g1 := good_getVar listing hl (.root 2) true
  have g3 := good_getVar listing hl three_good true
  have g2 : getVar listing ac true = some 0 := rfl
  rw [samplingOrder, reverseOrder, p0]
  simp [replaceConditioned, g1, g2, g3]
  simp [ac, ab]

/-- **C54 fails without exchangeability.** In a vine with three assets, with a Clayton copula rotated by 90 degrees between the assets 0 and 1 (its methods do invert each other) and independence elsewhere, the uniform numbers 1/2, 1/2 and 3/4 give the
values 1/2, 2/3 and 1/2: the last uniform number should be the value of the conditional distribution function of asset 1, but this is 16/25. The right branch of `_propagate_samples` inverts the copula for its first margin. -/
theorem C54_rotated_counterexample {listing : Finset ℕ → List ℕ} (hl : IsListing listing) :
    Built 3 1 [ab, ac] ∧ nextNodes [ab, ac] [(0, 1)] = [.edge ab ac] ∧ (∀ m, IsInverse (rotatedCop m).partialDerivative (rotatedCop m).inversePartialDerivative) ∧
    samplingOrder listing 3 (fun _ => false) (conditioningCount listing [[ab, ac], [.edge ab ac]]) [.edge ab ac] = some [(.root 2, true), (ac, true), (.edge ab ac, true)] ∧
    ∃ inits s, initSamples listing (1 / 10 ^ 14) (fun _ => none) [(.root 2, true), (ac, true), (.edge ab ac, true)] [1 / 2, 1 / 2, 3 / 4] = some inits ∧ propagate rotatedCop inits = some s ∧
      s.pseudo 0 = some (1 / 2) ∧ s.pseudo 1 = some (2 / 3) ∧ s.pseudo 2 = some (1 / 2) ∧ ∀ x : ℕ → ℝ, x 0 = 1 / 2 → x 1 = 2 / 3 → x 2 = 1 / 2 → condCdf rotatedCop x (.edge ab ac) 1 = 16 / 25 := by
  refine ⟨three_built, three_top, rotatedCop_isInverse, three_order hl, [(.root 2, true, 1 / 2), (ac, true, 1 / 2), (.edge ab ac, true, 3 / 4)], ?_⟩
  have hi : initSamples listing (1 / 10 ^ 14 : ℝ) (fun _ => none) [(.root 2, true), (ac, true), (.edge ab ac, true)] [1 / 2, 1 / 2, 3 / 4] = some [(.root 2, true, 1 / 2), (ac, true, 1 / 2), (.edge ab ac, true, 3 / 4)] := by
    have c1 : clip (1 / 10 ^ 14 : ℝ) (1 / 2) = 1 / 2 := by rw [clip, max_eq_left (by norm_num), min_eq_left (by norm_num)]
    have c2 : clip (1 / 10 ^ 14 : ℝ) (3 / 4) = 3 / 4 := by rw [clip, max_eq_left (by norm_num), min_eq_left (by norm_num)]
    have g1 := good_getVar listing hl (.root 2) true
    have g3 := good_getVar listing hl three_good true
    have g2 : getVar listing ac true = some 0 := rfl
    simp only [initSamples, g1, g2, g3, Option.bind_some, Option.map_some, c1, c2]
  have hp := rotated_inverse
  have hq := rotated_partial
  have hab : rotatedCop ab = clayton 1 .r90 := if_pos rfl
  have hac : rotatedCop ac = independent := if_neg (by decide)
  have htop : rotatedCop (.edge ab ac) = independent := if_neg (by decide)
  have hcond : ∀ x : ℕ → ℝ, x 0 = 1 / 2 → x 1 = 2 / 3 → x 2 = 1 / 2 → condCdf rotatedCop x (.edge ab ac) 1 = 16 / 25 := by
    intro x h0 h1 h2
    have o1 : ownVar ab ac = 1 := by decide
    have o2 : ownVar ac ab = 2 := by decide
    have o3 : ownVar (.root 1) (.root 0) = 1 := by decide
    rw [condCdf, htop, o1, o2, ab, condCdf, ← ab, hab, o3]
    simp only [independent, condCdf, h0, h1]
    simpa using hq
  have hprop : (propagate rotatedCop [(.root 2, true, 1 / 2), (ac, true, 1 / 2), (.edge ab ac, true, 3 / 4)]).map (fun s => (s.pseudo 0, s.pseudo 1, s.pseudo 2)) = some (some (1 / 2), some (2 / 3), some (1 / 2)) := by
    simp only [ab, ac] at hab hac htop ⊢
    simp [propagate, State.empty, State.assign, descend, sides, read, hab, hac, htop, independent, -one_div]
    simpa using hp
  obtain ⟨s, hs, hv⟩ := Option.map_eq_some_iff.1 hprop
  simp only [Prod.mk.injEq] at hv
  exact ⟨s, hi, hs, hv.1, hv.2.1, hv.2.2, hcond⟩

end Skfolio.Vine
