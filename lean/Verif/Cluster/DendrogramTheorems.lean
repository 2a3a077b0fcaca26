import Verif.Cluster.DendrogramModel
import Mathlib.Data.List.Nodup
import Mathlib.Tactic.Push
import Mathlib.Algebra.Order.Ring.Rat
import Mathlib.Tactic.NormNum

/-!
# C129: the dendrogram shows the clusters
-/

set_option autoImplicit false

namespace Skfolio.Cluster.Dendrogram

variable {K : Type}

/-! ### Specification -/

/-- The same tree with children exchanged at any nodes. -/
inductive Flip : Tree K → Tree K → Prop
  | leaf (a : ℕ) : Flip (.leaf a) (.leaf a)
  | keep (h : K) {l r l' r' : Tree K} : Flip l l' → Flip r r' → Flip (.node h l r) (.node h l' r')
  | swap (h : K) {l r l' r' : Tree K} : Flip l l' → Flip r r' → Flip (.node h l r) (.node h r' l')

/-- A part of a tree. -/
inductive Part : Tree K → Tree K → Prop
  | self (t : Tree K) : Part t t
  | left (h : K) {s l : Tree K} (r : Tree K) : Part s l → Part s (.node h l r)
  | right (h : K) (l : Tree K) {s r : Tree K} : Part s r → Part s (.node h l r)

variable [LinearOrder K]

/-- Two assets are in the same flat cluster at height `τ`: they are in a part of the tree with no higher merge. -/
def Together (τ : K) (t : Tree K) (a b : ℕ) : Prop :=
  ∃ s, Part s t ∧ (∀ x ∈ s.heights, x ≤ τ) ∧ a ∈ s.leaves ∧ b ∈ s.leaves

/-- No merge is lower than those it is made of (single, complete, average, weighted and Ward linkage). -/
def Monotone : Tree K → Prop
  | .leaf _ => True
  | .node h l r => (∀ x ∈ l.heights ++ r.heights, x ≤ h) ∧ Monotone l ∧ Monotone r

/-- `labels` numbers the flat clusters at height `τ` from `0` to `k - 1`. -/
structure IsLabelling (τ : K) (t : Tree K) (k : ℕ) (labels : ℕ → ℕ) : Prop where
  together : ∀ a ∈ t.leaves, ∀ b ∈ t.leaves, labels a = labels b ↔ Together τ t a b
  onto : ∀ i < k, ∃ a ∈ t.leaves, labels a = i
  lt : ∀ a ∈ t.leaves, labels a < k

/-! ### Leaves and flips -/

omit [LinearOrder K] in
theorem Flip.leaves_perm {t t' : Tree K} (h : Flip t t') : t.leaves.Perm t'.leaves := by
  induction h with
  | leaf a => exact .refl _
  | keep h _ _ ih1 ih2 => exact ih1.append ih2
  | swap h _ _ ih1 ih2 => exact (ih1.append ih2).trans List.perm_append_comm

omit [LinearOrder K] in
theorem Flip.heights_perm {t t' : Tree K} (h : Flip t t') : t.heights.Perm t'.heights := by
  induction h with
  | leaf a => exact .refl _
  | keep h _ _ ih1 ih2 => exact (ih1.append ih2).cons _
  | swap h _ _ ih1 ih2 => exact ((ih1.append ih2).trans List.perm_append_comm).cons _

omit [LinearOrder K] in
theorem Flip.part {t t' s : Tree K} (h : Flip t t') (hs : Part s t) : ∃ s', Flip s s' ∧ Part s' t' := by
  induction h with
  | leaf a =>
    cases hs
    exact ⟨_, .leaf a, .self _⟩
  | @keep h l r l' r' h1 h2 ih1 ih2 =>
    cases hs with
    | self => exact ⟨_, .keep h h1 h2, .self _⟩
    | left _ _ hs =>
      obtain ⟨s', a, b⟩ := ih1 hs
      exact ⟨s', a, .left _ _ b⟩
    | right _ _ hs =>
      obtain ⟨s', a, b⟩ := ih2 hs
      exact ⟨s', a, .right _ _ b⟩
  | @swap h l r l' r' h1 h2 ih1 ih2 =>
    cases hs with
    | self => exact ⟨_, .swap h h1 h2, .self _⟩
    | left _ _ hs =>
      obtain ⟨s', a, b⟩ := ih1 hs
      exact ⟨s', a, .right _ _ b⟩
    | right _ _ hs =>
      obtain ⟨s', a, b⟩ := ih2 hs
      exact ⟨s', a, .left _ _ b⟩

omit [LinearOrder K] in
theorem flip_symm {t t' : Tree K} (h : Flip t t') : Flip t' t := by
  induction h with
  | leaf a => exact .leaf a
  | keep h _ _ ih1 ih2 => exact .keep h ih1 ih2
  | swap h _ _ ih1 ih2 => exact .swap h ih2 ih1

theorem Flip.together {t t' : Tree K} (h : Flip t t') {τ : K} {a b : ℕ} (hab : Together τ t a b) : Together τ t' a b := by
  obtain ⟨s, hs, hh, ha, hb⟩ := hab
  obtain ⟨s', hf, hp⟩ := h.part hs
  exact ⟨s', hp, fun x hx => hh x (hf.heights_perm.mem_iff.2 hx), hf.leaves_perm.mem_iff.1 ha, hf.leaves_perm.mem_iff.1 hb⟩

omit [LinearOrder K] in
theorem Part.block {s t : Tree K} (h : Part s t) : ∃ u v, t.leaves = u ++ s.leaves ++ v := by
  induction h with
  | self t => exact ⟨[], [], by simp⟩
  | left h r _ ih =>
    obtain ⟨u, v, e⟩ := ih
    exact ⟨u, v ++ r.leaves, by simp [Tree.leaves, e]⟩
  | right h l _ ih =>
    obtain ⟨u, v, e⟩ := ih
    exact ⟨l.leaves ++ u, v, by simp [Tree.leaves, e]⟩

/-- Between two leaves of one cluster there are only leaves of this cluster. -/
theorem together_between {τ : K} {t : Tree K} (hn : t.leaves.Nodup) {x y z : ℕ} (hz : z < t.leaves.length) (hxy : x ≤ y)
    (hyz : y ≤ z) (h : Together τ t (t.leaves[x]) (t.leaves[z])) : Together τ t (t.leaves[x]) (t.leaves[y]) := by
  obtain ⟨s, hs, hh, ha, hb⟩ := h
  refine ⟨s, hs, hh, ha, ?_⟩
  obtain ⟨u, v, e⟩ := hs.block
  have key : ∀ w (hw : w < t.leaves.length), t.leaves[w] ∈ s.leaves ↔ u.length ≤ w ∧ w < u.length + s.leaves.length := by
    intro w hw
    constructor
    · intro hmem
      obtain ⟨j, hj, hje⟩ := List.getElem_of_mem hmem
      have h1 : t.leaves[u.length + j]'(by rw [e]; simp; omega) = t.leaves[w] := by
        rw [← hje]
        simp [e, List.getElem_append_left, List.getElem_append_right, hj]
      have := (List.Nodup.getElem_inj_iff hn).1 h1
      omega
    · rintro ⟨h1, h2⟩
      have : t.leaves[w] = s.leaves[w - u.length]'(by omega) := by
        simp only [e]
        rw [List.getElem_append_left (by simp; omega), List.getElem_append_right h1]
      rw [this]
      exact List.getElem_mem _
  have h1 := (key x (by omega)).1 ha
  have h2 := (key z hz).1 hb
  exact (key y (by omega)).2 ⟨by omega, by omega⟩

/-! ### The heat map -/

omit [LinearOrder K] in
theorem leaves_ne_nil (t : Tree K) : t.leaves ≠ [] := by
  induction t with
  | leaf a => simp [Tree.leaves]
  | node h l r ih1 ih2 => simp [Tree.leaves, ih1]

omit [LinearOrder K] in
/-- **C129.** With distinct names the heat map shows the distances of the assets in the order of the leaves. -/
theorem C129_heat_map_partial (names : List String) (hn : names.Nodup) (d : ℕ → ℕ → K) (leaves : List ℕ)
    (hl : ∀ a ∈ leaves, a < names.length) :
    orderedIdx names leaves = leaves ∧
      heat d (orderedIdx names leaves) = leaves.map fun a => leaves.map fun b => d a b := by
  have : orderedIdx names leaves = leaves := by
    rw [orderedIdx, List.map_map]
    conv_rhs => rw [← List.map_id leaves]
    apply List.map_congr_left
    intro a ha
    have h := hl a ha
    simp only [Function.comp, List.getD_eq_getElem _ _ h, id]
    exact hn.idxOf_getElem a h
  rw [this]
  exact ⟨rfl, rfl⟩

omit [LinearOrder K] in
/-- **C129 (finding).** If two assets have the same name, the heat map shows the first of them twice and the other one not
at all. -/
theorem C129_duplicate_names (names : List String) (leaves : List ℕ) (a b : ℕ) (hb : b < names.length) (hab : a < b)
    (e : names[a]? = names[b]?) : b ∉ orderedIdx names leaves := by
  have ha : a < names.length := by omega
  rw [List.getElem?_eq_getElem ha, List.getElem?_eq_getElem hb, Option.some.injEq] at e
  intro h
  rw [orderedIdx, List.mem_map] at h
  obtain ⟨x, _, hx⟩ := h
  have h1 : names.idxOf x < names.length := by omega
  have h2 : names[names.idxOf x] = x := List.getElem_idxOf h1
  have h3 : names[a] = x := by
    rw [e, ← h2]
    simp only [hx]
  have h4 : names.idxOf x ≤ a := by
    by_contra hlt
    push Not at hlt
    have := List.not_of_lt_findIdx (p := (· == x)) hlt
    simp [h3] at this
  omega

/-! ### The squares -/

theorem mapM_some_get {α β : Type} {f : α → Option β} {g : α → β} (l : List α) (h : ∀ x ∈ l, f x = some (g x)) :
    l.mapM f = some (l.map g) := by
  induction l with
  | nil => rfl
  | cons a l ih =>
    rw [List.mapM_cons, h a (by simp), ih fun x hx => h x (by simp [hx])]
    rfl

/-- The squares outline the clusters if the order of the assets is that of the leaves. -/
theorem squares_leaves {τ : K} {t t' : Tree K} (hf : Flip t t') (hn : t.leaves.Nodup) {k : ℕ} {labels : ℕ → ℕ}
    (hlab : IsLabelling τ t k labels) :
    ∃ sq : List (ℕ × ℕ), squares labels t'.leaves = some sq ∧ sq.length = k ∧
      ∀ i ab, sq[i]? = some ab → ∀ x (hx : x < t'.leaves.length),
        (ab.1 ≤ x ∧ x < ab.2) ↔ labels (t'.leaves[x]) = i := by
  have hn' : t'.leaves.Nodup := hf.leaves_perm.nodup_iff.1 hn
  set lv := t'.leaves with hlv
  let ids : ℕ → List ℕ := fun i => (List.range lv.length).filter fun x => decide (labels (lv.getD x 0) = i)
  have hids : ∀ i x, x ∈ ids i ↔ ∃ h : x < lv.length, labels (lv[x]) = i := by
    intro i x
    simp only [ids, List.mem_filter, List.mem_range, decide_eq_true_eq]
    constructor
    · rintro ⟨h, h'⟩
      rw [List.getD_eq_getElem _ _ h] at h'
      exact ⟨h, h'⟩
    · rintro ⟨h, h'⟩
      rw [List.getD_eq_getElem _ _ h]
      exact ⟨h, h'⟩
  have hsorted : ∀ i, (ids i).Pairwise (· < ·) := fun i => List.Pairwise.filter _ List.pairwise_lt_range
  have hne : ∀ i < k, ids i ≠ [] := by
    intro i hi
    obtain ⟨a, ha, hai⟩ := hlab.onto i hi
    obtain ⟨x, hx, rfl⟩ := List.getElem_of_mem (hf.leaves_perm.mem_iff.1 ha)
    exact List.ne_nil_of_mem ((hids i x).2 ⟨hx, hai⟩)
  have hconv : ∀ i x y z, x ∈ ids i → z ∈ ids i → x ≤ y → y ≤ z → y ∈ ids i := by
    intro i x y z hx hz hxy hyz
    obtain ⟨hx1, hx2⟩ := (hids i x).1 hx
    obtain ⟨hz1, hz2⟩ := (hids i z).1 hz
    have hy1 : y < lv.length := by omega
    have hmem : ∀ w (hw : w < lv.length), lv[w] ∈ t.leaves := fun w hw => hf.leaves_perm.mem_iff.2 (List.getElem_mem hw)
    have hto : Together τ t' (lv[x]) (lv[z]) :=
      hf.together ((hlab.together _ (hmem x hx1) _ (hmem z hz1)).1 (hx2.trans hz2.symm))
    have := together_between hn' hz1 hxy hyz hto
    obtain ⟨s, hs, hh, ha, hb⟩ := this
    refine (hids i y).2 ⟨hy1, ?_⟩
    rw [← hx2]
    apply Eq.symm
    apply (hlab.together _ (hmem x hx1) _ (hmem y hy1)).2
    exact (flip_symm hf).together ⟨s, hs, hh, ha, hb⟩
  have hval : ∀ i ∈ List.range k, (match (ids i).head?, (ids i).getLast? with
      | some a, some b => some (a, b + 1)
      | _, _ => none) = some ((ids i).headD 0, (ids i).getLastD 0 + 1) := by
    intro i hi
    have h := hne i (List.mem_range.1 hi)
    cases hc : ids i with
    | nil => exact absurd hc h
    | cons a l => simp [List.getLast?_cons]
  have hmax : (lv.map labels).foldr max 0 + 1 = k := by
    have h1 : ∀ l : List ℕ, (∀ x ∈ l, x ≤ l.foldr max 0) ∧ (l ≠ [] → l.foldr max 0 ∈ l) := by
      intro l
      induction l with
      | nil => simp
      | cons a l ih =>
        refine ⟨?_, fun _ => ?_⟩
        · intro x hx
          rw [List.foldr_cons]
          rcases List.mem_cons.1 hx with rfl | hx
          · exact le_max_left _ _
          · exact (ih.1 x hx).trans (le_max_right _ _)
        · rw [List.foldr_cons]
          rcases eq_or_ne l [] with rfl | hl
          · simp
          · rcases max_choice a (l.foldr max 0) with h | h <;> rw [h]
            · exact List.mem_cons_self
            · exact List.mem_cons_of_mem _ (ih.2 hl)
    have hlt : (lv.map labels).foldr max 0 < k := by
      have hne : lv.map labels ≠ [] := by
        intro h
        exact leaves_ne_nil t' (List.map_eq_nil_iff.1 h)
      obtain ⟨a, ha, e⟩ := List.mem_map.1 ((h1 _).2 hne)
      rw [← e]
      exact hlab.lt a (hf.leaves_perm.mem_iff.2 ha)
    obtain ⟨a, ha, e⟩ := hlab.onto (k - 1) (by omega)
    have := (h1 (lv.map labels)).1 (k - 1) (List.mem_map.2 ⟨a, hf.leaves_perm.mem_iff.1 ha, e⟩)
    omega
  rw [squares, hmax]
  refine ⟨_, mapM_some_get _ hval, by simp, ?_⟩
  intro i ab hab x hx
  rw [List.getElem?_map, Option.map_eq_some_iff] at hab
  obtain ⟨j, hj, rfl⟩ := hab
  obtain ⟨hjk, rfl⟩ : i < k ∧ i = j := by
    rw [List.getElem?_eq_some_iff] at hj
    obtain ⟨h, e⟩ := hj
    simp at h e
    exact ⟨h, e⟩
  have h := hne i hjk
  have hhead : (ids i).headD 0 ∈ ids i ∧ ∀ y ∈ ids i, (ids i).headD 0 ≤ y := by
    have hs := hsorted i
    cases hc : ids i with
    | nil => exact absurd hc h
    | cons a l =>
      rw [hc, List.pairwise_cons] at hs
      refine ⟨by simp, ?_⟩
      intro y hy
      rcases List.mem_cons.1 hy with rfl | hy
      · simp
      · exact le_of_lt (hs.1 y hy)
  have hlast : (ids i).getLastD 0 ∈ ids i ∧ ∀ y ∈ ids i, y ≤ (ids i).getLastD 0 := by
    rw [List.getLastD_eq_getLast?, List.getLast?_eq_some_getLast h]
    refine ⟨List.getLast_mem h, ?_⟩
    intro y hy
    simp only [Option.getD_some]
    have hs := hsorted i
    rw [← List.dropLast_append_getLast h] at hs hy
    rw [List.pairwise_append] at hs
    rcases List.mem_append.1 hy with hy | hy
    · exact le_of_lt (hs.2.2 y hy _ (List.mem_singleton.2 rfl))
    · simp at hy
      omega
  constructor
  · rintro ⟨h1, h2⟩
    obtain ⟨_, h'⟩ := (hids i x).1 (hconv i _ x _ hhead.1 hlast.1 h1 (by omega))
    exact h'
  · intro h'
    have hx' := (hids i x).2 ⟨hx, h'⟩
    exact ⟨hhead.2 x hx', by have := hlast.2 x hx'; omega⟩

/-- **C129.** With distinct names the squares outline the clusters: there is one square per cluster, and the asset at position
`x` of the plot lies in square `i` exactly if its label is `i`, whatever order of the leaves `optimal_leaf_ordering` chooses. -/
theorem C129_squares_partial {τ : K} {t t' : Tree K} (hf : Flip t t') (hn : t.leaves.Nodup) {k : ℕ} {labels : ℕ → ℕ}
    (hlab : IsLabelling τ t k labels) (names : List String) (hd : names.Nodup) (hl : ∀ a ∈ t.leaves, a < names.length) :
    ∃ sq : List (ℕ × ℕ), squares labels (orderedIdx names t'.leaves) = some sq ∧ sq.length = k ∧
      ∀ i ab, sq[i]? = some ab → ∀ x (hx : x < t'.leaves.length),
        (ab.1 ≤ x ∧ x < ab.2) ↔ labels (t'.leaves[x]) = i := by
  rw [(C129_heat_map_partial names hd (fun _ _ => ()) t'.leaves
    fun a ha => hl a (hf.leaves_perm.mem_iff.2 ha)).1]
  exact squares_leaves hf hn hlab

/-- **C129 (finding).** Three assets, the first two of the same name in different clusters: the plot fails, because no
position has the label of the second one. -/
theorem C129_duplicate_names_fail :
    squares (fun a => [1, 0, 1].getD a 0) (orderedIdx ["A", "A", "B"] [1, 0, 2]) = none := by
  decide +kernel

/-! ### The colours -/

omit [LinearOrder K] in
theorem Part.trans {s t u : Tree K} (h1 : Part s t) (h2 : Part t u) : Part s u := by
  induction h2 with
  | self t => exact h1
  | left h r _ ih => exact .left h r (ih h1)
  | right h l _ ih => exact .right h l (ih h1)

omit [LinearOrder K] in
theorem Part.leaves_subset {s t : Tree K} (h : Part s t) : ∀ a ∈ s.leaves, a ∈ t.leaves := by
  obtain ⟨u, v, e⟩ := h.block
  intro a ha
  rw [e]
  simp [ha]

theorem clusters_low {τ : K} {t c : Tree K} (h : c ∈ t.clusters τ) : Part c t ∧ ∀ x ∈ c.heights, x ≤ τ := by
  induction t with
  | leaf a =>
    simp only [Tree.clusters, List.mem_singleton] at h
    subst h
    exact ⟨.self _, by simp [Tree.heights]⟩
  | node h' l r ih1 ih2 =>
    rw [Tree.clusters] at h
    split at h
    · rename_i hall
      rw [List.mem_singleton] at h
      subst h
      refine ⟨.self _, ?_⟩
      simpa using hall
    · rcases List.mem_append.1 h with h | h
      · exact ⟨.left _ _ (ih1 h).1, (ih1 h).2⟩
      · exact ⟨.right _ _ (ih2 h).1, (ih2 h).2⟩

theorem clusters_max {τ : K} {t s : Tree K} (h : Part s t) (hl : ∀ x ∈ s.heights, x ≤ τ) :
    ∃ c ∈ t.clusters τ, Part s c := by
  induction h with
  | self t =>
    cases t with
    | leaf a => exact ⟨.leaf a, by simp [Tree.clusters], .self _⟩
    | node h l r =>
      refine ⟨_, ?_, .self _⟩
      rw [Tree.clusters, if_pos (by simpa using hl)]
      simp
  | @left h s' l r hp ih =>
    obtain ⟨c, hc, hpc⟩ := ih hl
    rw [Tree.clusters]
    split
    · exact ⟨_, List.mem_singleton.2 rfl, .left h r hp⟩
    · exact ⟨c, List.mem_append_left _ hc, hpc⟩
  | @right h l s' r hp ih =>
    obtain ⟨c, hc, hpc⟩ := ih hl
    rw [Tree.clusters]
    split
    · exact ⟨_, List.mem_singleton.2 rfl, .right h l hp⟩
    · exact ⟨c, List.mem_append_right _ hc, hpc⟩

theorem clusters_leaves (τ : K) (t : Tree K) : (t.clusters τ).flatMap Tree.leaves = t.leaves := by
  induction t with
  | leaf a => simp [Tree.clusters]
  | node h l r ih1 ih2 =>
    rw [Tree.clusters]
    split
    · simp
    · rw [List.flatMap_append, ih1, ih2, Tree.leaves]

theorem clusters_length {τ : K} {t : Tree K} (hm : Monotone t) :
    (t.clusters τ).length = t.heights.countP (fun x => decide (τ < x)) + 1 := by
  induction t with
  | leaf a => simp [Tree.clusters, Tree.heights]
  | node h l r ih1 ih2 =>
    rw [Tree.clusters]
    split
    · rename_i hall
      rw [List.countP_eq_zero.2]
      · rfl
      · intro x hx
        have := List.all_eq_true.1 hall x hx
        simpa using this
    · rename_i hall
      have hh : τ < h := by
        by_contra hle
        push Not at hle
        apply hall
        rw [List.all_eq_true]
        intro x hx
        simp only [Tree.heights, List.mem_cons] at hx
        rcases hx with rfl | hx
        · simpa using hle
        · simpa using (hm.1 x hx).trans hle
      rw [List.length_append, ih1 hm.2.1, ih2 hm.2.2, Tree.heights, List.countP_cons, List.countP_append]
      simp [hh]
      omega

/-- The number of labels is the number of flat clusters. -/
theorem labels_count {τ : K} {t : Tree K} (hn : t.leaves.Nodup) {k : ℕ} {labels : ℕ → ℕ} (hlab : IsLabelling τ t k labels) :
    (t.clusters τ).length = k := by
  have hne : ∀ c : Tree K, c.leaves.headD 0 ∈ c.leaves := by
    intro c
    have := leaves_ne_nil c
    cases hc : c.leaves with
    | nil => exact absurd hc this
    | cons a l => simp
  have hdis : (t.clusters τ).Pairwise fun c c' => List.Disjoint c.leaves c'.leaves := by
    have := hn
    rw [← clusters_leaves τ t, List.nodup_flatMap] at this
    exact this.2
  have huniq : ∀ c ∈ t.clusters τ, ∀ c' ∈ t.clusters τ, ∀ a, a ∈ c.leaves → a ∈ c'.leaves → c = c' := by
    intro c hc c' hc' a ha ha'
    by_contra hcc
    obtain ⟨i, hi, rfl⟩ := List.getElem_of_mem hc
    obtain ⟨j, hj, rfl⟩ := List.getElem_of_mem hc'
    rcases lt_trichotomy i j with hij | rfl | hij
    · exact (List.pairwise_iff_getElem.1 hdis i j hi hj hij) ha ha'
    · exact hcc rfl
    · exact (List.pairwise_iff_getElem.1 hdis j i hj hi hij) ha' ha
  let g : Tree K → ℕ := fun c => labels (c.leaves.headD 0)
  have hnod : ((t.clusters τ).map g).Nodup := by
    rw [List.Nodup, List.pairwise_map]
    refine hdis.imp_of_mem ?_
    intro c c' hc hc' hd he
    have h1 := (clusters_low hc).1.leaves_subset _ (hne c)
    have h2 := (clusters_low hc').1.leaves_subset _ (hne c')
    obtain ⟨s, hs, hl, ha, hb⟩ := (hlab.together _ h1 _ h2).1 he
    obtain ⟨c'', hc'', hp⟩ := clusters_max hs hl
    have e1 := huniq c hc c'' hc'' _ (hne c) (hp.leaves_subset _ ha)
    have e2 := huniq c' hc' c'' hc'' _ (hne c') (hp.leaves_subset _ hb)
    rw [e1, e2] at hd
    exact hd (hne c'') (hne c'')
  have hperm : ((t.clusters τ).map g).Perm (List.range k) := by
    rw [List.perm_ext_iff_of_nodup hnod List.nodup_range]
    intro i
    rw [List.mem_map, List.mem_range]
    constructor
    · rintro ⟨c, hc, rfl⟩
      exact hlab.lt _ ((clusters_low hc).1.leaves_subset _ (hne c))
    · intro hi
      obtain ⟨a, ha, rfl⟩ := hlab.onto i hi
      have ha' := ha
      rw [← clusters_leaves τ t, List.mem_flatMap] at ha'
      obtain ⟨c, hc, hac⟩ := ha'
      refine ⟨c, hc, ?_⟩
      apply (hlab.together _ ((clusters_low hc).1.leaves_subset _ (hne c)) _ ha).2
      exact ⟨c, (clusters_low hc).1, (clusters_low hc).2, hne c, hac⟩
  have := hperm.length_eq
  simpa using this

theorem sorted_split (τ : K) (l : List K) (h : l.Pairwise (· ≤ ·)) :
    l = l.filter (fun x => decide (x ≤ τ)) ++ l.filter (fun x => decide (τ < x)) := by
  induction l with
  | nil => rfl
  | cons a l ih =>
    rw [List.pairwise_cons] at h
    by_cases ha : a ≤ τ
    · rw [List.filter_cons_of_pos (by simpa using ha), List.filter_cons_of_neg (by simpa using ha), List.cons_append,
        ← ih h.2]
    · have h1 : (a :: l).filter (fun x => decide (x ≤ τ)) = [] := by
        rw [List.filter_eq_nil_iff]
        intro x hx
        rcases List.mem_cons.1 hx with rfl | hx
        · simpa using ha
        · have := h.1 x hx
          simp only [decide_eq_true_eq, not_le]
          exact lt_of_lt_of_le (not_le.1 ha) this
      have h2 : (a :: l).filter (fun x => decide (τ < x)) = a :: l := by
        rw [List.filter_eq_self]
        intro x hx
        rcases List.mem_cons.1 hx with rfl | hx
        · simpa using ha
        · simpa using lt_of_lt_of_le (not_le.1 ha) (h.1 x hx)
      rw [h1, h2, List.nil_append]

/-- **C129.** With two clusters or more, the links in the colour of a cluster are exactly those inside a cluster. -/
theorem C129_colours_partial {τ : K} {t : Tree K} (hm : Monotone t) (hn : t.leaves.Nodup) {k : ℕ} (hk : 2 ≤ k)
    {labels : ℕ → ℕ} (hlab : IsLabelling τ t k labels) (h : K) (hh : h ∈ t.heights) :
    coloured t.column k h = some (decide (h ≤ τ)) := by
  have hlen := labels_count hn hlab
  rw [clusters_length hm] at hlen
  have hperm : t.column.Perm t.heights := List.perm_insertionSort _ _
  have hs : t.column.Pairwise (· ≤ ·) := List.pairwise_insertionSort _ _
  have hcnt : (t.column.filter fun x => decide (τ < x)).length = k - 1 := by
    rw [← List.countP_eq_length_filter, hperm.countP_eq]
    omega
  have hsplit := sorted_split τ t.column hs
  obtain ⟨thr, rest, hthr⟩ : ∃ a l, (t.column.filter fun x => decide (τ < x)) = a :: l := by
    cases hc : t.column.filter fun x => decide (τ < x) with
    | nil =>
      rw [hc] at hcnt
      simp at hcnt
      omega
    | cons a l => exact ⟨a, l, rfl⟩
  have hidx : t.column.length - (k - 1) = (t.column.filter fun x => decide (x ≤ τ)).length := by
    have := congrArg List.length hsplit
    rw [List.length_append] at this
    omega
  have hget : t.column[t.column.length - (k - 1)]? = some thr := by
    rw [hidx]
    have : ∀ l u v : List K, l = u ++ v → v = thr :: rest → l[u.length]? = some thr := by
      rintro l u v rfl rfl
      simp
    exact this _ _ _ hsplit hthr
  have hthrlt : τ < thr := by
    have : thr ∈ t.column.filter fun x => decide (τ < x) := by simp [hthr]
    simpa using (List.mem_filter.1 this).2
  have hmin : ∀ x ∈ t.column, τ < x → thr ≤ x := by
    intro x hx hx'
    have h1 : x ∈ t.column.filter fun x => decide (τ < x) := List.mem_filter.2 ⟨hx, by simpa using hx'⟩
    have h2 : (t.column.filter fun x => decide (τ < x)).Pairwise (· ≤ ·) := hs.filter _
    rw [hthr] at h1 h2
    rcases List.mem_cons.1 h1 with rfl | h1
    · exact le_rfl
    · exact (List.pairwise_cons.1 h2).1 x h1
  rw [coloured, threshold, if_neg (by omega), hget, Option.map_some, Option.some.injEq, decide_eq_decide]
  constructor
  · intro hlt
    by_contra hle
    exact absurd (hmin h (hperm.mem_iff.2 hh) (not_le.1 hle)) (not_le.2 hlt)
  · intro hle
    exact lt_of_le_of_lt hle hthrlt

/-- **C129 (finding).** With a single cluster no link has the colour of a cluster, although all of them are inside it: the
row of the threshold is `-0`, which is the first row instead of the one after the last. -/
theorem C129_single_cluster {τ : K} {t : Tree K} (hm : Monotone t) (hn : t.leaves.Nodup)
    {labels : ℕ → ℕ} (hlab : IsLabelling τ t 1 labels) (h : K) (hh : h ∈ t.heights) :
    h ≤ τ ∧ coloured t.column 1 h = some false := by
  have hlen := labels_count hn hlab
  rw [clusters_length hm] at hlen
  have hz : t.heights.countP (fun x => decide (τ < x)) = 0 := by omega
  have hperm : t.column.Perm t.heights := List.perm_insertionSort _ _
  have hs : t.column.Pairwise (· ≤ ·) := List.pairwise_insertionSort _ _
  refine ⟨by simpa using List.countP_eq_zero.1 hz h hh, ?_⟩
  have hmem := hperm.mem_iff.2 hh
  cases hc : t.column with
  | nil => rw [hc] at hmem; simp at hmem
  | cons a l =>
    rw [hc] at hs hmem
    have : a ≤ h := by
      rcases List.mem_cons.1 hmem with rfl | hmem
      · exact le_rfl
      · exact (List.pairwise_cons.1 hs).1 h hmem
    simp [coloured, threshold, this]

/-! ### Examples -/

/-- Four assets: `0` and `2` merge at `1`, `1` and `3` at `2`, all at `5`. -/
def exTree : Tree ℚ := .node 5 (.node 1 (.leaf 0) (.leaf 2)) (.node 2 (.leaf 1) (.leaf 3))

/-- The same tree in another order of the leaves. -/
def exFlip : Tree ℚ := .node 5 (.node 2 (.leaf 3) (.leaf 1)) (.node 1 (.leaf 0) (.leaf 2))

/-- The labels of the two clusters `{0, 2}` and `{1, 3}`. -/
def exLabels (a : ℕ) : ℕ := a % 2

theorem exTree_flip : Flip exTree exFlip :=
  .swap _ (.keep _ (.leaf _) (.leaf _)) (.swap _ (.leaf _) (.leaf _))

theorem exTree_monotone : Monotone exTree := by
  simp only [exTree, Monotone, Tree.heights, List.append_nil, and_true]
  refine ⟨?_, ?_, ?_⟩ <;> simp
  norm_num

theorem exTree_labelling : IsLabelling 3 exTree 2 exLabels where
  together := by
    intro a ha b hb
    constructor
    · intro e
      simp only [exTree, Tree.leaves, List.cons_append, List.nil_append, List.mem_cons, List.not_mem_nil, or_false] at ha hb
      have h0 : Part (.node 1 (.leaf 0) (.leaf 2)) exTree := .left _ _ (.self _)
      have h1 : Part (.node 2 (.leaf 1) (.leaf 3)) exTree := .right _ _ (.self _)
      by_cases hp : a % 2 = 0
      · have hb' : b % 2 = 0 := by rw [← hp]; exact e.symm
        refine ⟨_, h0, by intro x hx; simp [Tree.heights] at hx; subst hx; norm_num, ?_, ?_⟩ <;> simp [Tree.leaves] <;> omega
      · have hb' : b % 2 ≠ 0 := by
          have : a % 2 = b % 2 := e
          omega
        refine ⟨_, h1, by intro x hx; simp [Tree.heights] at hx; subst hx; norm_num, ?_, ?_⟩ <;> simp [Tree.leaves] <;> omega
    · rintro ⟨s, hs, hl, ha', hb'⟩
      obtain ⟨c, hc, hp⟩ := clusters_max hs hl
      have hcl : exTree.clusters 3 = [.node 1 (.leaf 0) (.leaf 2), .node 2 (.leaf 1) (.leaf 3)] := by
        simp [exTree, Tree.clusters, Tree.heights]
        norm_num
      rw [hcl] at hc
      have h1 := hp.leaves_subset _ ha'
      have h2 := hp.leaves_subset _ hb'
      simp only [List.mem_cons, List.not_mem_nil, or_false] at hc
      rcases hc with rfl | rfl <;> simp [Tree.leaves] at h1 h2 <;> rcases h1 with rfl | rfl <;> rcases h2 with rfl | rfl <;> rfl
  onto := by
    intro i hi
    refine ⟨i, ?_, ?_⟩
    · simp [exTree, Tree.leaves]
      omega
    · simp [exLabels]
      omega
  lt := by
    intro a _
    simp only [exLabels]
    omega

example : squares exLabels exFlip.leaves = some [(2, 4), (0, 2)] := by decide +kernel

example : exTree.column.map (coloured exTree.column 2) = [some true, some true, some false] := by decide +kernel

example : exTree.column.map (coloured exTree.column 1) = [some false, some false, some false] := by decide +kernel

example : heat (fun i j => (10 * i + j : ℕ)) (orderedIdx ["A", "B", "C"] [2, 0, 1]) = [[22, 20, 21], [2, 0, 1], [12, 10, 11]] := by
  decide +kernel

example : orderedIdx ["A", "B", "A"] [2, 0, 1] = [0, 0, 1] := by decide +kernel

end Skfolio.Cluster.Dendrogram
