import Verif.Selection.SelectTheorems
import Mathlib.Data.List.GetD
import Mathlib.Tactic.FinCases

/-!
**C139.** Selecting again changes nothing: a selector fitted to the assets it has kept keeps them all.
-/

set_option autoImplicit false

namespace Skfolio.Selection

open Sorting

/-! ### Specification -/

/-- The columns a fitted selector returns (`SelectorMixin.transform`, `X[:, mask]`): those it keeps, in their order. -/
def keep {α : Type*} (mask : List Bool) (columns : List α) : List α := ((columns.zip mask).filter (·.2)).map (·.1)

/-- The numbers of the assets kept, in their order. -/
def keptAssets (mask : List Bool) : List ℕ := keep mask (List.range mask.length)

/-- All assets are kept. -/
def KeepsAll (mask : List Bool) : Prop := ∀ b ∈ mask, b = true

/-! ### Selectors that look at one column at a time -/

theorem keep_map {α : Type*} (p : α → Bool) (l : List α) : keep (l.map p) l = l.filter p := by
  unfold keep
  induction l with
  | nil => rfl
  | cons a l ih =>
    simp only [List.map_cons, List.zip_cons_cons, List.filter_cons]
    cases p a <;> simpa using ih

theorem keepsAll_filter {α : Type*} (p : α → Bool) (l : List α) : KeepsAll ((l.filter p).map p) := by
  intro b hb
  obtain ⟨a, ha, rfl⟩ := List.mem_map.1 hb
  exact (List.mem_filter.1 ha).2

/-- **C139.** `SelectComplete`. -/
theorem C139_select_complete {K : Type*} (drop : Bool) (columns : List (List (Option K))) :
    KeepsAll (selectComplete drop (keep (selectComplete drop columns) columns)) := by
  unfold selectComplete
  rw [keep_map]
  exact keepsAll_filter _ _

/-- **C139.** `SelectNonExpiring` (with the same dates and the same last row). -/
theorem C139_select_non_expiring {D : Type*} [LinearOrder D] (expiration : List (String × D)) (maxDate cutoff : D) (columns : List String) :
    KeepsAll (selectNonExpiring expiration maxDate cutoff (keep (selectNonExpiring expiration maxDate cutoff columns) columns)) := by
  unfold selectNonExpiring
  rw [keep_map]
  exact keepsAll_filter _ _

/-- **C139.** `DropZeroVariance`. -/
theorem C139_drop_zero_variance {K : Type*} [Field K] [LinearOrder K] (threshold : K) (columns : List (List K)) (mask : List Bool) (h : dropZeroVariance threshold columns = some mask) :
    ∃ mask', dropZeroVariance threshold (keep mask columns) = some mask' ∧ KeepsAll mask' := by
  unfold dropZeroVariance at h ⊢
  split_ifs at h with ht
  rw [if_neg ht]
  injection h with h
  refine ⟨_, rfl, ?_⟩
  rw [← h, keep_map]
  exact keepsAll_filter _ _

/-! ### Selectors that compare assets -/

theorem keptAssets_eq (mask : List Bool) : keptAssets mask = (List.range mask.length).filter fun i => mask.getD i false := by
  unfold keptAssets
  have : mask = (List.range mask.length).map fun i => mask.getD i false := by
    refine List.ext_getElem (by simp) fun i h1 h2 => ?_
    simp only [List.getElem_map, List.getElem_range]
    rw [List.getD_eq_getElem _ _ h1]
  conv_lhs => arg 1; rw [this]
  exact keep_map _ _

theorem keptAssets_length (mask : List Bool) : (keptAssets mask).length = nKept mask := by
  unfold nKept
  rw [keptAssets_eq, List.count]
  have : mask = (List.range mask.length).map fun i => mask.getD i false := by
    refine List.ext_getElem (by simp) fun i h1 h2 => ?_
    simp only [List.getElem_map, List.getElem_range]
    rw [List.getD_eq_getElem _ _ h1]
  conv_rhs => rw [this]
  rw [List.countP_map, List.countP_eq_length_filter]
  congr 1
  refine List.filter_congr fun i _ => ?_
  simp

theorem mem_keptAssets (mask : List Bool) (i : ℕ) : i ∈ keptAssets mask ↔ Kept mask i := by
  rw [keptAssets_eq, List.mem_filter, List.mem_range]
  unfold Kept
  constructor
  · rintro ⟨h1, h2⟩
    rw [List.getD_eq_getElem _ _ h1] at h2
    rw [List.getElem?_eq_getElem h1, h2]
  · intro h
    obtain ⟨h1, h2⟩ := List.getElem?_eq_some_iff.1 h
    exact ⟨h1, by rw [List.getD_eq_getElem _ _ h1, h2]⟩

theorem keptAssets_sorted (mask : List Bool) : (keptAssets mask).Pairwise (· < ·) := by
  rw [keptAssets_eq]
  exact List.pairwise_lt_range.filter _

/-- The assets `l` of a problem whose numbers are `x` for each asset. -/
def pick {α : Type*} (l : List ℕ) (x : ℕ → α) (i : ℕ) : α := x (l.getD i 0)

/-- The same for numbers of pairs. -/
def pick2 {α : Type*} (l : List ℕ) (x : ℕ → ℕ → α) (i j : ℕ) : α := x (l.getD i 0) (l.getD j 0)

theorem keepsAll_iff (mask : List Bool) : KeepsAll mask ↔ ∀ i < mask.length, Kept mask i := by
  unfold KeepsAll Kept
  constructor
  · intro h i hi
    rw [List.getElem?_eq_getElem hi, h _ (List.getElem_mem hi)]
  · intro h b hb
    obtain ⟨i, hi, rfl⟩ := List.getElem_of_mem hb
    have := h i hi
    rw [List.getElem?_eq_getElem hi] at this
    exact Option.some.inj this

theorem dropCorrelated_length {K : Type*} [LinearOrder K] (corr : ℕ → ℕ → K) (mc : ℕ → K) (thr : K) (abs : Bool) (n : ℕ) : (dropCorrelated corr mc thr abs n).length = n := by
  simp [dropCorrelated]

/-- **C139.** `DropCorrelated`, if at least two assets were kept: their correlations are those they had, their mean correlations (`mc'`) may be others. -/
theorem C139_drop_correlated {K : Type*} [LinearOrder K] [One K] [Neg K] (corr : ℕ → ℕ → K) (hsym : ∀ i j, corr i j = corr j i) (mc mc' : ℕ → K) (thr : K) (abs : Bool) (n : ℕ) (mask : List Bool)
    (h : dropCorrelatedFit corr mc thr abs n = some mask) (h2 : nKept mask ≠ 1) :
    ∃ mask', dropCorrelatedFit (pick2 (keptAssets mask) corr) mc' thr abs (keptAssets mask).length = some mask' ∧ KeepsAll mask' := by
  unfold dropCorrelatedFit at h ⊢
  split_ifs at h with h1 hn
  injection h with h
  have hlen := keptAssets_length mask
  rw [if_neg (not_not.2 h1), if_neg (by rw [hlen]; exact h2)]
  refine ⟨_, rfl, ?_⟩
  rw [keepsAll_iff, dropCorrelated_length]
  intro i hi
  rw [kept_iff]
  refine ⟨hi, ?_⟩
  have : selectedPairs (pick2 (keptAssets mask) corr) thr (keptAssets mask).length = [] := by
    rw [List.eq_nil_iff_forall_not_mem]
    intro p hp
    obtain ⟨p1, p2, p3⟩ := (mem_selectedPairs ..).1 hp
    refine absurd p3 (not_lt.2 ?_)
    unfold pick2
    have l1 := p1.trans p2
    rw [List.getD_eq_getElem _ _ l1, List.getD_eq_getElem _ _ p2]
    refine C31_no_correlated_pair_kept corr hsym mc thr abs n _ _ ?_ ?_ ?_
    · exact ((keptAssets_sorted mask).rel_get_of_lt (a := ⟨p.1, l1⟩) (b := ⟨p.2, p2⟩) p1).ne
    · rw [h]
      exact (mem_keptAssets mask _).1 (List.getElem_mem l1)
    · rw [h]
      exact (mem_keptAssets mask _).1 (List.getElem_mem p2)
  rw [this]
  exact List.not_mem_nil

/-- **C139** (finding). `DropCorrelated` cannot be fitted to a single asset, the one it may have left. -/
theorem C139_one_asset {K : Type*} [LinearOrder K] [One K] [Neg K] (corr : ℕ → ℕ → K) (mc : ℕ → K) (thr : K) (abs : Bool) : dropCorrelatedFit corr mc thr abs 1 = none := by
  unfold dropCorrelatedFit
  rw [if_pos rfl, ite_self]

/-- **C139** (finding). Two assets correlated above the threshold: the one kept is refused by the same transformer. -/
theorem C139_refused_again {K : Type*} [LinearOrder K] [One K] [Neg K] (corr : ℕ → ℕ → K) (mc mc' : ℕ → K) (thr : K) (abs : Bool) (h1 : -1 ≤ thr ∧ thr ≤ 1) (h : thr < corr 0 1) :
    ∃ mask, dropCorrelatedFit corr mc thr abs 2 = some mask ∧ nKept mask = 1 ∧ dropCorrelatedFit (pick2 (keptAssets mask) corr) mc' thr abs (keptAssets mask).length = none := by
  have hs : selectedPairs corr thr 2 = [(0, 1)] := by
    have : triuIndices 2 = [(0, 1)] := by decide
    unfold selectedPairs
    rw [this, List.filter_cons_of_pos (by simpa using h)]
    rfl
  have e : dropCorrelatedFit corr mc thr abs 2 = some (dropCorrelated corr mc thr abs 2) := by
    unfold dropCorrelatedFit
    rw [if_neg (by simpa using h1), if_neg (by decide)]
  refine ⟨_, e, ?_⟩
  unfold dropCorrelated
  rw [hs]
  by_cases hm : mc 1 < mc 0
  · have : [(0, 1)].foldl (dropStep mc) [] = [0] := by simp [dropStep, hm]
    rw [this]
    exact ⟨by decide, C139_one_asset ..⟩
  · have : [(0, 1)].foldl (dropStep mc) [] = [1] := by simp [dropStep, hm]
    rw [this]
    exact ⟨by decide, C139_one_asset ..⟩

/-- **C139.** `SelectKExtremes`. -/
theorem C139_k_extremes {K : Type*} [LinearOrder K] (m : ℕ → K) (k : ℤ) (highest : Bool) (n : ℕ) (mask : List Bool) (h : selectKExtremes m k highest n = some mask) :
    ∃ mask', selectKExtremes (pick (keptAssets mask) m) k highest (keptAssets mask).length = some mask' ∧ KeepsAll mask' := by
  have hk : 0 < k := by
    by_contra hk
    rw [(C32_k_must_be_positive m k highest n).2 (not_lt.1 hk)] at h
    cases h
  obtain ⟨mask0, e0, -, c0, -⟩ := C32_k_extremes m k hk highest n
  rw [h] at e0
  injection e0 with e0
  subst e0
  have hlen := keptAssets_length mask
  obtain ⟨mask', e1, l1, c1, -⟩ := C32_k_extremes (pick (keptAssets mask) m) k hk highest (keptAssets mask).length
  refine ⟨mask', e1, ?_⟩
  have hc : nKept mask' = mask'.length := by
    rw [c1, l1, hlen, c0]
    omega
  unfold nKept at hc
  intro b hb
  exact (List.count_eq_length.1 hc b hb).symm

/-! ### SelectNonDominated -/

section ND
variable {K : Type} [Field K] [LinearOrder K]

/-- A portfolio of the assets `l` as a portfolio of all assets. -/
def spread (l : List ℕ) (w : ℕ → K) (k : ℕ) : K := if k ∈ l then w (l.idxOf k) else 0

/-- What the selector says it holds is all it holds: no candidate has a weight other than 0 of at most `1e-5`, the threshold below which `nonzero_assets_index` ignores a weight. -/
def NoTinyWeights (n : ℕ) (corr cov : ℕ → ℕ → K) (thr : K) : Prop := ∀ w ∈ candidates n corr cov thr, ∀ a, w a ≠ 0 → 1 / 10 ^ 5 < |w a|

section
variable (l : List ℕ) (hl : l.Pairwise (· < ·)) (n : ℕ) (hn : ∀ a ∈ l, a < n) (corr cov : ℕ → ℕ → K) (thr : K)

theorem spread_at (hnd : l.Nodup) (w : ℕ → K) (i : ℕ) (hi : i < l.length) : spread l w (l.getD i 0) = w i := by
  unfold spread
  rw [List.getD_eq_getElem _ _ hi, if_pos (List.getElem_mem hi), hnd.idxOf_getElem i hi]

include hl hn in
/-- The candidates of the kept assets are candidates of all assets. -/
theorem spread_candidate (w : ℕ → K) (hw : w ∈ candidates l.length (pick2 l corr) (pick2 l cov) thr) : spread l w ∈ candidates n corr cov thr := by
  have hnd : l.Nodup := hl.imp fun h => h.ne
  have hmem : ∀ i, i < l.length → l.getD i 0 ∈ l := fun i hi => by rw [List.getD_eq_getElem _ _ hi]; exact List.getElem_mem hi
  have hne : ∀ k ∈ l, ∀ i, i < l.length → k ≠ l.getD i 0 → l.idxOf k ≠ i := by
    intro k hk i hi hki he
    refine hki ?_
    rw [List.getD_eq_getElem _ _ hi]
    subst he
    exact (List.getElem_idxOf hi).symm
  rw [C32_candidates] at hw ⊢
  rcases hw with ⟨i, hi, h1, h2⟩ | ⟨i, j, hij, hj, hc, h1, h2, h3⟩
  · refine .inl ⟨l.getD i 0, hn _ (hmem i hi), by rw [spread_at l hnd w i hi, h1], fun k hk => ?_⟩
    unfold spread
    split_ifs with hkl
    · exact h2 _ (hne k hkl i hi hk)
    · rfl
  · have hi := hij.trans hj
    refine .inr ⟨l.getD i 0, l.getD j 0, ?_, hn _ (hmem j hj), hc, ?_, ?_, fun k hk hk' => ?_⟩
    · rw [List.getD_eq_getElem _ _ hi, List.getD_eq_getElem _ _ hj]
      exact hl.rel_get_of_lt (a := ⟨i, hi⟩) (b := ⟨j, hj⟩) hij
    · rw [spread_at l hnd w i hi, h1]
      rfl
    · rw [spread_at l hnd w i hi, spread_at l hnd w j hj, h2]
    · unfold spread
      split_ifs with hkl
      · exact h3 _ (hne k hkl i hi hk) (hne k hkl j hj hk')
      · rfl

include hl in
/-- The candidates that hold kept assets only are candidates of the kept assets. -/
theorem candidate_of_kept [IsStrictOrderedRing K] (w : ℕ → K) (hw : w ∈ candidates n corr cov thr) (hk : ∀ a, w a ≠ 0 → a ∈ l) : ∃ w' ∈ candidates l.length (pick2 l corr) (pick2 l cov) thr, spread l w' = w := by
  have hnd : l.Nodup := hl.imp fun h => h.ne
  have hback : ∀ w' : ℕ → K, (∀ i, i < l.length → w' i = w (l.getD i 0)) → spread l w' = w := by
    intro w' hw'
    funext k
    unfold spread
    split_ifs with hkl
    · have hi := List.idxOf_lt_length_of_mem hkl
      rw [hw' _ hi, List.getD_eq_getElem _ _ hi, List.getElem_idxOf hi]
    · by_contra hne
      exact hkl (hk k fun h => hne h.symm)
  refine ⟨fun i => if i < l.length then w (l.getD i 0) else 0, ?_, hback _ fun i hi => if_pos hi⟩
  rw [C32_candidates] at hw ⊢
  have hinj : ∀ i j, i < l.length → j < l.length → l.getD i 0 = l.getD j 0 → i = j := by
    intro i j hi hj h
    rw [List.getD_eq_getElem _ _ hi, List.getD_eq_getElem _ _ hj] at h
    exact (hnd.getElem_inj_iff).1 h
  have single : ∀ a, a ∈ l → w a = 1 → (∀ k, k ≠ a → w k = 0) → ∃ i < l.length, (if i < l.length then w (l.getD i 0) else 0) = 1 ∧ ∀ k, k ≠ i → (if k < l.length then w (l.getD k 0) else 0) = 0 := by
    intro a ha h1 h2
    obtain ⟨i, hi, rfl⟩ := List.getElem_of_mem ha
    refine ⟨i, hi, ?_, fun k hki => ?_⟩
    · rw [if_pos hi, List.getD_eq_getElem _ _ hi, h1]
    · split_ifs with hkl
      · refine h2 _ fun he => hki (hinj k i hkl hi ?_)
        rw [he, List.getD_eq_getElem _ _ hi]
      · rfl
  rcases hw with ⟨a, -, h1, h2⟩ | ⟨a, b, hab, hb, hc, h1, h2, h3⟩
  · exact .inl (single a (hk a (by rw [h1]; exact one_ne_zero)) h1 h2)
  · by_cases ha0 : w a = 0
    · refine .inl (single b (hk b ?_) ?_ fun k hkb => ?_)
      · rw [h2, ha0, sub_zero]
        exact one_ne_zero
      · rw [h2, ha0, sub_zero]
      · by_cases hka : k = a
        · rw [hka, ha0]
        · exact h3 k hka hkb
    · by_cases hb0 : w b = 0
      · refine .inl (single a (hk a ha0) ?_ fun k hka => ?_)
        · rw [hb0] at h2
          exact (sub_eq_zero.1 h2.symm).symm
        · by_cases hkb : k = b
          · rw [hkb, hb0]
          · exact h3 k hka hkb
      · obtain ⟨i, hi, rfl⟩ := List.getElem_of_mem (hk a ha0)
        obtain ⟨j, hj, rfl⟩ := List.getElem_of_mem (hk b hb0)
        have hij : i < j := by
          by_contra hle
          rcases Nat.eq_or_lt_of_le (Nat.le_of_not_lt hle) with he | hlt
          · subst he
            exact lt_irrefl _ hab
          · exact absurd (hl.rel_get_of_lt (a := ⟨j, hj⟩) (b := ⟨i, hi⟩) hlt) (not_lt.2 hab.le)
        refine .inr ⟨i, j, hij, hj, ?_, ?_, ?_, fun k hki hkj => ?_⟩
        · unfold pick2
          rw [List.getD_eq_getElem _ _ hi, List.getD_eq_getElem _ _ hj]
          exact hc
        · unfold pick2
          rw [if_pos hi, List.getD_eq_getElem _ _ hi, List.getD_eq_getElem _ _ hj, h1]
        · rw [if_pos hi, if_pos hj, List.getD_eq_getElem _ _ hi, List.getD_eq_getElem _ _ hj, h2]
        · split_ifs with hkl
          · refine h3 _ (fun he => hki (hinj k i hkl hi ?_)) (fun he => hkj (hinj k j hkl hj ?_))
            · rw [he, List.getD_eq_getElem _ _ hi]
            · rw [he, List.getD_eq_getElem _ _ hj]
          · rfl

end

theorem candidate_lt (n : ℕ) (corr cov : ℕ → ℕ → K) (thr : K) (w : ℕ → K) (hw : w ∈ candidates n corr cov thr) (a : ℕ) (ha : w a ≠ 0) : a < n := by
  rw [C32_candidates] at hw
  rcases hw with ⟨b, hb, -, h2⟩ | ⟨b, c, hbc, hc, -, -, -, h3⟩
  · by_contra hno
    exact ha (h2 a (by omega))
  · by_contra hno
    exact ha (h3 a (by omega) (by omega))

theorem candidate_holds (n : ℕ) (corr cov : ℕ → ℕ → K) (thr : K) (w : ℕ → K) (hw : w ∈ candidates n corr cov thr) : ∃ a, w a ≠ 0 := by
  rw [C32_candidates] at hw
  rcases hw with ⟨b, -, h1, -⟩ | ⟨b, c, -, -, -, -, h2, -⟩
  · exact ⟨b, by rw [h1]; exact one_ne_zero⟩
  · by_cases hb : w b = 0
    · exact ⟨c, by rw [h2, hb, sub_zero]; exact one_ne_zero⟩
    · exact ⟨b, hb⟩

/-- **C139.** `SelectNonDominated` without a minimum number of assets. -/
theorem C139_non_dominated_first_front [IsStrictOrderedRing K] (n mm : ℕ) (hn : 0 < n) (corr cov : ℕ → ℕ → K) (thr : K) (fitness : (ℕ → K) → List K) (hf : ∀ w, (fitness w).length = mm)
    (ht : NoTinyWeights n corr cov thr) (mask : List Bool) (h : selectNonDominated n none corr cov thr fitness = some mask) :
    ∃ mask', selectNonDominated (keptAssets mask).length none (pick2 (keptAssets mask) corr) (pick2 (keptAssets mask) cov) thr (fun w => fitness (spread (keptAssets mask) w)) = some mask' ∧ KeepsAll mask' := by
  obtain ⟨mask0, e0, l0, k0⟩ := C32_non_dominated_first_front n mm hn corr cov thr fitness hf
  rw [h] at e0
  injection e0 with e0
  subst e0
  set l := keptAssets mask with hl
  have hs : l.Pairwise (· < ·) := keptAssets_sorted mask
  have hln : ∀ a ∈ l, a < n := fun a ha => ((k0 a).1 ((mem_keptAssets mask a).1 ha)).1
  have h0 : l ≠ [] := by
    have hne : (candidates n corr cov thr).map fitness ≠ [] := by
      intro h
      have := congrArg List.length h
      simp [candidates] at this
      omega
    obtain ⟨f, rest, -, hF, h3⟩ := C02_first_front ((candidates n corr cov thr).map fitness) (rect_map mm fitness hf _) hne (candidates n corr cov thr).length (by simp)
    obtain ⟨F, hF', hlay⟩ := C02_fronts_are_pareto_layers ((candidates n corr cov thr).map fitness) (rect_map mm fitness hf _) (candidates n corr cov thr).length (by simp)
    rw [hF] at hF'
    injection hF' with hF'
    have hfne : f ≠ [] := hlay.nonempty f (by rw [← hF']; exact List.mem_cons_self)
    obtain ⟨p, hp⟩ := List.exists_mem_of_ne_nil f hfne
    obtain ⟨hp1, hp2⟩ := (h3 p).1 hp
    rw [List.length_map] at hp1
    obtain ⟨a, ha0⟩ := candidate_holds n corr cov thr _ (List.getElem_mem hp1)
    refine List.ne_nil_of_mem ((mem_keptAssets mask a).2 ((k0 a).2 ⟨candidate_lt n corr cov thr _ (List.getElem_mem hp1) a ha0, _, List.getElem_mem hp1, ht _ (List.getElem_mem hp1) a ha0, ?_⟩))
    rintro ⟨w', hw', hd⟩
    obtain ⟨j, hj, rfl⟩ := List.getElem_of_mem hw'
    exact hp2 ⟨j, by simpa using hj, by simpa using hp1, by simpa using hd⟩
  obtain ⟨mask', e1, l1, k1⟩ := C32_non_dominated_first_front l.length mm (List.length_pos_of_ne_nil h0) (pick2 l corr) (pick2 l cov) thr (fun w => fitness (spread l w)) (fun w => hf _)
  refine ⟨mask', e1, ?_⟩
  rw [keepsAll_iff, l1]
  intro i hi
  rw [k1]
  refine ⟨hi, ?_⟩
  obtain ⟨hlt, w, hw, hwi, hnd⟩ := (k0 l[i]).1 ((mem_keptAssets mask _).1 (List.getElem_mem hi))
  obtain ⟨w', hw', rfl⟩ := candidate_of_kept l hs n corr cov thr w hw fun a ha => by
    exact (mem_keptAssets mask a).2 ((k0 a).2 ⟨candidate_lt n corr cov thr w hw a ha, w, hw, ht w hw a ha, hnd⟩)
  refine ⟨w', hw', ?_, ?_⟩
  · rw [← List.getD_eq_getElem l 0 hi, spread_at l (hs.imp fun h => h.ne) w' i hi] at hwi
    exact hwi
  · rintro ⟨w'', hw'', hd⟩
    exact hnd ⟨_, spread_candidate l hs n hln corr cov thr w'' hw'', hd⟩

/-! The fronts of the kept assets: the first ones are those of all assets. -/

section
variable {N N' : ℕ} {D D' : ℕ → ℕ → Prop} {F F' : List (List ℕ)}

theorem layer_of (h : IsParetoLayers N D F) (i : ℕ) (hi : i < N) : ∃ s, ∃ hs : s < F.length, i ∈ F[s] := by
  have := h.cover.mem_iff.2 (List.mem_range.2 hi)
  obtain ⟨f, hf, hif⟩ := List.mem_flatten.1 this
  obtain ⟨s, hs, rfl⟩ := List.getElem_of_mem hf
  exact ⟨s, hs, hif⟩

theorem mem_take_layers (F : List (List ℕ)) (t i : ℕ) : i ∈ (F.take t).flatten ↔ ∃ s, s < t ∧ ∃ hs : s < F.length, i ∈ F[s] := by
  rw [List.mem_flatten]
  constructor
  · rintro ⟨f, hf, hi⟩
    obtain ⟨s, hs, rfl⟩ := List.getElem_of_mem hf
    rw [List.length_take] at hs
    rw [List.getElem_take] at hi
    exact ⟨s, by omega, by omega, hi⟩
  · rintro ⟨s, hst, hs, hi⟩
    refine ⟨F[s], ?_, hi⟩
    rw [← List.getElem_take (h := by rw [List.length_take]; omega) (j := t)]
    exact List.getElem_mem _

theorem layer_unique (h : IsParetoLayers N D F) (i s t : ℕ) (hs : s < F.length) (ht : t < F.length) (h1 : i ∈ F[s]) (h2 : i ∈ F[t]) : s = t := by
  by_contra hne
  rcases Nat.lt_or_gt_of_ne hne with hlt | hlt
  · exact ((h.layer t ht i).1 h2).2.1 ((mem_take_layers F t i).2 ⟨s, hlt, hs, h1⟩)
  · exact ((h.layer s hs i).1 h1).2.1 ((mem_take_layers F s i).2 ⟨t, hlt, ht, h2⟩)

/-- A dominating index is in an earlier layer. -/
theorem layer_lt (h : IsParetoLayers N D F) (i j s t : ℕ) (hs : s < F.length) (ht : t < F.length) (h1 : i ∈ F[s]) (h2 : j ∈ F[t]) (hd : D j i) : t < s := by
  have := ((h.layer s hs i).1 h1).2.2 j ((h.layer t ht j).1 h2).1 hd
  obtain ⟨r, hr, hrl, hj⟩ := (mem_take_layers F s j).1 this
  rw [layer_unique h j t r ht hrl h2 hj]
  exact hr

/-- A member of a layer is dominated by a member of each earlier one. -/
theorem dominated_from (h : IsParetoLayers N D F) (htr : ∀ a b c, D a b → D b c → D a c) (s : ℕ) : ∀ r (hs : s < F.length), r < s → ∀ i ∈ F[s], ∃ j, ∃ hr : r < F.length, j ∈ F[r] ∧ D j i := by
  induction s using Nat.strong_induction_on with
  | _ s ih =>
    intro r hs hrs i hi
    obtain ⟨a, b, c⟩ := (h.layer s hs i).1 hi
    have hr : r < F.length := hrs.trans hs
    by_contra hno
    push Not at hno
    -- otherwise `i` would be in the layer `r`
    have hmem : i ∈ F[r] := by
      refine (h.layer r hr i).2 ⟨a, fun hm => ?_, fun j hj hd => ?_⟩
      · obtain ⟨q, hq, hql, hqi⟩ := (mem_take_layers F r i).1 hm
        have := layer_unique h i s q hs hql hi hqi
        omega
      · obtain ⟨q, hq, hql, hqj⟩ := (mem_take_layers F s j).1 (c j hj hd)
        rcases Nat.lt_trichotomy q r with hlt | heq | hgt
        · exact (mem_take_layers F r j).2 ⟨q, hlt, hql, hqj⟩
        · subst heq
          exact absurd hd (hno j hql hqj)
        · obtain ⟨k, hk, hkr, hkd⟩ := ih q hq r hql hgt j hqj
          exact absurd (htr k j i hkd hd) (hno k hk hkr)
    have := layer_unique h i s r hs hr hi hmem
    omega

variable (h : IsParetoLayers N D F) (h' : IsParetoLayers N' D' F') (htr : ∀ a b c, D a b → D b c → D a c) (htr' : ∀ a b c, D' a b → D' b c → D' a c) (E : ℕ → ℕ → Prop) (t : ℕ)
  (hdom : ∀ p p' q q', E p p' → E q q' → (D p q ↔ D' p' q')) (hE : ∀ p p', E p p' → p < N ∧ p' < N') (hup : ∀ p' < N', ∃ p, E p p') (hdown : ∀ p ∈ (F.take t).flatten, ∃ p', E p p')
include h h' htr htr' hdom hE hup hdown

/-- Corresponding indices are in the same one of the first `t` layers. -/
theorem layers_agree (s : ℕ) : s < t → ∀ (hs : s < F.length) p p', p ∈ F[s] → E p p' → ∃ hs' : s < F'.length, p' ∈ F'[s] := by
  induction s using Nat.strong_induction_on with
  | _ s ih =>
    intro hst hs p p' hp he
    obtain ⟨r, hr, hpr⟩ := layer_of h' p' (hE p p' he).2
    rcases Nat.lt_trichotomy r s with hlt | heq | hgt
    · obtain ⟨q, hq, hqr, hd⟩ := dominated_from h htr s r hs hlt p hp
      obtain ⟨q', hq'⟩ := hdown q ((mem_take_layers F t q).2 ⟨r, by omega, hq, hqr⟩)
      obtain ⟨hr', hqm⟩ := ih r hlt (by omega) hq q q' hqr hq'
      exact absurd (layer_lt h' p' q' r r hr hr' hpr hqm ((hdom q q' p p' hq' he).1 hd)) (lt_irrefl _)
    · subst heq
      exact ⟨hr, hpr⟩
    · obtain ⟨q', hs', hqs, hd⟩ := dominated_from h' htr' r s hr hgt p' hpr
      obtain ⟨q, hq⟩ := hup q' ((h'.layer s hs' q').1 hqs).1
      obtain ⟨r2, hr2, hqr2⟩ := layer_of h q (hE q q' hq).1
      have hlt := layer_lt h p q s r2 hs hr2 hp hqr2 ((hdom q q' p p' hq he).2 hd)
      obtain ⟨hl2, hq2⟩ := ih r2 hlt (by omega) hr2 q q' hqr2 hq
      have := layer_unique h' q' s r2 hs' hl2 hqs hq2
      omega

theorem layers_agree_conv (s : ℕ) (hst : s < t) (ht : t ≤ F.length) (hs' : s < F'.length) (p p' : ℕ) (hp : p' ∈ F'[s]) (he : E p p') : p ∈ F[s]'(by omega) := by
  obtain ⟨r, hr, hpr⟩ := layer_of h p (hE p p' he).1
  rcases Nat.lt_or_ge r t with hlt | hge
  · obtain ⟨h1, h2⟩ := layers_agree h h' htr htr' E t hdom hE hup hdown r hlt hr p p' hpr he
    have := layer_unique h' p' s r hs' h1 hp h2
    subst this
    exact hpr
  · obtain ⟨q, hq, hqs, hd⟩ := dominated_from h htr r s hr (by omega) p hpr
    obtain ⟨q', hq'⟩ := hdown q ((mem_take_layers F t q).2 ⟨s, hst, hq, hqs⟩)
    obtain ⟨h1, h2⟩ := layers_agree h h' htr htr' E t hdom hE hup hdown s hst hq q q' hqs hq'
    exact absurd (layer_lt h' p' q' s s hs' h1 hp h2 ((hdom q q' p p' hq' he).1 hd)) (lt_irrefl _)

end

theorem row_trans {m : ℕ} (fits : List (List K)) (hr : Rectangular m fits) (a b c : ℕ) (h1 : RowDominates fits a b) (h2 : RowDominates fits b c) : RowDominates fits a c := by
  obtain ⟨ha, hb, h1⟩ := h1
  obtain ⟨_, hc, h2⟩ := h2
  exact ⟨ha, hc, (domAt_iff_dominates hr ha hc).1 (domAt_trans fits a b c ((domAt_iff_dominates hr ha hb).2 h1) ((domAt_iff_dominates hr hb hc).2 h2))⟩

theorem mem_assetsOf (n : ℕ) (corr cov : ℕ → ℕ → K) (thr : K) (p : ℕ) (hp : p < (candidates n corr cov thr).length) (a : ℕ) :
    a ∈ assetsOfCandidate n corr cov thr p ↔ a < n ∧ 1 / 10 ^ 5 < |(candidates n corr cov thr)[p] a| := by
  unfold assetsOfCandidate nonzeroAssets
  rw [List.getD_eq_getElem _ _ hp, List.mem_filter, List.mem_range, decide_eq_true_eq]

/-- **C139.** `SelectNonDominated` with a minimum number of assets. -/
theorem C139_non_dominated_min [IsStrictOrderedRing K] (n m mm : ℕ) (corr cov : ℕ → ℕ → K) (thr : K) (fitness : (ℕ → K) → List K) (hf : ∀ w, (fitness w).length = mm)
    (ht : NoTinyWeights n corr cov thr) (mask : List Bool) (h : selectNonDominated n (some m) corr cov thr fitness = some mask) :
    ∃ mask', selectNonDominated (keptAssets mask).length (some m) (pick2 (keptAssets mask) corr) (pick2 (keptAssets mask) cov) thr (fun w => fitness (spread (keptAssets mask) w)) = some mask' ∧ KeepsAll mask' := by
  by_cases hm : n ≤ m
  · obtain ⟨mask0, e0, c0⟩ := C32_non_dominated_all n m hm corr cov thr fitness
    rw [h] at e0
    injection e0 with e0
    subst e0
    refine ⟨List.replicate (keptAssets mask).length true, ?_, fun b hb => (List.mem_replicate.1 hb).2⟩
    unfold selectNonDominated
    refine if_pos ?_
    rw [keptAssets_length, c0]
    simpa using hm
  obtain ⟨mask0, F, t, e0, l0, htF, hF, k0, c0, min0⟩ := C32_non_dominated_min n m mm (not_le.1 hm) corr cov thr fitness hf
  rw [h] at e0
  injection e0 with e0
  subst e0
  set l := keptAssets mask with hl
  have hs : l.Pairwise (· < ·) := keptAssets_sorted mask
  have hnd : l.Nodup := hs.imp fun h => h.ne
  have hlk : ∀ a, a ∈ l ↔ HeldBy (assetsOfCandidate n corr cov thr) (F.take t).flatten a := fun a => (mem_keptAssets mask a).trans (k0 a)
  have hln : ∀ a ∈ l, a < n := by
    intro a ha
    obtain ⟨p, -, hp⟩ := (hlk a).1 ha
    exact assets_lt n corr cov thr p a hp
  have hml : m < l.length := by rw [hl, keptAssets_length]; exact c0
  obtain ⟨mask', F', t', e1, l1, htF', hF', k1, c1, -⟩ := C32_non_dominated_min l.length m mm hml (pick2 l corr) (pick2 l cov) thr (fun w => fitness (spread l w)) (fun w => hf _)
  refine ⟨mask', e1, ?_⟩
  set C := candidates n corr cov thr with hC
  set C' := candidates l.length (pick2 l corr) (pick2 l cov) thr with hC'
  let E : ℕ → ℕ → Prop := fun p p' => ∃ (hp : p < C.length) (hp' : p' < C'.length), C[p] = spread l C'[p']
  have hdom : ∀ p p' q q', E p p' → E q q' → (RowDominates (C.map fitness) p q ↔ RowDominates (C'.map fun w => fitness (spread l w)) p' q') := by
    rintro p p' q q' ⟨a, a', e⟩ ⟨b, b', f⟩
    unfold RowDominates
    simp only [List.length_map, List.getElem_map]
    constructor
    · rintro ⟨_, _, hd⟩
      exact ⟨a', b', by rw [← e, ← f]; exact hd⟩
    · rintro ⟨_, _, hd⟩
      exact ⟨a, b, by rw [e, f]; exact hd⟩
  have hE : ∀ p p', E p p' → p < C.length ∧ p' < C'.length := fun p p' ⟨a, b, _⟩ => ⟨a, b⟩
  have hup : ∀ p' < C'.length, ∃ p, E p p' := by
    intro p' hp'
    obtain ⟨p, hp, e⟩ := List.getElem_of_mem (spread_candidate l hs n hln corr cov thr _ (List.getElem_mem hp'))
    exact ⟨p, hp, hp', e⟩
  have hdown : ∀ p ∈ (F.take t).flatten, ∃ p', E p p' := by
    intro p hp
    have hpC : p < C.length := by
      obtain ⟨s, -, hs, hps⟩ := (mem_take_layers F t p).1 hp
      exact ((hF.layer s hs p).1 hps).1
    obtain ⟨w', hw', e⟩ := candidate_of_kept l hs n corr cov thr C[p] (List.getElem_mem hpC) fun a ha =>
      (hlk a).2 ⟨p, hp, (mem_assetsOf n corr cov thr p hpC a).2 ⟨candidate_lt n corr cov thr _ (List.getElem_mem hpC) a ha, ht _ (List.getElem_mem hpC) a ha⟩⟩
    obtain ⟨p', hp', e'⟩ := List.getElem_of_mem hw'
    exact ⟨p', hpC, hp', by rw [e', e]⟩
  have htr := row_trans (C.map fitness) (rect_map mm fitness hf C)
  have htr' := row_trans (C'.map fun w => fitness (spread l w)) (rect_map mm (fun w => fitness (spread l w)) (fun _ => hf _) C')
  have hheld : ∀ p p', E p p' → ∀ i < l.length, (l.getD i 0 ∈ assetsOfCandidate n corr cov thr p ↔ i ∈ assetsOfCandidate l.length (pick2 l corr) (pick2 l cov) thr p') := by
    rintro p p' ⟨a, a', e⟩ i hi
    rw [mem_assetsOf n corr cov thr p a, mem_assetsOf l.length (pick2 l corr) (pick2 l cov) thr p' a', e, spread_at l hnd _ i hi]
    have : l.getD i 0 < n := hln _ (by rw [List.getD_eq_getElem _ _ hi]; exact List.getElem_mem hi)
    simp only [this, hi, true_and]
    exact Iff.rfl
  have htt : t ≤ t' := by
    by_contra hlt
    obtain ⟨L, -, hLm, hL⟩ := min0 t' (by omega)
    have hlt' : ∀ i ∈ keptAssets mask', i < l.length := by
      intro i hi
      obtain ⟨q, -, hq⟩ := (k1 i).1 ((mem_keptAssets mask' i).1 hi)
      exact assets_lt _ _ _ _ q i hq
    have hsub : (keptAssets mask').map (fun i => l.getD i 0) ⊆ L := by
      intro a ha
      obtain ⟨i, hi, rfl⟩ := List.mem_map.1 ha
      obtain ⟨p', hp', hip⟩ := (k1 i).1 ((mem_keptAssets mask' i).1 hi)
      obtain ⟨s, hst, hsF, hps⟩ := (mem_take_layers F' t' p').1 hp'
      obtain ⟨p, hp⟩ := hup p' ((hF'.layer s hsF p').1 hps).1
      have := layers_agree_conv hF hF' htr htr' E t hdom hE hup hdown s (by omega) htF hsF p p' hps hp
      exact (hL _).2 ⟨p, (mem_take_layers F t' p).2 ⟨s, hst, by omega, this⟩, (hheld p p' hp i (hlt' i hi)).2 hip⟩
    have hnd' : ((keptAssets mask').map fun i => l.getD i 0).Nodup := by
      have hnk : (keptAssets mask').Nodup := (keptAssets_sorted mask').imp fun h => h.ne
      refine hnk.map_on fun i hi j hj hij => ?_
      rw [List.getD_eq_getElem _ _ (hlt' i hi), List.getD_eq_getElem _ _ (hlt' j hj)] at hij
      exact hnd.getElem_inj_iff.1 hij
    have := (hnd'.subperm hsub).length_le
    rw [List.length_map, keptAssets_length] at this
    omega
  rw [keepsAll_iff, l1]
  intro i hi
  rw [k1]
  obtain ⟨p, hp, hip⟩ := (hlk l[i]).1 (List.getElem_mem hi)
  obtain ⟨s, hst, hsF, hps⟩ := (mem_take_layers F t p).1 hp
  obtain ⟨p', hp'⟩ := hdown p hp
  obtain ⟨hs', hps'⟩ := layers_agree hF hF' htr htr' E t hdom hE hup hdown s hst hsF p p' hps hp'
  refine ⟨p', (mem_take_layers F' t' p').2 ⟨s, by omega, hs', hps'⟩, (hheld p p' hp' i hi).1 ?_⟩
  rw [List.getD_eq_getElem _ _ hi]
  exact hip

end ND

/-! ### Examples and a finding -/

/-- Correlations of three assets: the first two move in opposite directions. -/
def hedgeCorr (i j : ℕ) : ℚ := if i = j then 1 else if i + j = 1 then -1 else 0

/-- Mean and variance of portfolios of three assets, of which the third is the worst: twice the variance and no more return. -/
def hedgeFitness (w : ℕ → ℚ) : List ℚ := [w 0 + w 1 + w 2, -(w 0 ^ 2 + w 1 ^ 2 + 2 * w 2 ^ 2 - 2 * w 0 * w 1)]

/-- The hypotheses of the theorems on `SelectNonDominated`: of three assets the two that hedge each other are kept. -/
example : NoTinyWeights 3 hedgeCorr hedgeCorr (-1 / 2) ∧ selectNonDominated 3 none hedgeCorr hedgeCorr (-1 / 2) hedgeFitness = some [true, true, false] ∧
    selectNonDominated 3 (some 1) hedgeCorr hedgeCorr (-1 / 2) hedgeFitness = some [true, true, false] := by
  refine ⟨?_, by decide +kernel, by decide +kernel⟩
  intro w hw a ha
  rw [C32_candidates] at hw
  rcases hw with ⟨i, -, h1, h2⟩ | ⟨i, j, hij, hj, hc, h1, h2, h3⟩
  · by_cases hai : a = i
    · rw [hai, h1]
      norm_num
    · exact absurd (h2 a hai) ha
  · have hij1 : i = 0 ∧ j = 1 := by
      unfold hedgeCorr at hc
      split_ifs at hc with e1 e2
      · norm_num at hc
      · omega
      · norm_num at hc
    obtain ⟨rfl, rfl⟩ := hij1
    have e : w 0 = 1 / 2 := by
      rw [h1]
      norm_num [pairWeight, hedgeCorr]
    by_cases ha0 : a = 0
    · rw [ha0, e, abs_of_pos (by norm_num)]
      norm_num
    · by_cases ha1 : a = 1
      · rw [ha1, h2, e, abs_of_pos (by norm_num)]
        norm_num
      · exact absurd (h3 a ha0 ha1) ha

/-- Four assets, the first two strongly correlated: one is dropped, and the selection of the remaining three keeps them (with any mean correlations). -/
example : dropCorrelatedFit (fun i j => if i = j then 1 else if i + j = 1 then (9 / 10 : ℚ) else 1 / 10) (fun i => if i = 0 then 1 else 0) (1 / 2) false 4 = some [false, true, true, true] ∧
    keptAssets [false, true, true, true] = [1, 2, 3] ∧ nKept [false, true, true, true] = 3 := by
  decide +kernel

example : selectKExtremes (fun i => ([3, 1, 2] : List ℚ).getD i 0) 2 true 3 = some [true, false, true] ∧
    selectKExtremes (pick [0, 2] fun i => ([3, 1, 2] : List ℚ).getD i 0) 2 true 2 = some [true, true] := by
  decide +kernel

/-- Variances and covariances of three assets: the first, a million times as volatile as the second, has correlation -0.6 with it. -/
def tinyCov (i j : ℕ) : ℚ := if i = j then (if i = 0 then 10 ^ 12 else if i = 1 then 1 else 9 / 10) else if i + j = 1 then -(6 * 10 ^ 5) else 0

def tinyCorr (i j : ℕ) : ℚ := if i = j then 1 else if i + j = 1 then -(6 / 10) else 0

/-- Expected returns -1, 1 and 2; mean and variance. -/
def tinyFitness (w : ℕ → ℚ) : List ℚ :=
  [-w 0 + w 1 + 2 * w 2, -(w 0 ^ 2 * 10 ^ 12 + w 1 ^ 2 + w 2 ^ 2 * (9 / 10) - 2 * w 0 * w 1 * (6 * 10 ^ 5))]

/-- **C139** (finding). Weights of at most `1e-5` are ignored when the assets of the best portfolios are collected: the second asset is kept for its portfolio with the first, whose weight is too small for the first to be kept as well.
Without the first asset that portfolio does not exist and a second selection drops the second asset. -/
theorem C139_tiny_weights : selectNonDominated 3 none tinyCorr tinyCov (-1 / 2) tinyFitness = some [false, true, true] ∧
    selectNonDominated 2 none (pick2 (keptAssets [false, true, true]) tinyCorr) (pick2 (keptAssets [false, true, true]) tinyCov) (-1 / 2) (fun w => tinyFitness (spread (keptAssets [false, true, true]) w)) = some [false, true] := by
  decide +kernel

end Skfolio.Selection
