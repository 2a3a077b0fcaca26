import Verif.Selection.DropTheorems
import Verif.Sorting.Theorems
import Mathlib.Data.List.Nodup
import Mathlib.Algebra.Order.BigOperators.Group.List
import Mathlib.Tactic.FieldSimp
import Mathlib.Tactic.Linarith
import Mathlib.Tactic.Ring
import Mathlib.Tactic.Positivity

/-!
# SelectKExtremes, SelectNonDominated and the other selectors: the claims
-/

set_option autoImplicit false

namespace Skfolio.Selection

open Sorting

/-- Number of assets kept by a mask. -/
def nKept (mask : List Bool) : ℕ := mask.count true

theorem nKept_mask (n : ℕ) (sel : List ℕ) (hnd : sel.Nodup) (hlt : ∀ i ∈ sel, i < n) :
    nKept ((List.range n).map fun i => decide (i ∈ sel)) = sel.length := by
  unfold nKept
  rw [List.count, List.countP_map, List.countP_eq_length_filter]
  apply List.Perm.length_eq
  rw [List.perm_ext_iff_of_nodup (List.nodup_range.filter _) hnd]
  intro a
  simp only [List.mem_filter, List.mem_range, Function.comp_apply, beq_iff_eq, decide_eq_true_eq]
  exact ⟨fun h => h.2, fun h => ⟨hlt a h, h⟩⟩

theorem kept_mask_iff (n : ℕ) (sel : List ℕ) (hlt : ∀ i ∈ sel, i < n) (i : ℕ) :
    Kept ((List.range n).map fun i => decide (i ∈ sel)) i ↔ i ∈ sel := by
  unfold Kept
  by_cases h : i < n
  · simp [h]
  · simp only [List.getElem?_map]
    rw [List.getElem?_eq_none (by simpa using h)]
    simp only [Option.map_none, reduceCtorEq, false_iff]
    exact fun hi => h (hlt i hi)

section KExtremes
variable {K : Type*} [LinearOrder K]

theorem perm_sortMeasure (m : ℕ → K) (r : Bool) (l : List ℕ) : (sortMeasure m r l).Perm l := by
  unfold sortMeasure
  split_ifs <;> exact List.perm_insertionSort _ _

theorem pairwise_sortMeasure (m : ℕ → K) (r : Bool) (l : List ℕ) :
    (sortMeasure m r l).Pairwise fun i j => if r then m j ≤ m i else m i ≤ m j := by
  unfold sortMeasure
  cases r
  · simp only [Bool.false_eq_true, if_false]
    have : Std.Total (fun i j : ℕ => m i ≤ m j) := ⟨fun _ _ => le_total _ _⟩
    have : IsTrans ℕ (fun i j : ℕ => m i ≤ m j) := ⟨fun _ _ _ h1 h2 => le_trans h1 h2⟩
    exact List.pairwise_insertionSort _ _
  · simp only [if_true]
    have : Std.Total (fun i j : ℕ => m j ≤ m i) := ⟨fun _ _ => le_total _ _⟩
    have : IsTrans ℕ (fun i j : ℕ => m j ≤ m i) := ⟨fun _ _ _ h1 h2 => le_trans h2 h1⟩
    exact List.pairwise_insertionSort _ _

/-- C32, `SelectKExtremes`: exactly `min k n` assets are kept, and every kept asset is at least as extreme as every dropped
one. -/
theorem C32_k_extremes (m : ℕ → K) (k : ℤ) (hk : 0 < k) (highest : Bool) (n : ℕ) :
    ∃ mask, selectKExtremes m k highest n = some mask ∧ mask.length = n ∧ nKept mask = min k.toNat n ∧
      ∀ i j, Kept mask i → j < n → ¬ Kept mask j → if highest then m j ≤ m i else m i ≤ m j := by
  unfold selectKExtremes
  rw [if_neg (not_le.mpr hk)]
  set S := sortMeasure m highest (List.range n) with hS
  have hperm : S.Perm (List.range n) := perm_sortMeasure _ _ _
  have hnd : S.Nodup := hperm.nodup_iff.mpr List.nodup_range
  have hlt : ∀ i ∈ S.take k.toNat, i < n := fun i hi =>
    List.mem_range.mp (hperm.mem_iff.mp (List.mem_of_mem_take hi))
  refine ⟨_, rfl, by simp, ?_, ?_⟩
  · rw [nKept_mask n _ (hnd.sublist (List.take_sublist _ _)) hlt, List.length_take, hperm.length_eq,
      List.length_range]
  · intro i j hi hj hjn
    rw [kept_mask_iff n _ hlt] at hi hjn
    have hjS : j ∈ S := hperm.mem_iff.mpr (List.mem_range.mpr hj)
    rw [← List.take_append_drop k.toNat S, List.mem_append] at hjS
    have hjd : j ∈ S.drop k.toNat := hjS.resolve_left hjn
    have hpw := pairwise_sortMeasure m highest (List.range n)
    rw [← hS, ← List.take_append_drop k.toNat S, List.pairwise_append] at hpw
    exact hpw.2.2 i hi j hjd

/-- C32, `SelectKExtremes`: a non-positive `k` is rejected. -/
theorem C32_k_must_be_positive (m : ℕ → K) (k : ℤ) (highest : Bool) (n : ℕ) :
    selectKExtremes m k highest n = none ↔ k ≤ 0 := by
  unfold selectKExtremes
  split_ifs with h <;> simp [h]

example : selectKExtremes (fun i => ([3, 1, 2] : List ℚ).getD i 0) 2 true 3 = some [true, false, true] := by
  decide +kernel

end KExtremes

section ND
variable {K : Type} [Field K] [LinearOrder K]

/-- Assets held (weight above the reporting threshold) by one of the portfolios of `idx`. -/
def HeldBy (assetsOf : ℕ → List ℕ) (idx : List ℕ) (a : ℕ) : Prop := ∃ p ∈ idx, a ∈ assetsOf p

theorem mem_foldl_union (assetsOf : ℕ → List ℕ) (front acc : List ℕ) (a : ℕ) :
    a ∈ front.foldl (fun s idx => s ∪ assetsOf idx) acc ↔ a ∈ acc ∨ HeldBy assetsOf front a := by
  induction front generalizing acc with
  | nil => simp [HeldBy]
  | cons p l ih =>
    rw [List.foldl_cons, ih, List.mem_union_iff]
    unfold HeldBy
    constructor
    · rintro ((h | h) | ⟨q, hq, h⟩)
      · exact .inl h
      · exact .inr ⟨p, by simp, h⟩
      · exact .inr ⟨q, by simp [hq], h⟩
    · rintro (h | ⟨q, hq, h⟩)
      · exact .inl (.inl h)
      · rcases List.mem_cons.mp hq with rfl | hq
        · exact .inl (.inr h)
        · exact .inr ⟨q, hq, h⟩

theorem nodup_foldl_union (assetsOf : ℕ → List ℕ) (hnd : ∀ p, (assetsOf p).Nodup) (front acc : List ℕ)
    (hacc : acc.Nodup) : (front.foldl (fun s idx => s ∪ assetsOf idx) acc).Nodup := by
  induction front generalizing acc with
  | nil => exact hacc
  | cons p l ih =>
    rw [List.foldl_cons]
    exact ih _ ((hnd p).union acc)

/-- What the collection loop returns: the assets of the first `t` fronts for some `t`, where `t` is everything or the first
time the count exceeds the minimum. -/
theorem collect_spec (assetsOf : ℕ → List ℕ) (hnd : ∀ p, (assetsOf p).Nodup) (minN : Option ℕ)
    (F : List (List ℕ)) (acc : List ℕ) (hacc : acc.Nodup) :
    (collect assetsOf minN F acc).Nodup ∧
    ∃ t ≤ F.length, (∀ a, a ∈ collect assetsOf minN F acc ↔ a ∈ acc ∨ HeldBy assetsOf (F.take t).flatten a) ∧
      (t = F.length ∨ ∃ m, minN = some m ∧ m < (collect assetsOf minN F acc).length) ∧
      (∀ m, minN = some m → ∀ s < t, ∃ L : List ℕ, L.Nodup ∧ L.length ≤ m ∧
        ∀ a, a ∈ L ↔ a ∈ acc ∨ HeldBy assetsOf (F.take s).flatten a) := by
  induction F generalizing acc with
  | nil => exact ⟨hacc, 0, le_rfl, by simp [collect, HeldBy], .inl rfl, by simp⟩
  | cons f F ih =>
    unfold collect
    split_ifs with h
    · refine ⟨hacc, 0, by simp, by simp [HeldBy], .inr ?_, by simp⟩
      cases minN with
      | none => simp at h
      | some m => exact ⟨m, rfl, by simpa using h⟩
    · obtain ⟨i0, t, ht, i1, i2, i3⟩ := ih _ (nodup_foldl_union assetsOf hnd f acc hacc)
      have key : ∀ s a, (a ∈ f.foldl (fun s idx => s ∪ assetsOf idx) acc ∨ HeldBy assetsOf (F.take s).flatten a) ↔
          (a ∈ acc ∨ HeldBy assetsOf ((f :: F).take (s + 1)).flatten a) := by
        intro s a
        rw [mem_foldl_union, or_assoc]
        apply or_congr Iff.rfl
        simp only [HeldBy, List.take_succ_cons, List.flatten_cons, List.mem_append, or_and_right, exists_or]
      refine ⟨i0, t + 1, by simpa using ht, ?_, ?_, ?_⟩
      · intro a; rw [i1, key]
      · exact i2.imp (fun h => by simp [h]) id
      · intro m hm s hs
        cases s with
        | zero =>
          subst hm
          refine ⟨acc, hacc, by simpa using h, by simp [HeldBy]⟩
        | succ s =>
          obtain ⟨L, h1, h2, h3⟩ := i3 m hm s (by omega)
          exact ⟨L, h1, h2, fun a => by rw [h3, key]⟩

/-- The assets held by candidate number `p`. -/
def assetsOfCandidate (n : ℕ) (corr cov : ℕ → ℕ → K) (thr : K) (p : ℕ) : List ℕ :=
  nonzeroAssets n ((candidates n corr cov thr).getD p fun _ => 0)

theorem nodup_assets (n : ℕ) (corr cov : ℕ → ℕ → K) (thr : K) (p : ℕ) :
    (assetsOfCandidate n corr cov thr p).Nodup := List.nodup_range.filter _

theorem assets_lt (n : ℕ) (corr cov : ℕ → ℕ → K) (thr : K) (p a : ℕ)
    (h : a ∈ assetsOfCandidate n corr cov thr p) : a < n := by
  simpa using (List.mem_filter.mp h).1

theorem single_asset [IsStrictOrderedRing K] (n : ℕ) (corr cov : ℕ → ℕ → K) (thr : K) (i : ℕ) (hi : i < n) :
    i < (candidates n corr cov thr).length ∧ i ∈ assetsOfCandidate n corr cov thr i := by
  have hl : i < (candidates n corr cov thr).length := by
    unfold candidates; rw [List.length_append, List.length_map, List.length_range]; omega
  refine ⟨hl, ?_⟩
  unfold assetsOfCandidate nonzeroAssets
  rw [List.mem_filter]
  refine ⟨List.mem_range.mpr hi, ?_⟩
  rw [List.getD_eq_getElem _ _ hl]
  have e : (candidates n corr cov thr)[i] = fun j => if j = i then 1 else 0 := by
    simp only [candidates]
    rw [List.getElem_append_left (by simpa using hi)]
    simp
  rw [e]
  simp only [if_true, abs_one, decide_eq_true_eq]
  rw [div_lt_one (by positivity)]
  norm_num

omit [Field K] [LinearOrder K] in
theorem rect_map (mm : ℕ) (fitness : (ℕ → K) → List K) (hf : ∀ w, (fitness w).length = mm) (pop : List (ℕ → K)) :
    Rectangular mm (pop.map fitness) := by
  intro f h
  obtain ⟨w, -, rfl⟩ := List.mem_map.mp h
  exact hf w

/-- C32, `SelectNonDominated` with a minimum number of assets below the number of assets: the kept assets are those held by
the portfolios of the first `t` Pareto fronts of the candidates, more than `m` assets are kept, and the first `s < t`
fronts alone hold at most `m`. -/
theorem C32_non_dominated_min [IsStrictOrderedRing K] (n m mm : ℕ) (hm : m < n) (corr cov : ℕ → ℕ → K) (thr : K)
    (fitness : (ℕ → K) → List K) (hf : ∀ w, (fitness w).length = mm) :
    ∃ mask F t, selectNonDominated n (some m) corr cov thr fitness = some mask ∧ mask.length = n ∧ t ≤ F.length ∧
      IsParetoLayers (candidates n corr cov thr).length
        (RowDominates ((candidates n corr cov thr).map fitness)) F ∧
      (∀ a, Kept mask a ↔ HeldBy (assetsOfCandidate n corr cov thr) (F.take t).flatten a) ∧
      m < nKept mask ∧
      ∀ s < t, ∃ L : List ℕ, L.Nodup ∧ L.length ≤ m ∧
        ∀ a, a ∈ L ↔ HeldBy (assetsOfCandidate n corr cov thr) (F.take s).flatten a := by
  obtain ⟨F, h1, h2⟩ := C02_fronts_are_pareto_layers ((candidates n corr cov thr).map fitness)
    (rect_map mm fitness hf _) (candidates n corr cov thr).length (by simp)
  obtain ⟨c0, t, ht, c1, c2, c3⟩ := collect_spec (assetsOfCandidate n corr cov thr)
    (nodup_assets n corr cov thr) (some m) F [] List.nodup_nil
  rw [List.length_map] at h2
  have hlt : ∀ i ∈ collect (assetsOfCandidate n corr cov thr) (some m) F [], i < n := by
    intro i hi
    rcases (c1 i).mp hi with h | ⟨p, -, h⟩
    · simp at h
    · exact assets_lt _ _ _ _ _ _ h
  refine ⟨(List.range n).map fun i => decide (i ∈ collect (assetsOfCandidate n corr cov thr) (some m) F []), F, t,
    ?_, by simp, ht, h2, ?_, ?_, ?_⟩
  · unfold selectNonDominated
    simp only [decide_eq_true_eq]
    rw [if_neg (by omega)]
    simp only [Option.isNone_some]
    rw [h1]
    rfl
  · intro a
    rw [kept_mask_iff n _ hlt, c1]
    simp
  · rw [nKept_mask n _ c0 hlt]
    rcases c2 with hT | ⟨m', hm', h⟩
    · refine hm.trans_le ?_
      have hsub : List.range n ⊆ collect (assetsOfCandidate n corr cov thr) (some m) F [] := by
        intro i hi
        rw [List.mem_range] at hi
        obtain ⟨hl, hs⟩ := single_asset n corr cov thr i hi
        rw [c1]
        refine .inr ⟨i, ?_, hs⟩
        rw [hT, List.take_length]
        exact h2.cover.mem_iff.mpr (List.mem_range.mpr hl)
      simpa using (List.nodup_range.subperm hsub).length_le
    · obtain rfl : m = m' := by simpa using hm'
      exact h
  · intro s hs
    obtain ⟨L, l1, l2, l3⟩ := c3 m rfl s hs
    exact ⟨L, l1, l2, fun a => by rw [l3]; simp⟩

/-- C32, `SelectNonDominated`: when the minimum number of assets is at least the number of assets, all are kept. -/
theorem C32_non_dominated_all (n m : ℕ) (hm : n ≤ m) (corr cov : ℕ → ℕ → K) (thr : K)
    (fitness : (ℕ → K) → List K) :
    ∃ mask, selectNonDominated n (some m) corr cov thr fitness = some mask ∧ nKept mask = n := by
  refine ⟨List.replicate n true, ?_, by simp [nKept]⟩
  unfold selectNonDominated
  simp [hm]

/-- C32, `SelectNonDominated` without a minimum: kept are exactly the assets held by a candidate portfolio that no candidate
dominates. -/
theorem C32_non_dominated_first_front (n mm : ℕ) (hn : 0 < n) (corr cov : ℕ → ℕ → K) (thr : K)
    (fitness : (ℕ → K) → List K) (hf : ∀ w, (fitness w).length = mm) :
    ∃ mask, selectNonDominated n none corr cov thr fitness = some mask ∧ mask.length = n ∧
      ∀ a, Kept mask a ↔ a < n ∧ ∃ w ∈ candidates n corr cov thr, 1 / 10 ^ 5 < |w a| ∧
        ¬ ∃ w' ∈ candidates n corr cov thr, Dominates (fitness w') (fitness w) := by
  have hne : (candidates n corr cov thr).map fitness ≠ [] := by
    intro h
    have := congrArg List.length h
    simp [candidates] at this
    omega
  obtain ⟨f, rest, h1, -, h3⟩ := C02_first_front ((candidates n corr cov thr).map fitness)
    (rect_map mm fitness hf _) hne (candidates n corr cov thr).length (by simp)
  have hc : collect (assetsOfCandidate n corr cov thr) none [f] [] =
      f.foldl (fun s idx => s ∪ assetsOfCandidate n corr cov thr idx) [] := by
    simp [collect]
  have hlt : ∀ i ∈ collect (assetsOfCandidate n corr cov thr) none [f] [], i < n := by
    intro i hi
    rw [hc, mem_foldl_union] at hi
    rcases hi with h | ⟨p, -, h⟩
    · simp at h
    · exact assets_lt _ _ _ _ _ _ h
  refine ⟨(List.range n).map fun i => decide (i ∈ collect (assetsOfCandidate n corr cov thr) none [f] []),
    ?_, by simp, ?_⟩
  · unfold selectNonDominated
    simp only [Bool.false_eq_true, if_false, Option.isNone_none]
    rw [h1]
    rfl
  · intro a
    rw [kept_mask_iff n _ hlt, hc, mem_foldl_union]
    simp only [List.not_mem_nil, false_or, HeldBy]
    constructor
    · rintro ⟨p, hp, ha⟩
      obtain ⟨hp1, hp2⟩ := (h3 p).mp hp
      rw [List.length_map] at hp1
      unfold assetsOfCandidate nonzeroAssets at ha
      rw [List.getD_eq_getElem _ _ hp1, List.mem_filter] at ha
      refine ⟨List.mem_range.mp ha.1, _, List.getElem_mem hp1, by simpa using ha.2, ?_⟩
      rintro ⟨w', hw', hd⟩
      obtain ⟨j, hj, rfl⟩ := List.getElem_of_mem hw'
      exact hp2 ⟨j, by simpa using hj, by simpa using hp1, by simpa using hd⟩
    · rintro ⟨han, w, hw, ha, hd⟩
      obtain ⟨p, hp, rfl⟩ := List.getElem_of_mem hw
      refine ⟨p, (h3 p).mpr ⟨by simpa using hp, ?_⟩, ?_⟩
      · rintro ⟨j, hj, hp', hdd⟩
        exact hd ⟨_, List.getElem_mem (by simpa using hj), by simpa using hdd⟩
      · unfold assetsOfCandidate nonzeroAssets
        rw [List.getD_eq_getElem _ _ hp, List.mem_filter]
        exact ⟨List.mem_range.mpr han, by simpa using ha⟩

/-- C32: the pair portfolio has the smallest variance among all weights `(w, 1 - w)` of the two assets. -/
theorem C32_pair_is_min_variance [IsStrictOrderedRing K] (v1 v2 c : K) (h : 0 < v1 + v2 - 2 * c) (w : K) :
    (pairWeight v1 v2 c) ^ 2 * v1 + (1 - pairWeight v1 v2 c) ^ 2 * v2 +
        2 * pairWeight v1 v2 c * (1 - pairWeight v1 v2 c) * c ≤
      w ^ 2 * v1 + (1 - w) ^ 2 * v2 + 2 * w * (1 - w) * c := by
  have hw : pairWeight v1 v2 c * (v1 + v2 - 2 * c) = v2 - c := by
    unfold pairWeight; exact div_mul_cancel₀ _ h.ne'
  nlinarith [mul_nonneg h.le (sq_nonneg (w - pairWeight v1 v2 c))]

/-- C32: the candidate portfolios are the single assets and, for each pair with correlation below the threshold, the
portfolio with weight `p` in the first, `1 - p` in the second and nothing elsewhere. -/
theorem C32_candidates (n : ℕ) (corr cov : ℕ → ℕ → K) (thr : K) (w : ℕ → K) :
    w ∈ candidates n corr cov thr ↔
      (∃ i < n, w i = 1 ∧ ∀ k, k ≠ i → w k = 0) ∨
      ∃ i j, i < j ∧ j < n ∧ corr i j < thr ∧
        w i = pairWeight (cov i i) (cov j j) (cov i j) ∧ w j = 1 - w i ∧ ∀ k, k ≠ i → k ≠ j → w k = 0 := by
  unfold candidates
  rw [List.mem_append]
  apply or_congr
  · rw [List.mem_map]
    constructor
    · rintro ⟨i, hi, rfl⟩
      exact ⟨i, List.mem_range.mp hi, by simp, fun k hk => by simp [hk]⟩
    · rintro ⟨i, hi, h1, h2⟩
      refine ⟨i, List.mem_range.mpr hi, funext fun k => ?_⟩
      by_cases hk : k = i
      · subst hk; simp [h1]
      · simp [hk, h2 k hk]
  · rw [List.mem_map]
    constructor
    · rintro ⟨⟨i, j⟩, hp, rfl⟩
      rw [List.mem_filter] at hp
      have h := (mem_triuIndices n (i, j)).mp hp.1
      simp only at h
      have hij : i ≠ j := by omega
      exact ⟨i, j, h.1, h.2, by simpa using hp.2, by simp [hij], by simp [hij], fun k hk hk' => by simp [hk, hk']⟩
    · rintro ⟨i, j, hij, hj, hc, h1, h2, h3⟩
      refine ⟨(i, j), List.mem_filter.mpr ⟨(mem_triuIndices n (i, j)).mpr ⟨hij, hj⟩, by simpa using hc⟩,
        funext fun k => ?_⟩
      by_cases hk : k = j
      · subst hk; simp [h2, h1]
      · by_cases hk' : k = i
        · subst hk'; simp [hk, h1]
        · simp [hk, hk', h3 k hk' hk]

end ND

/-- Three assets ranked by one measure; correlations of 1 so that no pair is a candidate. -/
def exFit (w : ℕ → ℚ) : List ℚ := [2 * w 0 + w 1]

/-- C32, finding: the loop stops only once *more* than `min_n_assets` assets are collected.  Here the first front holds
exactly the requested one asset, yet the second front is added. -/
theorem C32_superfluous_front :
    selectNonDominated 3 (some 1) (fun _ _ => 1) (fun _ _ => 1) (-1 / 2) exFit = some [true, true, false] ∧
    selectNonDominated 3 none (fun _ _ => 1) (fun _ _ => 1) (-1 / 2) exFit = some [true, false, false] := by
  decide +kernel

/-- Two negatively correlated assets: the pair is a candidate and, for the fitness "minus variance", the only
non-dominated one. -/
example : selectNonDominated 3 none (fun i j => if i = j then 1 else if i + j = 1 then -1 / 1 else 0)
    (fun i j => if i = j then 1 else if i + j = 1 then -1 / 1 else 0) (-1 / 2)
    (fun w => [-(w 0 ^ 2 + w 1 ^ 2 + w 2 ^ 2 - 2 * w 0 * w 1 : ℚ)]) = some [true, true, false] := by
  decide +kernel

/-! ### The other selectors -/

/-- C32, `SelectComplete`: an asset is kept iff it has no missing value, or, with `drop_assets_with_internal_nan=False`, iff
its first and last values are present. -/
theorem C32_select_complete {K : Type*} (drop : Bool) (columns : List (List (Option K)))
    (hne : ∀ c ∈ columns, c ≠ []) (i : ℕ) :
    Kept (selectComplete drop columns) i ↔ ∃ col, columns[i]? = some col ∧
      if drop then ∀ x ∈ col, x ≠ none
      else (∃ a rest, col = some a :: rest) ∧ ∃ b front, col = front ++ [some b] := by
  unfold Kept selectComplete
  rw [List.getElem?_map]
  cases h : columns[i]? with
  | none => simp
  | some col =>
    have hc := hne col (List.mem_of_getElem? h)
    simp only [Option.map_some, Option.some.injEq, exists_eq_left']
    cases drop
    · simp only [Bool.false_eq_true, if_false, Bool.and_eq_true, Bool.not_eq_true']
      apply and_congr
      · cases col with
        | nil => exact absurd rfl hc
        | cons a l => cases a <;> simp
      · obtain ⟨f, b, rfl⟩ : ∃ f b, col = f ++ [b] := ⟨_, _, (List.dropLast_append_getLast hc).symm⟩
        rw [List.getLast?_concat]
        cases b with
        | none => simp
        | some b => simp
    · simp only [if_true, Bool.not_eq_true', List.any_eq_false, Option.isNone_iff_eq_none]

/-- C32, `SelectNonExpiring`: an asset is kept iff it has no known expiration date at or before the cutoff. -/
theorem C32_select_non_expiring {D : Type*} [LinearOrder D] (expiration : List (String × D)) (maxDate cutoff : D)
    (hmax : cutoff < maxDate) (columns : List String) (i : ℕ) :
    Kept (selectNonExpiring expiration maxDate cutoff columns) i ↔
      ∃ a, columns[i]? = some a ∧ ∀ d, expiration.lookup a = some d → cutoff < d := by
  unfold Kept selectNonExpiring
  rw [List.getElem?_map]
  cases h : columns[i]? with
  | none => simp
  | some a =>
    simp only [Option.map_some, Option.some.injEq, decide_eq_true_eq, exists_eq_left']
    cases expiration.lookup a with
    | none => simpa using hmax
    | some d => simp

/-- C32, `DropZeroVariance` with threshold 0: an asset is kept iff its column takes two different values. -/
theorem C32_drop_zero_variance {K : Type*} [Field K] [LinearOrder K] [IsStrictOrderedRing K]
    (columns : List (List K)) :
    ∃ mask, dropZeroVariance 0 columns = some mask ∧ ∀ i, Kept mask i ↔
      ∃ col, columns[i]? = some col ∧ ∃ x ∈ col, ∃ y ∈ col, x ≠ y := by
  refine ⟨_, by unfold dropZeroVariance; rw [if_neg (lt_irrefl 0)], fun i => ?_⟩
  unfold Kept
  rw [List.getElem?_map]
  cases h : columns[i]? with
  | none => simp
  | some col =>
    simp only [Option.map_some, Option.some.injEq, decide_eq_true_eq, exists_eq_left']
    unfold colVar
    have hnn : ∀ z ∈ col.map fun x => (x - colMean col) ^ 2, 0 ≤ z := by
      intro z hz
      obtain ⟨x, -, rfl⟩ := List.mem_map.mp hz
      positivity
    constructor
    · intro hpos
      by_contra hno
      push Not at hno
      cases col with
      | nil => simp at hpos
      | cons a l =>
        have hall : ∀ x ∈ a :: l, x = a := fun x hx => hno x hx a (by simp)
        have hmean : colMean (a :: l) = a := by
          unfold colMean
          rw [List.eq_replicate_of_mem hall, List.sum_replicate, List.length_replicate, nsmul_eq_mul]
          have : ((a :: l).length : K) ≠ 0 := by simp; positivity
          field_simp
        have hz : ((a :: l).map fun x => (x - colMean (a :: l)) ^ 2).sum = 0 := by
          rw [hmean]
          apply List.sum_eq_zero
          intro z hz
          obtain ⟨x, hx, rfl⟩ := List.mem_map.mp hz
          rw [hall x hx]; ring
        rw [hz, zero_div] at hpos
        exact lt_irrefl _ hpos
    · rintro ⟨x, hx, y, hy, hxy⟩
      have hlen : (0 : K) < col.length := by
        exact_mod_cast List.length_pos_of_mem hx
      apply div_pos _ hlen
      obtain ⟨z, hz, hzn⟩ : ∃ z ∈ col, z ≠ colMean col := by
        by_contra hno
        push Not at hno
        exact hxy ((hno x hx).trans (hno y hy).symm)
      refine lt_of_lt_of_le ?_ (List.single_le_sum hnn _ (List.mem_map.mpr ⟨z, hz, rfl⟩))
      have : z - colMean col ≠ 0 := sub_ne_zero.mpr hzn
      positivity

example : dropZeroVariance 0 [[1, 1, 1], [1, 2, (1 : ℚ)]] = some [false, true] := by decide +kernel
example : selectComplete false [[some 1, none, some (2 : ℚ)], [none, some 1, some 2]] = [true, false] := by decide
example : selectNonExpiring [("a", 5), ("b", 9)] 100 7 ["a", "b", "c"] = [false, true, true] := by decide

end Skfolio.Selection
