import Verif.Hierarchical.UncorrelatedTheorems
import Mathlib.Tactic.Linarith

/-!
**C136.** Limiting cases of `HierarchicalRiskParity` and `HierarchicalEqualRiskContribution`: one asset, two assets, one cluster, and copies of one asset.
-/
set_option autoImplicit false

namespace Skfolio.Hierarchical

variable {K : Type*} [Field K] [LinearOrder K]

/-- **C136.** A single asset gets the whole budget. -/
theorem C136_hrp_one_asset (risk : (ℕ → K) → K) (maxW minW : ℕ → K) (i : ℕ) : ∃ w, hrp risk maxW minW [i] = .ok w ∧ w i = 1 :=
  ⟨fun _ => 1, rfl, rfl⟩

theorem invRisk_single (risk : (ℕ → K) → K) (i : ℕ) (h : unitaryRisks risk i ≠ 0) : invRiskWeights (unitaryRisks risk) [i] = .ok (unit i) := by
  unfold invRiskWeights
  rw [if_neg (by simpa using h)]
  simp only [List.map_cons, List.map_nil, List.sum_cons, List.sum_nil, add_zero]
  rw [if_neg (one_div_ne_zero h)]
  congr 1
  funext j
  unfold unit
  by_cases hj : j = i
  · subst hj
    simp [h]
  · simp [hj]

theorem clusterRisk_single (risk : (ℕ → K) → K) (i : ℕ) (h : risk (unit i) ≠ 0) : clusterRisk risk (unitaryRisks risk) [i] = .ok (risk (unit i)) := by
  unfold clusterRisk
  rw [invRisk_single risk i h]
  rfl

variable [IsStrictOrderedRing K]

/-- **C136.** Two assets, whichever comes first in the dendrogram, and the default bounds: the weights are inversely proportional to the risks of the assets, whatever the risk measure and the correlation. -/
theorem C136_hrp_two_assets (risk : (ℕ → K) → K) (maxW minW : ℕ → K) (i j : ℕ) (hij : i ≠ j) (hi : 0 < risk (unit i)) (hj : 0 < risk (unit j)) (hmin : ∀ k, minW k = 0) (hmax : ∀ k, maxW k = 1) :
    ∃ w, hrp risk maxW minW [i, j] = .ok w ∧ w i = (1 / risk (unit i)) / (1 / risk (unit i) + 1 / risk (unit j)) ∧ w j = (1 / risk (unit j)) / (1 / risk (unit i) + 1 / risk (unit j)) := by
  set x := risk (unit i) with hx
  set y := risk (unit j) with hy
  have hs : x + y ≠ 0 := (add_pos hi hj).ne'
  have hq0 : 0 ≤ x / (x + y) := (div_pos hi (add_pos hi hj)).le
  have hq1 : x / (x + y) ≤ 1 := (div_le_one (add_pos hi hj)).2 (by linarith)
  have hstep : splitStep risk (unitaryRisks risk) maxW minW (fun _ => 1) ([i], [j]) = .ok fun k => if k ∈ [i] then 1 * (1 - x / (x + y)) else if k ∈ [j] then 1 * (1 - (1 - x / (x + y))) else 1 := by
    unfold splitStep
    simp only [bind, Except.bind, pure, Except.pure]
    rw [clusterRisk_single risk i hi.ne', clusterRisk_single risk j hj.ne']
    simp only [← hx, ← hy]
    simp only [div?, if_neg hs, splitFactor, bind, Except.bind, pure, Except.pure, one_ne_zero, if_false, sumAt, List.map_cons, List.map_nil, List.sum_cons, List.sum_nil, hmin, hmax, add_zero, div_one]
    have e1 : min 1 (max 0 (1 - x / (x + y))) = 1 - x / (x + y) := by
      rw [max_eq_right (by linarith), min_eq_right (by linarith)]
    have e2 : 1 - min 1 (max 0 (1 - (1 - x / (x + y)))) = 1 - x / (x + y) := by
      rw [sub_sub_cancel, max_eq_right hq0, min_eq_right hq1]
    rw [e1, e2]
  refine ⟨fun k => if k ∈ [i] then 1 * (1 - x / (x + y)) else if k ∈ [j] then 1 * (1 - (1 - x / (x + y))) else 1, ?_, ?_, ?_⟩
  · unfold hrp
    simp only [List.length_cons, List.length_nil]
    rw [hrpLoop]
    have hb : bisection [[i, j]] = [([i], [j])] := by simp [bisection, bisectOne]
    rw [hb]
    simp only [List.foldlM_cons, List.foldlM_nil, hstep, bind, Except.bind, pure, Except.pure]
    rfl
  · simp only [List.mem_singleton, if_true]
    field_simp
    ring
  · simp only [List.mem_singleton, hij.symm, if_false, if_true]
    field_simp
    ring

/-- **C136.** If all the assets are in one cluster, `HierarchicalEqualRiskContribution` with the default bounds gives weights inversely proportional to the risks of the assets (with the standard deviation these are the weights of `InverseVolatility`),
whatever the dendrogram. -/
theorem C136_herc_one_cluster (solver : (ℕ → K) → (ℕ → K) → (ℕ → K) → Option (ℕ → K)) (risk : (ℕ → K) → K) (maxW minW : ℕ → K) (n : ℕ) (hn : 0 < n) (labels : ℕ → ℕ) (root : Tree) (hroot : root.leaves.Perm (List.range n)) (hlab : ∀ i, i < n → labels i = 0)
    (hrisk : ∀ i, i < n → 0 < risk (unit i)) (hmin : ∀ i, minW i = 0) (hmax : ∀ i, maxW i = 1) :
    ∃ w, herc solver risk maxW minW n 1 labels root = .ok w ∧ ∀ i, i < n → w i = (1 / risk (unit i)) / ∑ j ∈ Finset.range n, 1 / risk (unit j) := by
  have hids : clusterIds n labels 0 = List.range n := by
    unfold clusterIds
    rw [List.filter_eq_self]
    intro i hi
    simpa using hlab i (List.mem_range.1 hi)
  have hS : ((List.range n).map fun i => 1 / unitaryRisks risk i).sum = ∑ j ∈ Finset.range n, 1 / risk (unit j) := by
    rw [← List.sum_toFinset _ List.nodup_range, List.toFinset_range]
    rfl
  have hpos : 0 < ∑ j ∈ Finset.range n, 1 / risk (unit j) := Finset.sum_pos (fun i hi => one_div_pos.2 (hrisk i (Finset.mem_range.1 hi))) ⟨0, Finset.mem_range.2 hn⟩
  have hinv : invRiskWeights (unitaryRisks risk) (List.range n) = .ok fun i => if i ∈ List.range n then (1 / unitaryRisks risk i) / ((List.range n).map fun i => 1 / unitaryRisks risk i).sum else 0 := by
    unfold invRiskWeights
    rw [if_neg]
    · simp only
      rw [if_neg (by rw [hS]; exact hpos.ne')]
    · rintro ⟨i, hi, h0⟩
      exact (hrisk i (List.mem_range.1 hi)).ne' h0
  have hrec : ∀ (r cw : ℕ → K), recurse n 1 labels r root cw = .ok cw := by
    intro r cw
    rw [recurse.eq_def]
    refine if_pos ?_
    rw [List.any_eq_true]
    refine ⟨0, by simp, ?_⟩
    rw [hids]
    simp only [sameSet, isSubset, Bool.and_eq_true, List.all_eq_true, List.contains_iff_mem]
    exact ⟨fun a ha => hroot.mem_iff.1 ha, fun a ha => hroot.mem_iff.2 ha⟩
  set w0 : ℕ → K := fun i => if i ∈ List.range n then (1 / unitaryRisks risk i) / ((List.range n).map fun i => 1 / unitaryRisks risk i).sum else 0 with hw0
  have hun : hercUnbounded risk n 1 labels root = .ok fun i => if labels i < 1 then (if labels i = 0 then w0 i else 1) else 1 := by
    unfold hercUnbounded
    simp only [List.range_one, intraCluster, hids, hinv, bind, Except.bind, pure, Except.pure, hrec]
    congr 1
    funext i
    by_cases h : labels i < 1
    · have h0 : labels i = 0 := by omega
      simp [h0, hw0]
    · simp only [if_neg h]
  have hval : ∀ i, i < n → (if labels i < 1 then (if labels i = 0 then w0 i else 1) else 1) = (1 / risk (unit i)) / ∑ j ∈ Finset.range n, 1 / risk (unit j) := by
    intro i hi
    rw [hlab i hi, if_pos zero_lt_one, if_pos rfl, hw0]
    simp only [List.mem_range, hi, if_true, hS]
    rfl
  have h0le : ∀ i, i < n → 0 ≤ (1 / risk (unit i)) / ∑ j ∈ Finset.range n, 1 / risk (unit j) := fun i hi => (div_pos (one_div_pos.2 (hrisk i hi)) hpos).le
  have hle1 : ∀ i, i < n → (1 / risk (unit i)) / ∑ j ∈ Finset.range n, 1 / risk (unit j) ≤ 1 := by
    intro i hi
    rw [div_le_one hpos]
    exact Finset.single_le_sum (f := fun j => 1 / risk (unit j)) (fun j hj => (one_div_pos.2 (hrisk j (Finset.mem_range.1 hj))).le) (Finset.mem_range.2 hi)
  refine ⟨_, ?_, hval⟩
  unfold herc
  rw [hun]
  simp only [bind, Except.bind]
  unfold minimizeRelativeWeightDeviation
  rw [if_neg, if_neg, if_neg, if_pos]
  · intro i hi
    beta_reduce
    rw [hval i (List.mem_range.1 hi), hmin, hmax]
    exact ⟨h0le i (List.mem_range.1 hi), hle1 i (List.mem_range.1 hi)⟩
  · rintro ⟨i, _, h⟩
    rw [hmin, hmax] at h
    exact absurd h (not_lt.2 zero_le_one)
  · rw [not_not]
    have hsum : sumAt (fun i => if labels i < 1 then (if labels i = 0 then w0 i else 1) else 1) (List.range n) = 1 := by
      unfold sumAt
      rw [List.map_congr_left fun i hi => hval i (List.mem_range.1 hi), ← List.sum_toFinset _ List.nodup_range, List.toFinset_range, ← Finset.sum_div, div_self hpos.ne']
    rw [hsum, sub_self, abs_zero]
    positivity
  · rintro ⟨i, hi, h⟩
    beta_reduce at h
    rw [hval i (List.mem_range.1 hi)] at h
    exact absurd h (not_lt.2 (h0le i (List.mem_range.1 hi)))

/-- The variance of a portfolio of copies of one asset with variance one. -/
def copiesVariance (n : ℕ) (w : ℕ → ℚ) : ℚ := (sumAt w (List.range n)) ^ 2

/-- **C136.** Copies of one asset do not share the budget equally in `HierarchicalRiskParity`: the leaves are cut in two halves, whatever their number and the dendrogram, and both halves have the same risk. With three copies of one asset the first leaf gets one
half, the two others one quarter. -/
theorem C136_hrp_copies_unequal : weightsOf 3 (hrp (copiesVariance 3) (fun _ => 1) (fun _ => 0) [0, 1, 2]) = .ok [1 / 2, 1 / 4, 1 / 4] := by decide +kernel

/-! ### Examples -/

/-- Two correlated assets with variances 1 and 4: the weights 4/5 and 1/5. -/
example : weightsOf 2 (hrp (fun w => w 0 ^ 2 + 4 * w 1 ^ 2 + 2 * w 0 * w 1) (fun _ => 1) (fun _ => 0) [0, 1]) = .ok [4 / 5, 1 / 5] := by decide +kernel

/-- One cluster of three uncorrelated assets and a dendrogram that does not follow the order of the assets. -/
example : (Tree.node (.leaf 1) (.node (.leaf 2) (.leaf 0))).leaves.Perm (List.range 3) ∧ weightsOf 3 (herc (fun w _ _ => some w) (diagRisk [1, 1 / 2, 1 / 3]) (fun _ => 1) (fun _ => 0) 3 1 (fun _ => 0) (.node (.leaf 1) (.node (.leaf 2) (.leaf 0)))) = .ok [1 / 6, 1 / 3, 1 / 2] := by
  refine ⟨by decide, by decide +kernel⟩

end Skfolio.Hierarchical
