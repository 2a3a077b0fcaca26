import Verif.Hierarchical.HercTheorems
import Mathlib.Algebra.BigOperators.Intervals
import Mathlib.Algebra.BigOperators.Field
import Mathlib.Tactic.FieldSimp
import Mathlib.Tactic.Positivity

/-!
**C116.** For uncorrelated assets `HierarchicalRiskParity` with the variance gives the inverse-variance weights, whatever the dendrogram.
-/
set_option autoImplicit false

namespace Skfolio.Hierarchical

variable {K : Type*} [Field K] [LinearOrder K]

/-- The variance of a portfolio of `n` uncorrelated assets with the variances `v`. -/
def uncorrelatedVariance (n : ℕ) (v w : ℕ → K) : K := ∑ i ∈ Finset.range n, v i * w i ^ 2

variable [IsStrictOrderedRing K]

theorem unitary_uncorrelated (n : ℕ) (v : ℕ → K) (i : ℕ) (hi : i < n) : unitaryRisks (uncorrelatedVariance n v) i = v i := by
  unfold unitaryRisks uncorrelatedVariance unit
  rw [Finset.sum_eq_single i]
  · simp
  · intro j _ hj
    simp [hj]
  · intro h
    exact absurd (Finset.mem_range.2 hi) h

/-- Precision of a cluster: the sum of the inverse variances. -/
def precision (v : ℕ → K) (c : List ℕ) : K := sumAt (fun i => 1 / v i) c

section
variable {n : ℕ} {v : ℕ → K} (hv : ∀ i, i < n → 0 < v i)
include hv

theorem precision_pos (c : List ℕ) (hc : c ≠ []) (hn : ∀ i ∈ c, i < n) : 0 < precision v c :=
  sumAt_pos hc fun i hi => one_div_pos.2 (hv i (hn i hi))

theorem invRisk_uncorrelated (c : List ℕ) (hc : c ≠ []) (hn : ∀ i ∈ c, i < n) :
    invRiskWeights (unitaryRisks (uncorrelatedVariance n v)) c = .ok fun i => if i ∈ c then (1 / v i) / precision v c else 0 := by
  have e : (c.map fun i => 1 / unitaryRisks (uncorrelatedVariance n v) i).sum = precision v c := by
    unfold precision sumAt
    congr 1
    refine List.map_congr_left fun i hi => ?_
    rw [unitary_uncorrelated n v i (hn i hi)]
  unfold invRiskWeights
  rw [if_neg, e]
  · simp only
    rw [if_neg (precision_pos hv c hc hn).ne']
    congr 1
    funext i
    by_cases hi : i ∈ c
    · rw [if_pos hi, if_pos hi, unitary_uncorrelated n v i (hn i hi)]
    · rw [if_neg hi, if_neg hi]
  · rintro ⟨i, hi, h0⟩
    rw [unitary_uncorrelated n v i (hn i hi)] at h0
    exact (hv i (hn i hi)).ne' h0

theorem clusterRisk_uncorrelated (c : List ℕ) (hc : c ≠ []) (hn : ∀ i ∈ c, i < n) :
    ∃ x, clusterRisk (uncorrelatedVariance n v) (unitaryRisks (uncorrelatedVariance n v)) c = .ok x ∧ 0 < x ∧ (c.Nodup → x = 1 / precision v c) := by
  refine ⟨uncorrelatedVariance n v fun i => if i ∈ c then (1 / v i) / precision v c else 0, ?_, ?_, fun hd => ?_⟩
  · unfold clusterRisk
    rw [invRisk_uncorrelated hv c hc hn]
    rfl
  · have hp := precision_pos hv c hc hn
    obtain ⟨i, hi⟩ := List.exists_mem_of_ne_nil c hc
    refine Finset.sum_pos' (fun j hj => ?_) ⟨i, Finset.mem_range.2 (hn i hi), ?_⟩
    · exact mul_nonneg (hv j (Finset.mem_range.1 hj)).le (sq_nonneg _)
    · simp only [if_pos hi]
      have := hv i (hn i hi)
      positivity
  · have hp := precision_pos hv c hc hn
    have h1 : ∀ i ∈ Finset.range n, v i * (if i ∈ c then (1 / v i) / precision v c else 0) ^ 2 = if i ∈ c then (1 / v i) / precision v c ^ 2 else 0 := by
      intro i hi
      have := (hv i (Finset.mem_range.1 hi)).ne'
      split_ifs with h
      · field_simp
      · simp
    unfold uncorrelatedVariance
    rw [Finset.sum_congr rfl h1, ← Finset.sum_filter]
    have h2 : (Finset.range n).filter (· ∈ c) = c.toFinset := by
      ext i
      simp only [Finset.mem_filter, Finset.mem_range, List.mem_toFinset]
      exact ⟨fun h => h.2, fun h => ⟨hn i h, h⟩⟩
    rw [h2, ← Finset.sum_div, List.sum_toFinset _ hd]
    change precision v c / precision v c ^ 2 = _
    field_simp

theorem alloc_uncorrelated {maxW minW : ℕ → K} {c : List ℕ} {W : K} {w : ℕ → K} (h : Alloc (uncorrelatedVariance n v) maxW minW c W w) (hn : ∀ i ∈ c, i < n) (hd : c.Nodup) (hW : 0 < W) (hW1 : W ≤ 1)
    (hmin : ∀ i ∈ c, minW i = 0) (hmax : ∀ i ∈ c, maxW i = 1) : ∀ i ∈ c, w i = W * ((1 / v i) / precision v c) := by
  induction h with
  | single i w =>
    intro j hj
    rw [List.mem_singleton] at hj
    subst hj
    have := (hv j (hn j (by simp))).ne'
    simp [precision, sumAt, this]
  | split l r W a w hl hr _ share _ _ ihl ihr =>
    have hnl : ∀ i ∈ l, i < n := fun i hi => hn i (by simp [hi])
    have hnr : ∀ i ∈ r, i < n := fun i hi => hn i (by simp [hi])
    obtain ⟨hdl, hdr, -⟩ := List.nodup_append.1 hd
    have hminl : ∀ i ∈ l, minW i = 0 := fun i hi => hmin i (by simp [hi])
    have hminr : ∀ i ∈ r, minW i = 0 := fun i hi => hmin i (by simp [hi])
    have hmaxl : ∀ i ∈ l, maxW i = 1 := fun i hi => hmax i (by simp [hi])
    have hmaxr : ∀ i ∈ r, maxW i = 1 := fun i hi => hmax i (by simp [hi])
    obtain ⟨x, hx, -, hx1⟩ := clusterRisk_uncorrelated hv l hl hnl
    obtain ⟨y, hy, -, hy1⟩ := clusterRisk_uncorrelated hv r hr hnr
    have ha := share.unique hx hy
    rw [hx1 hdl, hy1 hdr] at ha
    have pl := precision_pos hv l hl hnl
    have pr := precision_pos hv r hr hnr
    have hz : ∀ c : List ℕ, (∀ i ∈ c, minW i = 0) → sumAt minW c = 0 := by
      intro c hc
      unfold sumAt
      rw [List.sum_eq_zero]
      intro x hx
      obtain ⟨i, hi, rfl⟩ := List.mem_map.mp hx
      exact hc i hi
    have ho : ∀ c : List ℕ, c ≠ [] → (∀ i ∈ c, maxW i = 1) → 1 ≤ sumAt maxW c / W := by
      intro c hc h1
      have : sumAt maxW c = (c.length : K) := by
        unfold sumAt
        rw [List.map_congr_left h1]
        simp
      rw [this, le_div_iff₀ hW, one_mul]
      refine hW1.trans ?_
      have : 1 ≤ c.length := List.length_pos_iff.2 hc
      exact_mod_cast this
    have hq : 1 / precision v r / (1 / precision v l + 1 / precision v r) = precision v l / (precision v l + precision v r) := by
      field_simp
      ring
    have hq0 : 0 < precision v l / (precision v l + precision v r) := by positivity
    have hq1 : precision v l / (precision v l + precision v r) < 1 := by
      rw [div_lt_one (by positivity)]
      linarith
    have hclamp : ∀ (hi x : K), 1 ≤ hi → 0 < x → x < 1 → clamp 0 hi x = x := by
      intro hi x h1 h0 hx
      unfold clamp
      rw [max_eq_right h0.le, min_eq_right (hx.le.trans h1)]
    rw [hq, hz l hminl, hz r hminr, zero_div, hclamp _ _ (ho l hl hmaxl) hq0 hq1, hclamp _ _ (ho r hr hmaxr) (by linarith) (by linarith)] at ha
    have ha' : a = precision v l / (precision v l + precision v r) := by linarith
    have hsum : precision v (l ++ r) = precision v l + precision v r := sumAt_append _ _ _
    intro i hi
    rw [hsum]
    rcases List.mem_append.1 hi with hi | hi
    · rw [ihl hnl hdl (by rw [ha']; positivity) (by rw [ha']; exact mul_le_one₀ hW1 hq0.le hq1.le) hminl hmaxl i hi, ha']
      field_simp
    · have e : 1 - a = precision v r / (precision v l + precision v r) := by
        rw [ha']
        field_simp
        ring
      have e0 : 0 < 1 - a := by rw [e]; positivity
      have e1 : 1 - a ≤ 1 := by rw [ha']; linarith
      rw [ihr hnr hdr (mul_pos hW e0) (mul_le_one₀ hW1 e0.le e1) hminr hmaxr i hi, e]
      field_simp

/-- **C116.** Uncorrelated assets, the variance as risk and the default bounds: the weights of `HierarchicalRiskParity` are proportional to the inverse variances, whatever the order of the leaves. -/
theorem C116_hrp {maxW minW : ℕ → K} (hn : 0 < n) (order : List ℕ) (ho : order.Perm (List.range n)) (hmin : ∀ i, i < n → minW i = 0) (hmax : ∀ i, i < n → maxW i = 1) :
    ∃ w, hrp (uncorrelatedVariance n v) maxW minW order = .ok w ∧ ∀ i, i < n → w i = (1 / v i) / ∑ j ∈ Finset.range n, 1 / v j := by
  have hmem : ∀ i, i ∈ order ↔ i < n := fun i => by rw [ho.mem_iff, List.mem_range]
  have hne : order ≠ [] := by
    intro h
    have := (hmem 0).2 hn
    rw [h] at this
    cases this
  have hd : order.Nodup := ho.nodup_iff.2 List.nodup_range
  have hlen : order.length = n := by rw [ho.length_eq, List.length_range]
  obtain ⟨w, hw⟩ := C21_finite_zero_min (uncorrelatedVariance n v) maxW minW order hne hd
    (fun c hc hsub => by
      obtain ⟨x, h1, h2, -⟩ := clusterRisk_uncorrelated hv c hc fun i hi => (hmem i).1 (hsub hi)
      exact ⟨x, h1, h2⟩)
    (fun i hi => hmin i ((hmem i).1 hi)) (fun i hi => by rw [hmax i ((hmem i).1 hi)]; exact one_pos)
    (by
      unfold sumAt
      rw [List.map_congr_left fun i hi => hmax i ((hmem i).1 hi)]
      simp only [List.map_const', List.sum_replicate, nsmul_eq_mul, mul_one, hlen]
      exact_mod_cast hn)
  refine ⟨w, hw, fun i hi => ?_⟩
  have := alloc_uncorrelated hv (C21_refines_recursive_bisection _ _ _ _ order hne hd hw) (fun i hi => (hmem i).1 hi) hd one_pos le_rfl (fun i hi => hmin i ((hmem i).1 hi)) (fun i hi => hmax i ((hmem i).1 hi)) i ((hmem i).2 hi)
  rw [this, one_mul]
  congr 1
  unfold precision sumAt
  rw [(ho.map _).sum_eq]
  exact (List.sum_toFinset (fun i => 1 / v i) List.nodup_range).symm.trans (by rw [List.toFinset_range])

end

/-- Variances 1, 4 and 2: the weights are 4/7, 1/7 and 2/7. -/
example : ∃ w, hrp (uncorrelatedVariance 3 (fun i => [1, 4, (2 : ℚ)].getD i 0)) (fun _ => 1) (fun _ => 0) [2, 0, 1] = .ok w ∧ (List.range 3).map w = [4 / 7, 1 / 7, 2 / 7] := by
  obtain ⟨w, h1, h2⟩ := C116_hrp (n := 3) (v := fun i => [1, 4, (2 : ℚ)].getD i 0) (maxW := fun _ => 1) (minW := fun _ => 0) (by decide +kernel) (by decide) [2, 0, 1] (by decide) (fun _ _ => rfl) (fun _ _ => rfl)
  refine ⟨w, h1, ?_⟩
  have e : (List.range 3).map w = (List.range 3).map fun i => (1 / [1, 4, (2 : ℚ)].getD i 0) / ∑ j ∈ Finset.range 3, 1 / [1, 4, (2 : ℚ)].getD j 0 :=
    List.map_congr_left fun i hi => h2 i (List.mem_range.1 hi)
  rw [e]
  decide +kernel

end Skfolio.Hierarchical
