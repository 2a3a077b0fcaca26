import Verif.Nested.Lemmas
import Mathlib.Algebra.Order.BigOperators.Group.List
import Mathlib.Algebra.Order.BigOperators.Group.Finset
import Mathlib.Algebra.Order.Ring.Rat

/-! **C23**, **C57**, **C58**: nested clusters and stacking. -/
set_option autoImplicit false

namespace Skfolio.Nested

section
variable {K : Type} [Field K]

theorem nco_inv {labels : List ℤ} {est : List (List K) → List K} {charge : List K → K} {pick : List (List K) → ℕ} {outer : List (List K) → List K} {X : ℕ → ℕ → K} {nObs : ℕ} {cv : Cv} {r : Fitted K}
    (h : nco labels est charge pick outer X nObs cv = .ok r) :
    r.inner = (clusters labels).map (innerRow est X nObs) ∧ (clusters labels).map (column est charge pick X nObs cv) = r.xPred.map .ok ∧ r.outer = outer r.xPred ∧ r.weights = combine r.outer r.inner := by
  unfold nco at h
  dsimp only at h
  cases hs : sequence ((clusters labels).map (column est charge pick X nObs cv)) with
  | error e => rw [hs] at h; simp at h
  | ok cols =>
    rw [hs] at h
    dsimp only at h
    split_ifs at h
    injection h with h
    subst h
    exact ⟨rfl, (sequence_ok _ _).1 hs, rfl, rfl⟩

theorem nco_of {labels : List ℤ} {est : List (List K) → List K} {charge : List K → K} {pick : List (List K) → ℕ} (outer : List (List K) → List K) {X : ℕ → ℕ → K} {nObs : ℕ} {cv : Cv} {cols : List (List K)}
    (h : (clusters labels).map (column est charge pick X nObs cv) = cols.map .ok) (hl : cols.Pairwise fun c d => c.length = d.length) : ∃ r, nco labels est charge pick outer X nObs cv = .ok r ∧ r.xPred = cols := by
  unfold nco
  dsimp only
  rw [(sequence_ok _ _).2 h]
  dsimp only
  rw [if_neg (not_not.2 hl)]
  exact ⟨_, rfl, rfl⟩

/-- The contracts of the estimators: one weight for each column of the data. -/
def Fits (est : List (List K) → List K) (X : ℕ → ℕ → K) (nObs : ℕ) : Prop := ∀ ids, (est (data X (List.range nObs) ids)).length = ids.length

theorem clusterWeights_length {est : List (List K) → List K} {X : ℕ → ℕ → K} {nObs : ℕ} (hest : Fits est X nObs) (ids : List ℕ) : (clusterWeights est X (List.range nObs) ids).length = ids.length := by
  unfold clusterWeights
  split_ifs with h
  · simp [h]
  · exact hest _

theorem xPred_length {labels : List ℤ} {est : List (List K) → List K} {charge : List K → K} {pick : List (List K) → ℕ} {outer : List (List K) → List K} {X : ℕ → ℕ → K} {nObs : ℕ} {cv : Cv} {r : Fitted K}
    (h : nco labels est charge pick outer X nObs cv = .ok r) : r.xPred.length = (clusters labels).length := by
  have := congrArg List.length (nco_inv h).2.1
  simpa using this.symm

/-- **C23.** The weight of an asset is the outer weight of its cluster times its weight inside its cluster, where a single asset has weight one and the assets of a larger cluster have the weights of the inner estimator fitted on these assets. -/
theorem C23_nco_weights {labels : List ℤ} {est : List (List K) → List K} {charge : List K → K} {pick : List (List K) → ℕ} {outer : List (List K) → List K} {X : ℕ → ℕ → K} {nObs : ℕ} {cv : Cv} {r : Fitted K}
    (h : nco labels est charge pick outer X nObs cv = .ok r) (hest : Fits est X nObs) (ho : r.outer.length = r.xPred.length) (a k : ℕ) (ha : a < labels.length) (hk : labels.getD a (-1) = (k : ℤ)) :
    r.weights a = r.outer.getD k 0 * (clusterWeights est X (List.range nObs) (members labels k)).getD ((members labels k).idxOf a) 0 := by
  obtain ⟨hi, _, _, hw⟩ := nco_inv h
  have hkl := label_lt ha hk
  have hil : r.inner.length = (clusters labels).length := by rw [hi, List.length_map]
  have hval : ∀ j (hj : j < r.inner.length), r.inner[j] = scatter (members labels j) (clusterWeights est X (List.range nObs) (members labels j)) := by
    intro j hj
    simp only [hi, List.getElem_map]
    rw [innerRow_eq, clusters_getElem]
  rw [hw, combine_single r.outer r.inner a k (by omega) (by rw [ho, xPred_length h, hil])]
  · rw [hval, scatter_getD _ _ (members_nodup _ _) (clusterWeights_length hest _) _ (mem_members.2 ⟨ha, hk⟩)]
  · intro j hj hne
    rw [hval, scatter_not_mem]
    intro hm
    have := (mem_members.1 hm).2
    rw [hk] at this
    exact hne (by exact_mod_cast this.symm)

/-- **C23.** Assets without a cluster (label -1, as given by some clustering algorithms to noise) have weight zero. -/
theorem C23_nco_noise {labels : List ℤ} {est : List (List K) → List K} {charge : List K → K} {pick : List (List K) → ℕ} {outer : List (List K) → List K} {X : ℕ → ℕ → K} {nObs : ℕ} {cv : Cv} {r : Fitted K}
    (h : nco labels est charge pick outer X nObs cv = .ok r) (a : ℕ) (hk : labels.getD a (-1) < 0) : r.weights a = 0 := by
  obtain ⟨hi, _, _, hw⟩ := nco_inv h
  rw [hw, combine]
  apply List.sum_eq_zero
  intro z hz
  obtain ⟨j, hj, rfl⟩ := List.getElem_of_mem hz
  rw [List.length_zipWith] at hj
  rw [List.getElem_zipWith]
  have : r.inner[j] a = 0 := by
    have hval : ∀ j (hj : j < r.inner.length), r.inner[j] = scatter (members labels j) (clusterWeights est X (List.range nObs) (members labels j)) := by
      intro j hj
      simp only [hi, List.getElem_map]
      rw [innerRow_eq, clusters_getElem]
    rw [hval, scatter_not_mem]
    intro hm
    have := (mem_members.1 hm).2
    omega
  rw [this, mul_zero]

/-- The sum over the assets of a cluster. -/
theorem members_sum (labels : List ℤ) (k : ℕ) (f : ℕ → K) : ((members labels k).map f).sum = ∑ a ∈ (Finset.range labels.length).filter (fun a => labels.getD a (-1) = (k : ℤ)), f a := by
  rw [← List.sum_toFinset _ (members_nodup labels k)]
  apply Finset.sum_congr
  · ext a
    simp [mem_members]
  · intro _ _
    rfl

theorem getD_idxOf_sum (ids : List ℕ) (vals : List K) (hn : ids.Nodup) (hl : vals.length = ids.length) : (ids.map fun a => vals.getD (ids.idxOf a) 0).sum = vals.sum := by
  congr 1
  apply List.ext_getElem
  · simp [hl]
  · intro i h1 h2
    have hi : i < ids.length := by simpa using h1
    rw [List.getElem_map, hn.idxOf_getElem i hi, List.getD_eq_getElem _ _ h2]

/-- **C23.** Each cluster receives its outer weight: the weights of the assets of cluster `k` sum to the outer weight of `k` times the sum of the weights inside the cluster, which is one for a single asset. -/
theorem C23_nco_cluster {labels : List ℤ} {est : List (List K) → List K} {charge : List K → K} {pick : List (List K) → ℕ} {outer : List (List K) → List K} {X : ℕ → ℕ → K} {nObs : ℕ} {cv : Cv} {r : Fitted K}
    (h : nco labels est charge pick outer X nObs cv = .ok r) (hest : Fits est X nObs) (ho : r.outer.length = r.xPred.length) (k : ℕ) :
    ∑ a ∈ (Finset.range labels.length).filter (fun a => labels.getD a (-1) = (k : ℤ)), r.weights a = r.outer.getD k 0 * (clusterWeights est X (List.range nObs) (members labels k)).sum := by
  rw [← members_sum, ← getD_idxOf_sum (members labels k) _ (members_nodup _ _) (clusterWeights_length hest _), ← List.sum_map_mul_left]
  congr 1
  apply List.map_congr_left
  intro a ha
  obtain ⟨h1, h2⟩ := mem_members.1 ha
  exact C23_nco_weights h hest ho a k h1 h2

/-- **C23.** If the inner weights sum to one, the weights of a clustering sum to the sum of the outer weights. -/
theorem C23_nco_budget {labels : List ℤ} {est : List (List K) → List K} {charge : List K → K} {pick : List (List K) → ℕ} {outer : List (List K) → List K} {X : ℕ → ℕ → K} {nObs : ℕ} {cv : Cv} {r : Fitted K} {m : ℕ}
    (h : nco labels est charge pick outer X nObs cv = .ok r) (hest : Fits est X nObs) (ho : r.outer.length = r.xPred.length) (hlab : IsLabelling labels m) (hsum : ∀ ids, ids ≠ [] → (est (data X (List.range nObs) ids)).sum = 1) :
    ∑ a ∈ Finset.range labels.length, r.weights a = r.outer.sum := by
  have hlen := clusters_length_of labels m hlab
  have hol : r.outer.length = m := by rw [ho, xPred_length h, hlen]
  have hone : ∀ k, k < m → (clusterWeights est X (List.range nObs) (members labels k)).sum = 1 := by
    intro k hk
    unfold clusterWeights
    split_ifs with h1
    · simp
    · apply hsum
      intro he
      obtain ⟨i, hi, hi'⟩ := List.getElem_of_mem (hlab.2 k hk)
      have : i ∈ members labels k := mem_members.2 ⟨hi, by rw [List.getD_eq_getElem _ _ hi, hi']⟩
      rw [he] at this
      simp at this
  have hpart : ∑ a ∈ Finset.range labels.length, r.weights a = ∑ k ∈ Finset.range m, ∑ a ∈ (Finset.range labels.length).filter (fun a => labels.getD a (-1) = (k : ℤ)), r.weights a := by
    have hmap : ∀ a ∈ Finset.range labels.length, (labels.getD a (-1)).toNat ∈ Finset.range m := by
      intro a ha
      rw [Finset.mem_range] at ha ⊢
      rw [List.getD_eq_getElem _ _ ha]
      have := hlab.1 _ (List.getElem_mem ha)
      omega
    rw [← Finset.sum_fiberwise_of_maps_to hmap]
    apply Finset.sum_congr rfl
    intro k _
    apply Finset.sum_congr _ fun _ _ => rfl
    ext a
    simp only [Finset.mem_filter, Finset.mem_range, and_congr_right_iff]
    intro ha
    rw [List.getD_eq_getElem _ _ ha]
    have := hlab.1 _ (List.getElem_mem ha)
    omega
  rw [hpart]
  have : ∀ k ∈ Finset.range m, ∑ a ∈ (Finset.range labels.length).filter (fun a => labels.getD a (-1) = (k : ℤ)), r.weights a = r.outer.getD k 0 := by
    intro k hk
    rw [C23_nco_cluster h hest ho, hone k (Finset.mem_range.1 hk), mul_one]
  rw [Finset.sum_congr rfl this, ← hol]
  generalize r.outer = l
  clear hol ho h hone hpart this
  induction l with
  | nil => simp
  | cons x l ih => rw [List.length_cons, Finset.sum_range_succ', List.sum_cons]; simp only [List.getD_cons_succ, List.getD_cons_zero]; rw [ih, add_comm]

/-- **C23.** If the inner and the outer weights are non-negative, so are the weights. -/
theorem C23_nco_nonneg [LinearOrder K] [IsStrictOrderedRing K] {labels : List ℤ} {est : List (List K) → List K} {charge : List K → K} {pick : List (List K) → ℕ} {outer : List (List K) → List K} {X : ℕ → ℕ → K} {nObs : ℕ} {cv : Cv} {r : Fitted K}
    (h : nco labels est charge pick outer X nObs cv = .ok r) (hest : Fits est X nObs) (ho : r.outer.length = r.xPred.length) (hin : ∀ ids, ∀ w ∈ est (data X (List.range nObs) ids), 0 ≤ w) (hout : ∀ w ∈ r.outer, 0 ≤ w) (a : ℕ) (ha : a < labels.length) : 0 ≤ r.weights a := by
  have hg : ∀ (l : List K) (i : ℕ), (∀ w ∈ l, 0 ≤ w) → 0 ≤ l.getD i 0 := by
    intro l i hl
    by_cases hi : i < l.length
    · rw [List.getD_eq_getElem _ _ hi]
      exact hl _ (List.getElem_mem hi)
    · rw [List.getD_eq_default _ _ (by omega)]
  rcases lt_or_ge (labels.getD a (-1)) 0 with hn | hn
  · rw [C23_nco_noise h a hn]
  · obtain ⟨k, hk⟩ := Int.eq_ofNat_of_zero_le hn
    rw [C23_nco_weights h hest ho a k ha hk]
    refine mul_nonneg (hg _ _ hout) (hg _ _ ?_)
    unfold clusterWeights
    split_ifs
    · simp
    · exact hin _

theorem column_series {est : List (List K) → List K} {charge : List K → K} {pick : List (List K) → ℕ} {X : ℕ → ℕ → K} {nObs : ℕ} {cv : Cv} {ids : List ℕ} {c : List K} (hcv : Consecutive nObs cv) (hl : ids.length ≠ 1) (h : column est charge pick X nObs cv ids = .ok c) :
    (testIndices nObs cv).Pairwise (· < ·) ∧ IsSeries nObs cv (fun train t => portfolioReturn X (est (data X train ids)) ids t - charge (est (data X train ids))) (testIndices nObs cv) c := by
  unfold column at h
  split at h
  · simp at hl
  · exact cvPredict_series _ _ _ _ _ _ _ hcv _ h

theorem column_single {est : List (List K) → List K} {charge : List K → K} {pick : List (List K) → ℕ} {X : ℕ → ℕ → K} {nObs : ℕ} {cv : Cv} {a : ℕ} {c : List K} (h : column est charge pick X nObs cv [a] = .ok c) : c = (testIndices nObs cv).map fun t => X t a := by
  unfold column at h
  injection h with h
  exact h.symm

/-- **C57.** The outer estimator of `NestedClustersOptimization` is fitted on aligned out-of-sample returns. There is a list of distinct observations such that the column of each cluster with several assets consists of the returns, at these observations,
of the portfolio of the inner estimator fitted on a training set whose test set contains the observation, and the column of a single asset of its returns at these observations. -/
theorem C57_nco_aligned {labels : List ℤ} {est : List (List K) → List K} {charge : List K → K} {pick : List (List K) → ℕ} {outer : List (List K) → List K} {X : ℕ → ℕ → K} {nObs : ℕ} {cv : Cv} {r : Fitted K}
    (h : nco labels est charge pick outer X nObs cv = .ok r) (hcv : Consecutive nObs cv) :
    ∃ T : List ℕ, ((∃ k, k < r.xPred.length ∧ (members labels k).length ≠ 1) → T.Pairwise (· < ·)) ∧ ∀ k (hk : k < r.xPred.length),
      (∀ a, members labels k = [a] → r.xPred[k] = T.map fun t => X t a) ∧
      ((members labels k).length ≠ 1 → IsSeries nObs cv (fun train t => portfolioReturn X (est (data X train (members labels k))) (members labels k) t - charge (est (data X train (members labels k)))) T r.xPred[k]) := by
  obtain ⟨_, hc, _, _⟩ := nco_inv h
  have hlen := xPred_length h
  have hcol : ∀ k (hk : k < r.xPred.length), column est charge pick X nObs cv (members labels k) = .ok r.xPred[k] := by
    intro k hk
    have h1 : ((clusters labels).map (column est charge pick X nObs cv))[k]? = (r.xPred.map Except.ok)[k]? := by rw [hc]
    rw [List.getElem?_map, List.getElem?_map, List.getElem?_eq_getElem hk, List.getElem?_eq_getElem (by omega), clusters_getElem] at h1
    simpa using h1
  refine ⟨testIndices nObs cv, ?_, ?_⟩
  · rintro ⟨k, hk, hl⟩
    exact (column_series hcv hl (hcol k hk)).1
  · intro k hk
    refine ⟨fun a ha => ?_, fun hl => (column_series hcv hl (hcol k hk)).2⟩
    have := hcol k hk
    rw [ha] at this
    exact column_single this

/-- **C57.** Without cross-validation the nested portfolio is the outer portfolio of the inner portfolios: at each observation its return is the outer-weighted return of the columns on which the outer estimator is fitted, up to the charges of the inner portfolios. -/
theorem C57_nco_returns {labels : List ℤ} {est : List (List K) → List K} {charge : List K → K} {pick : List (List K) → ℕ} {outer : List (List K) → List K} {X : ℕ → ℕ → K} {nObs : ℕ} {r : Fitted K}
    (h : nco labels est charge pick outer X nObs .ignore = .ok r) (hest : Fits est X nObs) (t : ℕ) (ht : t < nObs) :
    ∑ a ∈ Finset.range labels.length, r.weights a * X t a =
      (List.zipWith (fun o c => o * c.getD t 0) r.outer r.xPred).sum + (List.zipWith (fun o ids => o * clusterCharge charge (clusterWeights est X (List.range nObs) ids) ids) r.outer (clusters labels)).sum := by
  obtain ⟨hi, hc, _, hw⟩ := nco_inv h
  have hlen := xPred_length h
  rw [hw, combine_dot, hi, List.zipWith_map_right]
  have hcol : ∀ k (hk : k < r.xPred.length), r.xPred[k].getD t 0 = portfolioReturn X (clusterWeights est X (List.range nObs) (members labels k)) (members labels k) t - clusterCharge charge (clusterWeights est X (List.range nObs) (members labels k)) (members labels k) := by
    intro k hk
    have h1 : ((clusters labels).map (column est charge pick X nObs .ignore))[k]? = (r.xPred.map Except.ok)[k]? := by rw [hc]
    rw [List.getElem?_map, List.getElem?_map, List.getElem?_eq_getElem hk, List.getElem?_eq_getElem (by omega), clusters_getElem] at h1
    have h2 : column est charge pick X nObs .ignore (members labels k) = .ok r.xPred[k] := by simpa using h1
    generalize r.xPred[k] = c at h2
    by_cases hl : (members labels k).length = 1
    · obtain ⟨a, ha⟩ := List.length_eq_one_iff.1 hl
      rw [ha] at h2
      have := column_single h2
      subst this
      rw [List.getD_eq_getElem _ _ (by simpa [testIndices] using ht), ha]
      simp [testIndices, clusterWeights, clusterCharge, portfolioReturn]
    · obtain ⟨_, hlen', hs⟩ := column_series (nObs := nObs) (cv := .ignore) trivial hl h2
      obtain ⟨train, test, ⟨rfl, rfl⟩, _, hv⟩ := hs t (by simpa [testIndices] using ht)
      rw [List.getD_eq_getElem?_getD, hv]
      simp only [testIndices, List.getElem_range, Option.getD_some]
      unfold clusterWeights clusterCharge
      rw [if_neg hl, if_neg hl]
  have hval : ∀ ids ∈ clusters labels, ∑ a ∈ Finset.range labels.length, innerRow est X nObs ids a * X t a = portfolioReturn X (clusterWeights est X (List.range nObs) ids) ids t := by
    intro ids hids
    obtain ⟨k, hk, rfl⟩ := List.getElem_of_mem hids
    rw [clusters_getElem, innerRow_eq, scatter_dot _ _ _ (members_nodup _ _) (clusterWeights_length hest _) fun a ha => (mem_members.1 ha).1]
    rfl
  have key : ∀ (cl : List (List ℕ)) (xs : List (List K)) (os : List K), xs.length = cl.length →
      (∀ ids ∈ cl, ∑ a ∈ Finset.range labels.length, innerRow est X nObs ids a * X t a = portfolioReturn X (clusterWeights est X (List.range nObs) ids) ids t) →
      (∀ k (h1 : k < xs.length) (h2 : k < cl.length), xs[k].getD t 0 = portfolioReturn X (clusterWeights est X (List.range nObs) cl[k]) cl[k] t - clusterCharge charge (clusterWeights est X (List.range nObs) cl[k]) cl[k]) →
      (List.zipWith (fun o ids => o * ∑ a ∈ Finset.range labels.length, innerRow est X nObs ids a * X t a) os cl).sum =
        (List.zipWith (fun o c => o * c.getD t 0) os xs).sum + (List.zipWith (fun o ids => o * clusterCharge charge (clusterWeights est X (List.range nObs) ids) ids) os cl).sum := by
    intro cl
    induction cl with
    | nil =>
      intro xs os hl _ _
      have : xs = [] := List.length_eq_zero_iff.1 (by simpa using hl)
      subst this
      simp
    | cons ids cl ih =>
      intro xs os hl h1 h2
      cases xs with
      | nil => simp at hl
      | cons c xs =>
        cases os with
        | nil => simp
        | cons o os =>
          have h0 := h2 0 (by simp) (by simp)
          simp only [List.getElem_cons_zero] at h0
          simp only [List.zipWith_cons_cons, List.sum_cons]
          rw [ih xs os (by simpa using hl) (fun i hi => h1 i (by simp [hi])) (fun k a b => by
            have := h2 (k + 1) (by simpa using a) (by simpa using b)
            simpa only [List.getElem_cons_succ] using this), h1 ids (by simp), h0]
          ring
  refine key _ _ _ hlen hval ?_
  intro k h1 h2
  rw [clusters_getElem]
  exact hcol k h1

/-! ### Stacking -/

variable {Y : Type}

theorem stacking_inv {ests : List ((List (List K) → Option (List Y) → List K) × (List K → K))} {pick : List (List K) → ℕ} {outer : List (List K) → Option (List Y) → List K} {X : ℕ → ℕ → K} {y : Option (ℕ → Y)} {nAssets nObs : ℕ} {cv : Cv} {r : Fitted K × Option (List Y)}
    (h : stacking ests pick outer X y nAssets nObs cv = .ok r) :
    r.1.inner = ests.map (fun e => scatter (List.range nAssets) (e.1 (data X (List.range nObs) (List.range nAssets)) (targetRows y (List.range nObs)))) ∧
      ests.map (fun e => cvPredict (fun train => e.1 (data X train (List.range nAssets)) (targetRows y train)) e.2 pick X nObs (List.range nAssets) cv) = r.1.xPred.map .ok ∧
      r.2 = targetRows y (testIndices nObs cv) ∧ r.1.outer = outer r.1.xPred r.2 ∧ r.1.weights = combine r.1.outer r.1.inner := by
  unfold stacking at h
  dsimp only at h
  cases hs : sequence (ests.map fun e => cvPredict (fun train => e.1 (data X train (List.range nAssets)) (targetRows y train)) e.2 pick X nObs (List.range nAssets) cv) with
  | error e => rw [hs] at h; simp at h
  | ok cols =>
    rw [hs] at h
    dsimp only at h
    split_ifs at h
    injection h with h
    subst h
    exact ⟨rfl, (sequence_ok _ _).1 hs, rfl, rfl, rfl⟩

theorem scatter_range (n : ℕ) (vals : List K) (hl : vals.length = n) (a : ℕ) : scatter (List.range n) vals a = vals.getD a 0 := by
  by_cases ha : a < n
  · rw [scatter_getD _ _ List.nodup_range (by simpa using hl) a (List.mem_range.2 ha)]
    congr 1
    have := List.nodup_range.idxOf_getElem a (by simpa using ha : a < (List.range n).length)
    rwa [List.getElem_range] at this
  · rw [scatter_not_mem _ _ _ (by simpa using ha), List.getD_eq_default _ _ (by omega)]

/-- **C23.** The weights of `StackingOptimization` are the outer-weighted sum of the weights of the estimators fitted on all observations. -/
theorem C23_stacking_weights {ests : List ((List (List K) → Option (List Y) → List K) × (List K → K))} {pick : List (List K) → ℕ} {outer : List (List K) → Option (List Y) → List K} {X : ℕ → ℕ → K} {y : Option (ℕ → Y)} {nAssets nObs : ℕ} {cv : Cv} {r : Fitted K × Option (List Y)}
    (h : stacking ests pick outer X y nAssets nObs cv = .ok r) (hest : ∀ e ∈ ests, ∀ ys, (e.1 (data X (List.range nObs) (List.range nAssets)) ys).length = nAssets) (a : ℕ) :
    r.1.weights a = (List.zipWith (fun o e => o * (e.1 (data X (List.range nObs) (List.range nAssets)) (y.map (List.range nObs).map)).getD a 0) r.1.outer ests).sum := by
  obtain ⟨hi, _, _, _, hw⟩ := stacking_inv h
  rw [hw, hi, combine, List.zipWith_map_right]
  congr 1
  apply List.ext_getElem
  · simp
  · intro i h1 h2
    rw [List.getElem_zipWith, List.getElem_zipWith, scatter_range _ _ (hest _ (List.getElem_mem _) _)]
    rfl

theorem zipWith_sum_const {β : Type} (os : List K) (ests : List β) (f : β → K) (h : os.length = ests.length) (hf : ∀ e ∈ ests, f e = 1) : (List.zipWith (fun o e => o * f e) os ests).sum = os.sum := by
  induction os generalizing ests with
  | nil => simp
  | cons o os ih =>
    cases ests with
    | nil => simp at h
    | cons e ests =>
      simp only [List.zipWith_cons_cons, List.sum_cons]
      rw [ih ests (by simpa using h) fun e' he => hf e' (by simp [he]), hf e (by simp), mul_one]

/-- **C23.** If the weights of all the estimators sum to one, the weights sum to the sum of the outer weights. -/
theorem C23_stacking_budget {ests : List ((List (List K) → Option (List Y) → List K) × (List K → K))} {pick : List (List K) → ℕ} {outer : List (List K) → Option (List Y) → List K} {X : ℕ → ℕ → K} {y : Option (ℕ → Y)} {nAssets nObs : ℕ} {cv : Cv} {r : Fitted K × Option (List Y)}
    (h : stacking ests pick outer X y nAssets nObs cv = .ok r) (hest : ∀ e ∈ ests, ∀ ys, (e.1 (data X (List.range nObs) (List.range nAssets)) ys).length = nAssets) (ho : r.1.outer.length = r.1.xPred.length)
    (hsum : ∀ e ∈ ests, ∀ ys, (e.1 (data X (List.range nObs) (List.range nAssets)) ys).sum = 1) : ∑ a ∈ Finset.range nAssets, r.1.weights a = r.1.outer.sum := by
  obtain ⟨hi, hx, _, _, hw⟩ := stacking_inv h
  have hlen : r.1.xPred.length = ests.length := by simpa using (congrArg List.length hx).symm
  have h1 := combine_dot nAssets r.1.outer r.1.inner fun _ => 1
  simp only [mul_one] at h1
  rw [hw, h1, hi, List.zipWith_map_right]
  refine zipWith_sum_const _ _ _ (by rw [ho, hlen]) ?_
  intro e he
  rw [scatter_sum _ _ _ List.nodup_range (by simpa using hest e he _) (by simp)]
  exact hsum e he _

/-- **C23.** If the weights of all the estimators and the outer weights are non-negative, so are the weights. -/
theorem C23_stacking_nonneg [LinearOrder K] [IsStrictOrderedRing K] {ests : List ((List (List K) → Option (List Y) → List K) × (List K → K))} {pick : List (List K) → ℕ} {outer : List (List K) → Option (List Y) → List K} {X : ℕ → ℕ → K} {y : Option (ℕ → Y)} {nAssets nObs : ℕ} {cv : Cv} {r : Fitted K × Option (List Y)}
    (h : stacking ests pick outer X y nAssets nObs cv = .ok r) (hest : ∀ e ∈ ests, ∀ ys, (e.1 (data X (List.range nObs) (List.range nAssets)) ys).length = nAssets)
    (hin : ∀ e ∈ ests, ∀ ys, ∀ w ∈ e.1 (data X (List.range nObs) (List.range nAssets)) ys, 0 ≤ w) (hout : ∀ w ∈ r.1.outer, 0 ≤ w) (a : ℕ) : 0 ≤ r.1.weights a := by
  rw [C23_stacking_weights h hest]
  apply List.sum_nonneg
  intro z hz
  obtain ⟨i, hi, rfl⟩ := List.getElem_of_mem hz
  rw [List.getElem_zipWith]
  rw [List.length_zipWith] at hi
  refine mul_nonneg (hout _ (List.getElem_mem _)) ?_
  by_cases ha : a < (ests[i].1 (data X (List.range nObs) (List.range nAssets)) (y.map (List.range nObs).map)).length
  · rw [List.getD_eq_getElem _ _ ha]
    exact hin _ (List.getElem_mem _) _ _ (List.getElem_mem ha)
  · rw [List.getD_eq_default _ _ (by omega)]

/-- **C57.** The final estimator of `StackingOptimization` is fitted on aligned out-of-sample returns and targets. -/
theorem C57_stacking_aligned {ests : List ((List (List K) → Option (List Y) → List K) × (List K → K))} {pick : List (List K) → ℕ} {outer : List (List K) → Option (List Y) → List K} {X : ℕ → ℕ → K} {y : Option (ℕ → Y)} {nAssets nObs : ℕ} {cv : Cv} {r : Fitted K × Option (List Y)}
    (h : stacking ests pick outer X y nAssets nObs cv = .ok r) (hcv : Consecutive nObs cv) :
    ∃ T : List ℕ, (ests ≠ [] → T.Pairwise (· < ·)) ∧ r.2 = y.map (fun f => T.map f) ∧ r.1.xPred.length = ests.length ∧ ∀ k (hk : k < r.1.xPred.length) (hk' : k < ests.length),
      IsSeries nObs cv (fun train t => portfolioReturn X (ests[k].1 (data X train (List.range nAssets)) (y.map train.map)) (List.range nAssets) t - ests[k].2 (ests[k].1 (data X train (List.range nAssets)) (y.map train.map))) T r.1.xPred[k] := by
  obtain ⟨_, hx, hy, _, _⟩ := stacking_inv h
  have hlen : r.1.xPred.length = ests.length := by simpa using (congrArg List.length hx).symm
  have hcol : ∀ k (hk : k < r.1.xPred.length) (hk' : k < ests.length), cvPredict (fun train => ests[k].1 (data X train (List.range nAssets)) (targetRows y train)) ests[k].2 pick X nObs (List.range nAssets) cv = .ok r.1.xPred[k] := by
    intro k hk hk'
    have h1 : (ests.map fun e => cvPredict (fun train => e.1 (data X train (List.range nAssets)) (targetRows y train)) e.2 pick X nObs (List.range nAssets) cv)[k]? = (r.1.xPred.map Except.ok)[k]? := by rw [hx]
    rw [List.getElem?_map, List.getElem?_map, List.getElem?_eq_getElem hk, List.getElem?_eq_getElem hk'] at h1
    simpa using h1
  refine ⟨testIndices nObs cv, ?_, by rw [hy]; rfl, hlen, ?_⟩
  · intro hne
    have h0 : 0 < ests.length := List.length_pos_iff.2 hne
    exact (cvPredict_series _ _ _ _ _ _ _ hcv _ (hcol 0 (by omega) h0)).1
  · intro k hk hk'
    exact (cvPredict_series _ _ _ _ _ _ _ hcv _ (hcol k hk hk')).2

/-- **C23/C57.** With fitted estimators, the weights are the outer-weighted sum of their weights, and the return of the stacked portfolio at each observation is the outer-weighted return of the columns on which the final estimator is fitted, up to the charges. -/
theorem C57_prefit_returns (fitted : List (List K × (List K → K))) (outer : List (List K) → Option (List Y) → List K) (X : ℕ → ℕ → K) (y : Option (ℕ → Y)) (nAssets nObs : ℕ) (hl : ∀ e ∈ fitted, e.1.length = nAssets) (t : ℕ) (ht : t < nObs) :
    ∑ a ∈ Finset.range nAssets, (stackingPrefit fitted outer X y nAssets nObs).weights a * X t a =
      (List.zipWith (fun o c => o * c.getD t 0) (stackingPrefit fitted outer X y nAssets nObs).outer (stackingPrefit fitted outer X y nAssets nObs).xPred).sum + (List.zipWith (fun o e => o * e.2 e.1) (stackingPrefit fitted outer X y nAssets nObs).outer fitted).sum := by
  unfold stackingPrefit
  dsimp only
  generalize outer _ _ = os
  rw [combine_dot, List.zipWith_map_right, List.zipWith_map_right]
  have hcol : ∀ e ∈ fitted, (predict e.2 X e.1 (List.range nAssets) (List.range nObs)).getD t 0 = ∑ a ∈ Finset.range nAssets, scatter (List.range nAssets) e.1 a * X t a - e.2 e.1 := by
    intro e he
    rw [predict_eq, List.getD_eq_getElem _ _ (by simpa using ht), List.getElem_map, List.getElem_range, scatter_dot _ _ _ List.nodup_range (by simpa using hl e he) (by simp)]
    rfl
  clear hl
  induction fitted generalizing os with
  | nil => simp
  | cons e fitted ih =>
    cases os with
    | nil => simp
    | cons o os =>
      simp only [List.zipWith_cons_cons, List.sum_cons]
      rw [ih os fun e' he => hcol e' (by simp [he]), hcol e (by simp)]
      ring

end

/-! ### Limits -/

/-- Equal weights, an estimator. -/
def equalWeights (m : List (List ℚ)) : List ℚ := List.replicate (m.headD []).length (1 / (m.headD []).length)

/-- **C57 fails for interleaved test sets.** `cross_val_predict` accepts the splits of four observations into the test sets {0, 2} and {1, 3}. Cluster {0, 1} is predicted in the order 0, 2, 1, 3, and the single asset 2 is read in the order 0, 1, 2, 3:
the returns on which the outer estimator is fitted do not belong to the same observations. Here the return of every asset at observation `t` is `t`. -/
theorem C57_interleaved_counterexample :
    ∃ r, nco [0, 0, 1] equalWeights (fun _ => 0) (fun _ => 0) equalWeights (fun t _ => (t : ℚ)) 4 (.plain none [([1, 3], [0, 2]), ([0, 2], [1, 3])]) = .ok r ∧ r.xPred = [[0, 2, 1, 3], [0, 1, 2, 3]] := by
  have hc : clusters [0, 0, 1] = [[0, 1], [2]] := by decide
  have h1 : column equalWeights (fun _ => 0) (fun _ => 0) (fun t _ => (t : ℚ)) 4 (.plain none [([1, 3], [0, 2]), ([0, 2], [1, 3])]) [0, 1] = .ok [0, 2, 1, 3] := by
    have : Validation.crossValPredict none [([1, 3], [0, 2]), ([0, 2], [1, 3])] (fun train test => predict (fun _ => 0) (fun t _ => (t : ℚ)) (equalWeights (data (fun t _ => (t : ℚ)) train [0, 1])) [0, 1] test) = .ok [[0, 2], [1, 3]] := by
      simp [Validation.crossValPredict, Validation.shuffleCheck, Validation.isIncreasing, Validation.argsort, List.range_succ, List.mergeSort, List.MergeSort.Internal.splitInTwo, predict, equalWeights, data, List.replicate]
      norm_num
    simp [column, cvPredict, this]
  have h2 : column equalWeights (fun _ => 0) (fun _ => 0) (fun t _ => (t : ℚ)) 4 (.plain none [([1, 3], [0, 2]), ([0, 2], [1, 3])]) [2] = .ok [0, 1, 2, 3] := by
    simp [column, testIndices, List.mergeSort, List.MergeSort.Internal.splitInTwo]
  exact nco_of _ (by rw [hc]; simp only [List.map_cons, List.map_nil, h1, h2]) (by simp)

/-- **C58.** `NestedClustersOptimization.fit(X, y)` with a target array or data frame succeeds only if no cluster has more than one asset, and then no inner estimator gets the target: the columns of `y` are selected with the indices of the assets.
So an inner estimator that needs factors or a benchmark cannot be used. Missing from the property as stated: everything about clusters with several assets, for which it is false. -/
theorem C58_targets_only_singletons_partial (labels : List ℤ) (m : ℕ) (h : IsLabelling labels m) (y : Target) (ys : List Target) :
    ncoTargets labels y = .ok ys ↔ ys = [] ∧ (∀ k, k < m → (members labels k).length = 1) ∧ (y = .vector ∨ y = .matrix 1) := by
  have hcl : clusters labels = (List.range m).map (members labels) := by
    have h1 := clusters_length_of labels m h
    rw [clusters_eq, List.length_map, List.length_range] at h1
    rw [clusters_eq, h1]
  have hne : ∀ k, k < m → members labels k ≠ [] := by
    intro k hk he
    obtain ⟨i, hi, hi'⟩ := List.getElem_of_mem (h.2 k hk)
    have : i ∈ members labels k := mem_members.2 ⟨hi, by rw [List.getD_eq_getElem _ _ hi, hi']⟩
    rw [he] at this
    simp at this
  obtain ⟨F, hF⟩ : ∃ F, F = (clusters labels).filter fun ids => decide (ids.length ≠ 1) := ⟨_, rfl⟩
  have hF0 : F = [] ↔ ∀ k, k < m → (members labels k).length = 1 := by
    rw [hF, List.filter_eq_nil_iff, hcl]
    simp
  constructor
  · intro hy
    unfold ncoTargets at hy
    rw [← hF] at hy
    cases hs : sequence (F.map (sliceTarget y)) with
    | error e => rw [hs] at hy; simp at hy
    | ok zs =>
      rw [hs] at hy
      dsimp only at hy
      have hy1 : (y = .vector ∨ y = .matrix 1) ∧ zs = ys := by
        split at hy
        · exact ⟨Or.inl rfl, by simpa using hy⟩
        · exact ⟨Or.inr rfl, by simpa using hy⟩
        · simp at hy
      have hF1 : F = [] := by
        by_contra hc
        obtain ⟨ids, L, rfl⟩ := List.exists_cons_of_ne_nil hc
        have hs' := (sequence_ok _ _).1 hs
        obtain ⟨z, hz⟩ : ∃ z, sliceTarget y ids = .ok z := by
          cases zs with
          | nil => simp at hs'
          | cons z zs => exact ⟨z, by simpa using (List.cons.inj hs').1⟩
        have hmem : ids ∈ (clusters labels).filter fun ids => decide (ids.length ≠ 1) := by rw [← hF]; simp
        obtain ⟨h1, h2⟩ := List.mem_filter.1 hmem
        rw [hcl] at h1
        obtain ⟨k, hk, rfl⟩ := List.mem_map.1 h1
        have h3 := hne k (List.mem_range.1 hk)
        have hnd := members_nodup labels k
        rcases hy1.1 with rfl | rfl
        · simp [sliceTarget] at hz
        · unfold sliceTarget at hz
          dsimp only at hz
          split_ifs at hz with hall
          generalize members labels k = l at *
          match l, h2, h3, hnd, hall with
          | [], _, h3, _, _ => exact h3 rfl
          | [a], h2, _, _, _ => simp at h2
          | a :: b :: l, _, _, hnd, hall =>
            simp at hall hnd
            omega
      refine ⟨?_, hF0.1 hF1, hy1.1⟩
      rw [hF1] at hs
      simp only [List.map_nil, sequence, Except.ok.injEq] at hs
      rw [← hy1.2, hs]
  · rintro ⟨rfl, hall, hy⟩
    unfold ncoTargets
    rw [← hF, hF0.2 hall]
    rcases hy with rfl | rfl <;> rfl

/-- Two clusters, one of them with two assets, and a data frame with two factors: the fit raises. -/
example : IsLabelling [0, 0, 1] 2 ∧ ncoTargets [0, 0, 1] (.matrix 2) = .error .targetShape ∧ ncoTargets [0, 0, 1] (.matrix 1) = .error .indexError ∧ ncoTargets [0, 0, 1] .vector = .error .indexError := by
  refine ⟨⟨by decide, ?_⟩, by decide, by decide, by decide⟩
  intro k hk
  obtain rfl | rfl : k = 0 ∨ k = 1 := by omega
  · decide
  · decide

/-- The hypotheses of C23 and C57 are met by consecutive folds: four observations, two folds, two clusters. -/
example : Consecutive 4 (.plain none [([2, 3], [0, 1]), ([0, 1], [2, 3])]) ∧ IsLabelling [0, 0, 1] 2 ∧ Fits equalWeights (fun t a => (t : ℚ) + a) 4 ∧
    ∃ r, nco [0, 0, 1] equalWeights (fun _ => 0) (fun _ => 0) equalWeights (fun t a => (t : ℚ) + a) 4 (.plain none [([2, 3], [0, 1]), ([0, 1], [2, 3])]) = .ok r ∧ r.xPred = [[1 / 2, 3 / 2, 5 / 2, 7 / 2], [2, 3, 4, 5]] := by
  refine ⟨?_, ⟨by decide, ?_⟩, fun ids => by simp [equalWeights, data, List.range_succ], ?_⟩
  · intro s hs
    simp only [List.mem_cons, List.not_mem_nil, or_false] at hs
    rcases hs with rfl | rfl
    · exact ⟨0, 2, rfl⟩
    · exact ⟨2, 2, rfl⟩
  · intro k hk
    obtain rfl | rfl : k = 0 ∨ k = 1 := by omega
    · decide
    · decide
  have hc : clusters [0, 0, 1] = [[0, 1], [2]] := by decide
  have h1 : column equalWeights (fun _ => 0) (fun _ => 0) (fun t a => (t : ℚ) + a) 4 (.plain none [([2, 3], [0, 1]), ([0, 1], [2, 3])]) [0, 1] = .ok [1 / 2, 3 / 2, 5 / 2, 7 / 2] := by
    have : Validation.crossValPredict none [([2, 3], [0, 1]), ([0, 1], [2, 3])] (fun train test => predict (fun _ => 0) (fun t a => (t : ℚ) + a) (equalWeights (data (fun t a => (t : ℚ) + a) train [0, 1])) [0, 1] test) = .ok [[1 / 2, 3 / 2], [5 / 2, 7 / 2]] := by
      simp [Validation.crossValPredict, Validation.shuffleCheck, Validation.isIncreasing, Validation.argsort, List.range_succ, List.mergeSort, List.MergeSort.Internal.splitInTwo, predict, equalWeights, data, List.replicate]
      norm_num
    simp [column, cvPredict, this]
  have h2 : column equalWeights (fun _ => 0) (fun _ => 0) (fun t a => (t : ℚ) + a) 4 (.plain none [([2, 3], [0, 1]), ([0, 1], [2, 3])]) [2] = .ok [2, 3, 4, 5] := by
    simp [column, testIndices, List.mergeSort, List.MergeSort.Internal.splitInTwo]
    norm_num
  exact nco_of _ (by rw [hc]; simp only [List.map_cons, List.map_nil, h1, h2]) (by simp)

end Skfolio.Nested
