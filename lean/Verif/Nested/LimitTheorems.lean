import Verif.Nested.Theorems

/-!
**C136.** Limiting cases of `NestedClustersOptimization` and `StackingOptimization`: when there is nothing to nest or to combine, they are the plain estimators.
-/
set_option autoImplicit false

namespace Skfolio.Nested

section
variable {K : Type} [Field K]

theorem members_single {labels : List ℤ} (hd : labels.Nodup) {a k : ℕ} (ha : a < labels.length) (hk : labels.getD a (-1) = (k : ℤ)) : members labels k = [a] := by
  have hall : ∀ b ∈ members labels k, b = a := by
    intro b hb
    obtain ⟨h1, h2⟩ := mem_members.1 hb
    rw [List.getD_eq_getElem _ _ h1] at h2
    rw [List.getD_eq_getElem _ _ ha] at hk
    exact (hd.getElem_inj_iff).1 (h2.trans hk.symm)
  have hmem : a ∈ members labels k := mem_members.2 ⟨ha, hk⟩
  have hn := members_nodup labels k
  match hm : members labels k with
  | [] => rw [hm] at hmem; cases hmem
  | [b] => rw [hm] at hall; rw [hall b (by simp)]
  | b :: c :: l =>
    rw [hm] at hall hn
    have e1 := hall b (by simp)
    have e2 := hall c (by simp)
    rw [e1, e2] at hn
    simp at hn

/-- **C136.** If every asset is a cluster of its own, `NestedClustersOptimization` is its outer estimator: the fit succeeds whatever the inner estimator and the cross-validation, the outer estimator gets the returns of the assets themselves at the
test observations, and each asset has the weight the outer estimator gives to its column. -/
theorem C136_nco_single_assets (labels : List ℤ) (m : ℕ) (hd : labels.Nodup) (hlab : IsLabelling labels m) (est : List (List K) → List K) (charge : List K → K) (pick : List (List K) → ℕ) (outer : List (List K) → List K) (X : ℕ → ℕ → K) (nObs : ℕ) (cv : Cv)
    (ho : ∀ x, (outer x).length = x.length) :
    ∃ cols, ∃ r, nco labels est charge pick outer X nObs cv = .ok r ∧ r.xPred = cols ∧ cols.length = m ∧
      ∀ a k : ℕ, a < labels.length → labels.getD a (-1) = (k : ℤ) → cols[k]? = some ((testIndices nObs cv).map fun t => X t a) ∧ r.weights a = (outer cols).getD k 0 := by
  classical
  have hlen := clusters_length_of labels m hlab
  have hex : ∀ k, k < m → ∃ a, a < labels.length ∧ labels.getD a (-1) = (k : ℤ) := by
    intro k hk
    obtain ⟨i, hi, hi'⟩ := List.getElem_of_mem (hlab.2 k hk)
    exact ⟨i, hi, by rw [List.getD_eq_getElem _ _ hi, hi']⟩
  let cols : List (List K) := (clusters labels).map fun ids => (testIndices nObs cv).map fun t => X t (ids.headD 0)
  have hcols : (clusters labels).map (column est charge pick X nObs cv) = cols.map .ok := by
    rw [List.map_map]
    refine List.map_congr_left fun ids hids => ?_
    obtain ⟨k, hk, rfl⟩ := List.getElem_of_mem hids
    obtain ⟨a, ha, hka⟩ := hex k (hlen ▸ hk)
    rw [clusters_getElem, members_single hd ha hka]
    rfl
  have hpair : cols.Pairwise fun c d => c.length = d.length := by
    rw [List.pairwise_map]
    exact List.pairwise_of_forall fun _ _ => by simp
  obtain ⟨r, hr, hx⟩ := nco_of outer hcols hpair
  refine ⟨cols, r, hr, hx, by simp [cols, hlen], ?_⟩
  intro a k ha hk
  have hkl := label_lt ha hk
  have hm := members_single hd ha hk
  refine ⟨?_, ?_⟩
  · rw [List.getElem?_map, List.getElem?_eq_getElem hkl, clusters_getElem, hm]
    rfl
  · obtain ⟨hi, _, hou, hw⟩ := nco_inv hr
    have hol : r.outer.length = r.inner.length := by rw [hou, ho, hx, hi]; simp [cols]
    have hil : k < r.inner.length := by rw [hi, List.length_map]; exact hkl
    have hval : ∀ j (hj : j < r.inner.length), ∃ b, b < labels.length ∧ labels.getD b (-1) = (j : ℤ) ∧ r.inner[j] = scatter [b] [1] := by
      intro j hj
      have hj' : j < (clusters labels).length := by rw [hi, List.length_map] at hj; exact hj
      obtain ⟨b, hb, hjb⟩ := hex j (hlen ▸ hj')
      refine ⟨b, hb, hjb, ?_⟩
      simp only [hi, List.getElem_map]
      rw [clusters_getElem, members_single hd hb hjb]
      rfl
    rw [hw, combine_single r.outer r.inner a k hil hol, hou, hx]
    · obtain ⟨b, hb, hjb, e⟩ := hval k hil
      have : b = a := by
        have := members_single hd hb hjb
        rw [hm] at this
        simpa using this.symm
      rw [e, this, scatter_getD [a] [(1 : K)] (by simp) rfl a (by simp)]
      simp
    · intro j hj hne
      obtain ⟨b, hb, hjb, e⟩ := hval j hj
      rw [e, scatter_not_mem]
      intro hmem
      rw [List.mem_singleton] at hmem
      rw [← hmem, hk] at hjb
      exact hne (by exact_mod_cast hjb.symm)

/-- **C136.** If all the assets are in one cluster, `NestedClustersOptimization` is its inner estimator fitted on the whole data, up to the weight the outer estimator gives to its only column (one for a fully invested outer estimator). -/
theorem C136_nco_one_cluster (n : ℕ) (hn : 2 ≤ n) {est : List (List K) → List K} {charge : List K → K} {pick : List (List K) → ℕ} {outer : List (List K) → List K} {X : ℕ → ℕ → K} {nObs : ℕ} {cv : Cv} {r : Fitted K}
    (h : nco (List.replicate n 0) est charge pick outer X nObs cv = .ok r) (hest : Fits est X nObs) (o : K) (ho : r.outer = [o]) (a : ℕ) (ha : a < n) :
    r.weights a = o * (est (data X (List.range nObs) (List.range n))).getD a 0 := by
  have hlab : IsLabelling (List.replicate n 0) 1 := by
    refine ⟨fun l hl => ?_, fun k hk => ?_⟩
    · rw [List.eq_of_mem_replicate hl]; decide
    · obtain rfl : k = 0 := by omega
      exact List.mem_replicate.2 ⟨by omega, rfl⟩
  have hm : members (List.replicate n 0) 0 = List.range n := by
    unfold members
    rw [List.length_replicate, List.filter_eq_self]
    intro b hb
    rw [List.getD_eq_getElem _ _ (by simpa using hb)]
    simp
  have hx : r.xPred.length = 1 := by rw [xPred_length h, clusters_length_of _ 1 hlab]
  have := C23_nco_weights h hest (by rw [ho, hx]; rfl) a 0 (by simpa using ha) (by rw [List.getD_eq_getElem _ _ (by simpa using ha)]; simp)
  rw [this, hm, ho]
  have e : clusterWeights est X (List.range nObs) (List.range n) = est (data X (List.range nObs) (List.range n)) := if_neg (by rw [List.length_range]; omega)
  have hidx := List.nodup_range.idxOf_getElem a (by simpa using ha : a < (List.range n).length)
  rw [List.getElem_range] at hidx
  rw [e, hidx]
  rfl

variable {Y : Type}

/-- **C136.** Estimators that agree on the whole data: if the outer weights sum to one, the weights of `StackingOptimization` are the common weights. In particular this is so for a single estimator. -/
theorem C136_stacking_agree {ests : List ((List (List K) → Option (List Y) → List K) × (List K → K))} {pick : List (List K) → ℕ} {outer : List (List K) → Option (List Y) → List K} {X : ℕ → ℕ → K} {y : Option (ℕ → Y)} {nAssets nObs : ℕ} {cv : Cv} {r : Fitted K × Option (List Y)}
    (h : stacking ests pick outer X y nAssets nObs cv = .ok r) (w : List K) (hw : w.length = nAssets) (hagree : ∀ e ∈ ests, e.1 (data X (List.range nObs) (List.range nAssets)) (y.map (List.range nObs).map) = w)
    (ho : r.1.outer.length = ests.length) (hsum : r.1.outer.sum = 1) (a : ℕ) : r.1.weights a = w.getD a 0 := by
  obtain ⟨hi, _, _, _, hwt⟩ := stacking_inv h
  have hin : r.1.inner = ests.map fun _ => scatter (List.range nAssets) w := by
    rw [hi]
    refine List.map_congr_left fun e he => ?_
    rw [← hagree e he]
    rfl
  rw [hwt, hin, combine, List.zipWith_map_right]
  simp only [scatter_range nAssets w hw a]
  have hz : ∀ (os : List K) (es : List ((List (List K) → Option (List Y) → List K) × (List K → K))), os.length = es.length → (List.zipWith (fun o _ => o * w.getD a 0) os es).sum = os.sum * w.getD a 0 := by
    intro os es hl
    induction os generalizing es with
    | nil => simp
    | cons o os ih =>
      cases es with
      | nil => simp at hl
      | cons e es =>
        simp only [List.zipWith_cons_cons, List.sum_cons]
        rw [ih es (by simpa using hl), add_mul]
  rw [hz _ _ ho, hsum, one_mul]

/-- **C136.** The same for fitted estimators. -/
theorem C136_prefit_agree (fitted : List (List K × (List K → K))) (outer : List (List K) → Option (List Y) → List K) (X : ℕ → ℕ → K) (y : Option (ℕ → Y)) (nAssets nObs : ℕ) (w : List K) (hw : w.length = nAssets) (hagree : ∀ e ∈ fitted, e.1 = w)
    (ho : ∀ x z, (outer x z).length = x.length) (hsum : ∀ x z, (outer x z).sum = 1) (a : ℕ) : (stackingPrefit fitted outer X y nAssets nObs).weights a = w.getD a 0 := by
  unfold stackingPrefit
  dsimp only
  generalize hx : (fitted.map fun e => predict e.2 X e.1 (List.range nAssets) (List.range nObs)) = x
  have hl : (outer x (targetRows y (List.range nObs))).length = fitted.length := by rw [ho, ← hx, List.length_map]
  have hin : (fitted.map fun e => scatter (List.range nAssets) e.1) = fitted.map fun _ => scatter (List.range nAssets) w := List.map_congr_left fun e he => by rw [hagree e he]
  rw [hin, combine, List.zipWith_map_right]
  simp only [scatter_range nAssets w hw a]
  have hz : ∀ (os : List K) (es : List (List K × (List K → K))), os.length = es.length → (List.zipWith (fun o _ => o * w.getD a 0) os es).sum = os.sum * w.getD a 0 := by
    intro os es hl
    induction os generalizing es with
    | nil => simp
    | cons o os ih =>
      cases es with
      | nil => simp at hl
      | cons e es =>
        simp only [List.zipWith_cons_cons, List.sum_cons]
        rw [ih es (by simpa using hl), add_mul]
  rw [hz _ _ hl, hsum, one_mul]

end

/-! ### Examples -/

/-- Three assets, each a cluster of its own, with the labels in another order. -/
example : IsLabelling [2, 0, 1] 3 ∧ ([2, 0, 1] : List ℤ).Nodup ∧ ∀ x : List (List ℚ), (x.map fun _ => (1 : ℚ) / 2).length = x.length := by
  refine ⟨⟨by decide, fun k hk => ?_⟩, by decide, by simp⟩
  obtain rfl | rfl | rfl : k = 0 ∨ k = 1 ∨ k = 2 := by omega
  all_goals decide

/-- One cluster of three assets, without cross-validation. -/
example : ∃ r, nco (List.replicate 3 0) equalWeights (fun _ => 0) (fun _ => 0) (fun x => x.map fun _ => 1) (fun t a => (t : ℚ) + a) 4 .ignore = .ok r ∧ r.outer = [1] := by
  have hc : clusters (List.replicate 3 0) = [[0, 1, 2]] := by decide
  obtain ⟨r, hr, hx⟩ := nco_of (labels := List.replicate 3 0) (est := equalWeights) (charge := fun _ => 0) (pick := fun _ => 0) (fun x => x.map fun _ => 1) (X := fun t a => (t : ℚ) + a) (nObs := 4) (cv := .ignore)
    (cols := [predict (fun _ => 0) (fun t a => (t : ℚ) + a) (equalWeights (data (fun t a => (t : ℚ) + a) (List.range 4) [0, 1, 2])) [0, 1, 2] (List.range 4)]) (by rw [hc]; rfl) (by simp)
  exact ⟨r, hr, by rw [(nco_inv hr).2.2.1, hx]; rfl⟩

/-- Two estimators that agree on the whole data, but not on the training sets. -/
example : ∃ (ests : List ((List (List ℚ) → Option (List ℚ) → List ℚ) × (List ℚ → ℚ))) (r : Fitted ℚ × Option (List ℚ)),
    stacking ests (fun _ => 0) (fun x _ => x.map fun _ => 1 / 2) (fun t a => (t : ℚ) + a) none 2 3 .ignore = .ok r ∧ ests.length = 2 ∧
      (∀ e ∈ ests, e.1 (data (fun t a => (t : ℚ) + a) (List.range 3) (List.range 2)) none = [1 / 3, 2 / 3]) ∧ r.1.outer.sum = 1 :=
  ⟨[(fun _ _ => [1 / 3, 2 / 3], fun _ => 0), (fun x _ => if x.length = 3 then [1 / 3, 2 / 3] else [1, 0], fun _ => 0)], _, rfl, rfl, by simp [data], by decide +kernel⟩

end Skfolio.Nested
