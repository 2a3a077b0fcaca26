import Verif.Combinatorial.Lemmas

/-!
C06, C07 and the combinatorial half of C08: `src/skfolio/model_selection/_combinatorial.py` and `_validation.py`.
-/
set_option autoImplicit false

namespace Skfolio.Combinatorial

/-! ### Specification -/

/-- The consecutive indices `a, …, b-1`. -/
def interval (a b : Nat) : List Nat := List.range' a (b - a)

/-- Fold `f`: the sample is cut into `nFolds` consecutive blocks of `n // nFolds` observations, and the last block also takes
the remainder, but at most one further block (`C06_all_tested_iff` says when nothing is lost by this). -/
def block (nFolds n f : Nat) : List Nat :=
  if f + 1 < nFolds then interval (f * (n / nFolds)) ((f + 1) * (n / nFolds))
  else interval (f * (n / nFolds)) (min n ((nFolds + 1) * (n / nFolds)))

/-- `S` lists every choice of `k` of the folds `0, …, nFolds-1` exactly once (each choice in increasing order). -/
structure AllChoices (nFolds k : Nat) (S : List (List Nat)) : Prop where
  nodup : S.Nodup
  mem : ∀ c, c ∈ S ↔ (c.Pairwise (· < ·) ∧ c.length = k ∧ ∀ f ∈ c, f < nFolds)

/-- `u` is in one of the test arrays of a split. -/
def IsTest (s : List Nat × List (List Nat)) (u : Nat) : Prop := ∃ a ∈ s.2, u ∈ a

/-- The parameters accepted by the constructor. -/
def Valid (p : Params) : Prop := 3 ≤ p.nFolds ∧ 2 ≤ p.nTestFolds ∧ p.nTestFolds < p.nFolds

/-- The remainder fits into one extra block: the code only merges fold number `nFolds` into the last fold. -/
def RemainderFits (nFolds n : Nat) : Prop := n ≤ (nFolds + 1) * (n / nFolds)

/-! ### constructor -/

/-- **C06.** The constructor accepts exactly the valid parameters. -/
theorem C06_init (nFolds nTestFolds purged embargo : Nat) (p : Params) :
    init nFolds nTestFolds purged embargo = .ok p ↔
      (p = ⟨nFolds, nTestFolds, purged, embargo⟩ ∧ Valid p) := by
  unfold init
  split_ifs with h1 h2 h3
  · simp only [false_iff]
    rintro ⟨rfl, h⟩; unfold Valid at h; simp at h; omega
  · simp only [false_iff]
    rintro ⟨rfl, h⟩; unfold Valid at h; simp at h; omega
  · simp only [false_iff]
    rintro ⟨rfl, h⟩; unfold Valid at h; simp at h; omega
  · constructor
    · intro h
      obtain rfl : _ = p := by simpa using h
      exact ⟨rfl, by unfold Valid; simp; omega⟩
    · rintro ⟨rfl, _⟩; rfl

/-! ### folds -/

/-- **C06.** The folds are consecutive blocks. -/
theorem C06_folds (nFolds n f : Nat) (hf : f < nFolds) (hm : 1 ≤ n / nFolds) :
    foldIndex nFolds n f = block nFolds n f := by
  have hsorted : ∀ a b, (interval a b).Pairwise (· < ·) := by
    intro a b; unfold interval; exact List.pairwise_lt_range'
  have hmem : ∀ a b x, x ∈ interval a b ↔ a ≤ x ∧ x < b := by
    intro a b x; unfold interval; rw [List.mem_range'_1]; omega
  have hmod := Nat.div_mul_le_self n nFolds
  rw [Nat.mul_comm] at hmod
  obtain ⟨m, hmdef⟩ : ∃ m, n / nFolds = m := ⟨_, rfl⟩
  apply List.Perm.eq_of_pairwise (le := (· < ·))
  · intro a b _ _ h1 h2; omega
  · unfold foldIndex; exact List.Pairwise.filter _ List.pairwise_lt_range
  · unfold block; split_ifs <;> exact hsorted _ _
  · rw [List.perm_ext_iff_of_nodup]
    · intro t
      unfold foldIndex block foldNum
      rw [hmdef] at hm hmod ⊢
      simp only [List.mem_filter, List.mem_range, decide_eq_true_eq]
      have hd : ∀ q, t / m = q ↔ (q * m ≤ t ∧ t < (q + 1) * m) := by
        intro q
        rw [Nat.div_eq_iff (by omega)]
        rw [Nat.succ_mul]
        constructor <;> intro h <;> omega
      have e1 : ∀ q, (q + 1) * m = q * m + m := fun q => Nat.succ_mul q m
      by_cases hlast : f + 1 < nFolds
      · rw [if_pos hlast, hmem]
        have hle : (f + 1) * m ≤ nFolds * m := Nat.mul_le_mul_right _ (by omega)
        constructor
        · rintro ⟨a, b⟩
          split_ifs at b with hq
          · omega
          · exact (hd f).1 b
        · rintro ⟨a, b⟩
          refine ⟨by omega, ?_⟩
          have := (hd f).2 ⟨a, b⟩
          rw [this, if_neg (by omega)]
      · obtain rfl : nFolds = f + 1 := by omega
        rw [if_neg hlast, hmem]
        have := e1 f
        have := e1 (f + 1)
        constructor
        · rintro ⟨a, b⟩
          split_ifs at b with hq
          · have := (hd _).1 hq; omega
          · have := (hd f).1 b; omega
        · rintro ⟨a, b⟩
          refine ⟨by omega, ?_⟩
          split_ifs with hq
          · omega
          · rcases Nat.lt_or_ge t ((f + 1) * m) with h | h
            · exact (hd f).2 ⟨a, h⟩
            · exact absurd ((hd (f + 1)).2 ⟨h, by omega⟩) hq
    · unfold foldIndex; exact List.nodup_range.filter _
    · unfold block; split_ifs <;> exact (hsorted _ _).imp (fun h => Nat.ne_of_lt h)

/-- **C06.** Every observation belongs to a fold (hence is tested in some split) iff the remainder fits into one extra block. -/
theorem C06_all_tested_iff (nFolds n : Nat) (hn : 1 ≤ nFolds) (hm : 1 ≤ n / nFolds) :
    (∀ t, t < n → ∃ f, f < nFolds ∧ t ∈ foldIndex nFolds n f) ↔ RemainderFits nFolds n := by
  have hmem : ∀ a b x, x ∈ interval a b ↔ a ≤ x ∧ x < b := by
    intro a b x; unfold interval; rw [List.mem_range'_1]; omega
  obtain ⟨m, hmdef⟩ : ∃ m, n / nFolds = m := ⟨_, rfl⟩
  have hmod := Nat.div_mul_le_self n nFolds
  rw [Nat.mul_comm] at hmod
  have hlast : ∀ t f, f < nFolds → t ∈ foldIndex nFolds n f → t < (nFolds + 1) * m := by
    intro t f hf ht
    rw [C06_folds nFolds n f hf hm] at ht
    unfold block at ht
    rw [hmdef] at ht
    split_ifs at ht
    · rw [hmem] at ht
      have : (f + 1) * m ≤ (nFolds + 1) * m := Nat.mul_le_mul_right _ (by omega)
      omega
    · rw [hmem] at ht; omega
  unfold RemainderFits
  constructor
  · intro h
    have hnpos : 0 < n := by
      rcases Nat.eq_zero_or_pos n with h0 | h0
      · rw [h0] at hm; simp at hm
      · exact h0
    obtain ⟨f, hf, ht⟩ := h (n - 1) (by omega)
    have := hlast _ _ hf ht
    rw [hmdef]; omega
  · intro h t ht
    rw [hmdef] at h hmod hm
    by_cases hlt : t < nFolds * m
    · refine ⟨t / m, by rw [Nat.div_lt_iff_lt_mul (by omega)]; exact hlt, ?_⟩
      rw [C06_folds nFolds n _ (by rw [Nat.div_lt_iff_lt_mul (by omega)]; exact hlt) (by omega)]
      have h1 : t / m * m ≤ t := Nat.div_mul_le_self t m
      have h2 : t < (t / m + 1) * m := by
        rw [Nat.mul_comm]; exact Nat.lt_mul_div_succ t (by omega)
      unfold block
      rw [hmdef]
      split_ifs
      · rw [hmem]; exact ⟨h1, h2⟩
      · rw [hmem]; exact ⟨h1, by omega⟩
    · refine ⟨nFolds - 1, by omega, ?_⟩
      rw [C06_folds nFolds n _ (by omega) (by omega)]
      unfold block
      rw [hmdef, if_neg (by omega), hmem]
      have : (nFolds - 1) * m ≤ nFolds * m := Nat.mul_le_mul_right _ (by omega)
      omega

example : RemainderFits 4 10 ∧ block 4 10 3 = [6, 7, 8, 9] ∧ foldIndex 4 10 3 = [6, 7, 8, 9] := by
  unfold RemainderFits; decide

/-- **C06 (disagreement).** If the remainder is larger than one block, the last observations belong to no fold: they are
never in any test set. Eleven observations, four folds: the last observation is lost. -/
theorem C06_observations_lost :
    ∃ (p : Params) (n : Nat) (L : List (List Nat × List (List Nat))), init p.nFolds p.nTestFolds p.purgedSize p.embargoSize = .ok p ∧
      split p n = .ok L ∧ ∃ t, t < n ∧ ∀ s ∈ L, ¬ IsTest s t := by
  refine ⟨⟨4, 2, 0, 0⟩, 11, _, rfl, rfl, 10, by decide, ?_⟩
  unfold IsTest
  decide

/-! ### splits -/

theorem allChoices (p : Params) : AllChoices p.nFolds p.nTestFolds (testSetIndex p.nFolds p.nTestFolds) := by
  refine ⟨combos_nodup _ List.nodup_range _, ?_⟩
  intro c
  constructor
  · exact testSet_props
  · rintro ⟨h1, h2, h3⟩
    unfold testSetIndex
    rw [mem_combos]
    refine ⟨?_, h2⟩
    have := filter_range_contains p.nFolds c h1 h3
    rw [← this]
    exact List.filter_sublist

theorem finalCol_zero_iff (p : Params) (n : Nat) (S : List Nat) (t : Nat) (ht : t < n) :
    finalCol p n S t = 0 ↔ (S.contains (foldNum p.nFolds n t) = false ∧
      (∀ u, u < n → S.contains (foldNum p.nFolds n u) = true → t < u → t + p.purgedSize < u) ∧
      (∀ u, u < n → S.contains (foldNum p.nFolds n u) = true → u < t → u + (p.purgedSize + p.embargoSize) < t)) := by
  unfold finalCol purgeAfter purgeBefore
  rw [mark_fold2 _ _ (fun k r => min (n - 1) (r + k + 1)), mark_fold2 _ _ (fun k r => r - k)]
  set b : Nat → Bool := fun u => S.contains (foldNum p.nFolds n u) with hb
  have hc : ∀ u, u < n → initCol p.nFolds n S u = if b u then 1 else 0 := by
    intro u hu
    unfold initCol
    simp only [hb, hu, true_and]
  have hdi : ∀ v r, r ∈ diffIndex n (initCol p.nFolds n S) v ↔
      (r + 1 < n ∧ (if b (r + 1) then (1 : Int) else 0) - (if b r then 1 else 0) = v) := by
    intro v r
    unfold diffIndex
    rw [List.mem_filter, List.mem_range]
    constructor
    · rintro ⟨h1, h2⟩
      refine ⟨by omega, ?_⟩
      rw [hc _ (by omega), hc _ (by omega)] at h2
      simpa using h2
    · rintro ⟨h1, h2⟩
      refine ⟨by omega, ?_⟩
      rw [hc _ (by omega), hc _ (by omega)]
      simpa using h2
  have hup : ∀ r, r ∈ diffIndex n (initCol p.nFolds n S) 1 ↔ (r + 1 < n ∧ b r = false ∧ b (r + 1) = true) := by
    intro r
    rw [hdi]
    cases b r <;> cases b (r + 1) <;> simp
  have hdown : ∀ r, r ∈ diffIndex n (initCol p.nFolds n S) (-1) ↔ (r + 1 < n ∧ b r = true ∧ b (r + 1) = false) := by
    intro r
    rw [hdi]
    cases b r <;> cases b (r + 1) <;> simp
  by_cases hA : ∃ k ∈ List.range (p.purgedSize + p.embargoSize), ∃ r ∈ diffIndex n (initCol p.nFolds n S) (-1),
      min (n - 1) (r + k + 1) = t
  · rw [if_pos hA]
    simp only [Int.reduceNeg, neg_eq_zero, one_ne_zero, false_iff]
    rintro ⟨_, _, h3⟩
    obtain ⟨k, hk, r, hr, hkr⟩ := hA
    rw [List.mem_range] at hk
    rw [hdown] at hr
    have := h3 r (by omega) hr.2.1 (by omega)
    omega
  · rw [if_neg hA]
    by_cases hB : ∃ k ∈ List.range p.purgedSize, ∃ r ∈ diffIndex n (initCol p.nFolds n S) 1, r - k = t
    · rw [if_pos hB]
      simp only [Int.reduceNeg, neg_eq_zero, one_ne_zero, false_iff]
      rintro ⟨_, h2, _⟩
      obtain ⟨k, hk, r, hr, hkr⟩ := hB
      rw [List.mem_range] at hk
      rw [hup] at hr
      have := h2 (r + 1) (by omega) hr.2.2 (by omega)
      omega
    · rw [if_neg hB, hc t ht]
      constructor
      · intro h
        have hbt : b t = false := by
          cases hbt : b t
          · rfl
          · rw [hbt] at h; simp at h
        refine ⟨hbt, ?_, ?_⟩
        · intro u hu hbu htu
          by_contra hle
          obtain ⟨r, h1, h2, h3, h4⟩ := exists_up b t u htu hbt hbu
          exact hB ⟨r - t, by rw [List.mem_range]; omega, r, (hup r).2 ⟨by omega, h3, h4⟩, by omega⟩
        · intro u hu hbu hut
          by_contra hle
          obtain ⟨r, h1, h2, h3, h4⟩ := exists_down b u t hut hbu hbt
          refine hA ⟨t - r - 1, by rw [List.mem_range]; omega, r, (hdown r).2 ⟨by omega, h3, h4⟩, by omega⟩
      · rintro ⟨h, _, _⟩
        have h' : b t = false := h
        rw [h']; rfl

/-- **C06.** Exact description of the splits. There is one split for every choice of `n_test_folds` folds; its test arrays
are the chosen folds in order; an observation is in the training set iff it is not tested, no test
observation is among the `purged_size` following observations and none is among the `purged_size + embargo_size` preceding
ones. -/
theorem C06_train_test (p : Params) (hp : Valid p) (n : Nat)
    (L : List (List Nat × List (List Nat))) (hL : split p n = .ok L) :
    ∃ S, AllChoices p.nFolds p.nTestFolds S ∧ ∃ hlen : L.length = S.length,
      ∀ i (hi : i < L.length), L[i].2 = S[i].map (block p.nFolds n) ∧ L[i].1.Pairwise (· < ·) ∧
        ∀ t, t ∈ L[i].1 ↔ (t < n ∧ ¬ IsTest L[i] t ∧ (∀ u, IsTest L[i] u → t < u → t + p.purgedSize < u) ∧
          (∀ u, IsTest L[i] u → u < t → u + (p.purgedSize + p.embargoSize) < t)) := by
  unfold split at hL
  split_ifs at hL with hguard
  have hL' := Except.ok.inj hL
  subst hL'
  have hm : 1 ≤ n / p.nFolds := by omega
  obtain ⟨k, hk⟩ : ∃ k, p.nTestFolds = k + 1 := ⟨p.nTestFolds - 1, by have := hp.2.1; omega⟩
  refine ⟨testSetIndex p.nFolds p.nTestFolds, allChoices p, ?_, ?_⟩
  · rw [List.length_map, List.length_range, testSetIndex_length]
  intro i hi
  rw [List.length_map, List.length_range] at hi
  have hiT : i < (testSetIndex p.nFolds p.nTestFolds).length := by rw [testSetIndex_length]; exact hi
  simp only [List.getElem_map, List.getElem_range]
  have hget : (testSetIndex p.nFolds p.nTestFolds).getD i [] = (testSetIndex p.nFolds p.nTestFolds)[i] :=
    List.getD_eq_getElem _ _ hiT
  obtain ⟨h1, h2, h3⟩ := testSet_props (List.getElem_mem hiT)
  have htests : ((argwhereEq (recombinedPaths p.nFolds p.nTestFolds) i).map fun fp => foldIndex p.nFolds n fp.1) =
      ((testSetIndex p.nFolds p.nTestFolds)[i]).map (foldIndex p.nFolds n) := by
    rw [← hget]
    rw [hk] at hi ⊢
    rw [argwhereEq_eq hi, List.map_map]
    rfl
  have hblock : ((testSetIndex p.nFolds p.nTestFolds)[i]).map (foldIndex p.nFolds n) =
      ((testSetIndex p.nFolds p.nTestFolds)[i]).map (block p.nFolds n) := by
    apply List.map_congr_left
    intro f hf
    exact C06_folds p.nFolds n f (h3 f hf) hm
  refine ⟨htests.trans hblock, List.Pairwise.filter _ List.pairwise_lt_range, ?_⟩
  intro t
  rw [List.mem_filter, List.mem_range, hget]
  have hist : ∀ u, IsTest ((List.range n).filter fun t => decide (finalCol p n (testSetIndex p.nFolds p.nTestFolds)[i] t = 0),
      (argwhereEq (recombinedPaths p.nFolds p.nTestFolds) i).map fun fp => foldIndex p.nFolds n fp.1) u ↔
      (u < n ∧ ((testSetIndex p.nFolds p.nTestFolds)[i]).contains (foldNum p.nFolds n u) = true) := by
    intro u
    unfold IsTest
    simp only [htests]
    rw [List.contains_iff_mem]
    constructor
    · rintro ⟨a, ha, hu⟩
      obtain ⟨f, hf, rfl⟩ := List.mem_map.1 ha
      unfold foldIndex at hu
      rw [List.mem_filter, List.mem_range] at hu
      have : foldNum p.nFolds n u = f := by simpa using hu.2
      rw [this]; exact ⟨hu.1, hf⟩
    · rintro ⟨hu, hf⟩
      refine ⟨_, List.mem_map.2 ⟨_, hf, rfl⟩, ?_⟩
      unfold foldIndex
      rw [List.mem_filter, List.mem_range]
      exact ⟨hu, by simp⟩
  simp only [hist]
  constructor
  · rintro ⟨ht, h0⟩
    have h0' := (finalCol_zero_iff p n _ t ht).1 (by simpa using h0)
    refine ⟨ht, ?_, fun u hu htu => h0'.2.1 u hu.1 hu.2 htu, fun u hu htu => h0'.2.2 u hu.1 hu.2 htu⟩
    rintro ⟨_, hc⟩
    rw [h0'.1] at hc; exact absurd hc (by simp)
  · rintro ⟨ht, hnt, hb, ha⟩
    refine ⟨ht, ?_⟩
    have := (finalCol_zero_iff p n (testSetIndex p.nFolds p.nTestFolds)[i] t ht).2
      ⟨by by_contra hc; exact hnt ⟨ht, by simpa using hc⟩, fun u hu hc htu => hb u ⟨hu, hc⟩ htu,
        fun u hu hc htu => ha u ⟨hu, hc⟩ htu⟩
    simpa using this

/-- Three folds, two of them tested, purge 1 and embargo 1: the first split tests folds 0 and 1. -/
example : Valid ⟨3, 2, 1, 1⟩ ∧ RemainderFits 3 13 ∧
    split ⟨3, 2, 1, 1⟩ 13 = .ok [([10, 11, 12], [[0, 1, 2, 3], [4, 5, 6, 7]]),
      ([6], [[0, 1, 2, 3], [8, 9, 10, 11, 12]]), ([0, 1, 2], [[4, 5, 6, 7], [8, 9, 10, 11, 12]])] := by
  unfold Valid RemainderFits
  decide

/-- **C06.** `split` raises exactly when the purge and embargo do not leave two observations in a fold. -/
theorem C06_error_iff (p : Params) (n : Nat) :
    split p n = .error .valueError ↔ n / p.nFolds ≤ p.purgedSize + p.embargoSize + 1 := by
  unfold split
  split_ifs with h
  · simp; omega
  · simp; omega

/-! ### C07: paths -/

/-- **C07.** The closed forms: number of splits and number of test paths. -/
theorem C07_counts (p : Params) (hp : Valid p) :
    (testSetIndex p.nFolds p.nTestFolds).length = nSplits p.nFolds p.nTestFolds ∧
    nSplits p.nFolds p.nTestFolds = Nat.choose p.nFolds p.nTestFolds ∧
    nTestPaths p.nFolds p.nTestFolds = Nat.choose (p.nFolds - 1) (p.nTestFolds - 1) := by
  refine ⟨testSetIndex_length _ _, rfl, ?_⟩
  obtain ⟨k, hk⟩ : ∃ k, p.nTestFolds = k + 1 := ⟨p.nTestFolds - 1, by have := hp.2.1; omega⟩
  rw [hk, nTestPaths_eq (by have := hp.1; omega)]
  simp

/-- **C07.** The `reshape` in `recombined_paths` is exact: there are `n_folds` rows of `n_test_paths` entries each. -/
theorem C07_reshape_exact (p : Params) (hp : Valid p) :
    (argwhereCol p.nFolds p.nTestFolds).length = p.nFolds * nTestPaths p.nFolds p.nTestFolds ∧
    (recombinedPaths p.nFolds p.nTestFolds).length = p.nFolds ∧
    ∀ row ∈ recombinedPaths p.nFolds p.nTestFolds, row.length = nTestPaths p.nFolds p.nTestFolds := by
  obtain ⟨k, hk⟩ : ∃ k, p.nTestFolds = k + 1 := ⟨p.nTestFolds - 1, by have := hp.2.1; omega⟩
  rw [hk, nTestPaths_eq (by have := hp.1; omega), argwhereCol_length, recombinedPaths_eq]
  refine ⟨rfl, by simp, ?_⟩
  intro row hrow
  obtain ⟨f, hf, rfl⟩ := List.mem_map.1 hrow
  exact splitsOf_length (List.mem_range.1 hf)

/-- **C07.** `get_path_ids` never indexes out of range: split `i` occurs exactly `n_test_folds` times in the table of
recombined paths, in increasing order of folds, and these folds are its test folds. -/
theorem C07_path_ids_defined (p : Params) (hp : Valid p) (i : Nat) (hi : i < nSplits p.nFolds p.nTestFolds) :
    (argwhereEq (recombinedPaths p.nFolds p.nTestFolds) i).length = p.nTestFolds ∧
    (argwhereEq (recombinedPaths p.nFolds p.nTestFolds) i).map Prod.fst =
      (testSetIndex p.nFolds p.nTestFolds).getD i [] := by
  obtain ⟨k, hk⟩ : ∃ k, p.nTestFolds = k + 1 := ⟨p.nTestFolds - 1, by have := hp.2.1; omega⟩
  rw [hk] at hi ⊢
  have hT : (testSetIndex p.nFolds (k + 1)).getD i [] ∈ testSetIndex p.nFolds (k + 1) :=
    getD_mem _ _ _ (by rw [testSetIndex_length]; exact hi)
  rw [argwhereEq_eq hi]
  refine ⟨by rw [List.length_map, (testSet_props hT).2.1], ?_⟩
  rw [List.map_map]
  exact List.map_id _

/-- The fold tested by test array `j` of split `i`. -/
def foldAt (p : Params) (i j : Nat) : Nat := ((testSetIndex p.nFolds p.nTestFolds).getD i []).getD j 0

/-- The path id of test array `j` of split `i`. -/
def pathAt (p : Params) (i j : Nat) : Nat := ((pathIds p.nFolds p.nTestFolds).getD i []).getD j 0

theorem foldAt_mem (p : Params) (i j : Nat) (hi : i < nSplits p.nFolds p.nTestFolds) (hj : j < p.nTestFolds) :
    foldAt p i j ∈ (testSetIndex p.nFolds p.nTestFolds).getD i [] ∧ foldAt p i j < p.nFolds := by
  have hT : (testSetIndex p.nFolds p.nTestFolds).getD i [] ∈ testSetIndex p.nFolds p.nTestFolds :=
    getD_mem _ _ _ (by rw [testSetIndex_length]; exact hi)
  obtain ⟨h1, h2, h3⟩ := testSet_props hT
  have : foldAt p i j ∈ (testSetIndex p.nFolds p.nTestFolds).getD i [] := getD_mem _ _ _ (by rw [h2]; exact hj)
  exact ⟨this, h3 _ this⟩

/-- **C07.** Every test array is assigned to a path, and every (path, fold) pair is fed by exactly one test array. -/
theorem C07_paths_bijective (p : Params) (hp : Valid p) :
    (∀ i j, i < nSplits p.nFolds p.nTestFolds → j < p.nTestFolds → pathAt p i j < nTestPaths p.nFolds p.nTestFolds) ∧
    (∀ path fold, path < nTestPaths p.nFolds p.nTestFolds → fold < p.nFolds →
      ∃ ij : Nat × Nat, (ij.1 < nSplits p.nFolds p.nTestFolds ∧ ij.2 < p.nTestFolds ∧ pathAt p ij.1 ij.2 = path ∧
        foldAt p ij.1 ij.2 = fold) ∧
        ∀ ij' : Nat × Nat, (ij'.1 < nSplits p.nFolds p.nTestFolds ∧ ij'.2 < p.nTestFolds ∧ pathAt p ij'.1 ij'.2 = path ∧
          foldAt p ij'.1 ij'.2 = fold) → ij' = ij) := by
  obtain ⟨k, hk⟩ : ∃ k, p.nTestFolds = k + 1 := ⟨p.nTestFolds - 1, by have := hp.2.1; omega⟩
  have hn : 0 < p.nFolds := by have := hp.1; omega
  have hpath : ∀ i j, i < nSplits p.nFolds p.nTestFolds → j < p.nTestFolds →
      pathAt p i j = rank p.nFolds p.nTestFolds (foldAt p i j) i := by
    intro i j hi hj
    unfold pathAt foldAt
    rw [hk] at hi hj ⊢
    exact pathIds_getD hi hj
  refine ⟨?_, ?_⟩
  · intro i j hi hj
    rw [hpath i j hi hj]
    have := (foldAt_mem p i j hi hj).1
    rw [hk] at hi this ⊢
    rw [nTestPaths_eq hn]
    exact rank_lt hi this
  · intro path fold hpth hfold
    rw [hk, nTestPaths_eq hn] at hpth
    obtain ⟨i, hi, hf, hr⟩ := rank_exists hfold hpth
    rw [← hk] at hi hf hr
    have hiT : i < (testSetIndex p.nFolds p.nTestFolds).length := by rw [testSetIndex_length]; exact hi
    have hT : (testSetIndex p.nFolds p.nTestFolds).getD i [] ∈ testSetIndex p.nFolds p.nTestFolds :=
      getD_mem _ _ _ hiT
    obtain ⟨h1, h2, h3⟩ := testSet_props hT
    obtain ⟨j, hj, hjf⟩ := List.getElem_of_mem hf
    have hj' : j < p.nTestFolds := by rw [h2] at hj; exact hj
    have hfa : foldAt p i j = fold := by unfold foldAt; rw [List.getD_eq_getElem _ _ hj]; exact hjf
    refine ⟨(i, j), ⟨hi, hj', by rw [hpath i j hi hj', hfa]; exact hr, hfa⟩, ?_⟩
    rintro ⟨i', j'⟩ ⟨a, b, c, d⟩
    simp only at a b c d
    have hi' : i' = i := by
      apply rank_unique a hi (f := fold)
      · rw [← d]; exact (foldAt_mem p i' j' a b).1
      · exact hf
      · rw [hpath i' j' a b, d] at c; rw [c, hr]
    subst hi'
    have hj'' : j' < ((testSetIndex p.nFolds p.nTestFolds).getD i' []).length := by rw [h2]; exact b
    have hjj : ((testSetIndex p.nFolds p.nTestFolds).getD i' [])[j'] = ((testSetIndex p.nFolds p.nTestFolds).getD i' [])[j] := by
      rw [hjf, ← d]; unfold foldAt; rw [List.getD_eq_getElem _ _ hj'']
    have hnd : ((testSetIndex p.nFolds p.nTestFolds).getD i' []).Nodup := h1.imp (fun h => Nat.ne_of_lt h)
    have := (List.Nodup.getElem_inj_iff hnd).1 hjj
    rw [this]

example : Valid ⟨4, 2, 0, 0⟩ ∧ nTestPaths 4 2 = 3 ∧ recombinedPaths 4 2 = [[0, 1, 2], [0, 3, 4], [1, 3, 5], [2, 4, 5]] ∧
    pathIds 4 2 = [[0, 0], [1, 0], [2, 0], [1, 1], [2, 1], [2, 2]] := by
  unfold Valid; decide

/-! ### C08: the predicted paths -/

/-- The test arrays (split, position) that make up a path, in the order in which `cross_val_predict` appends them. -/
def pathMembers (p : Params) (path : Nat) : List (Nat × Nat) :=
  (List.range (nSplits p.nFolds p.nTestFolds)).flatMap fun i =>
    ((List.range p.nTestFolds).filter fun j => decide (pathAt p i j = path)).map fun j => (i, j)

theorem pathMembers_folds (p : Params) (hp : Valid p) (path : Nat) (hpath : path < nTestPaths p.nFolds p.nTestFolds) :
    (pathMembers p path).map (fun ij => foldAt p ij.1 ij.2) = List.range p.nFolds := by
  obtain ⟨k, hk⟩ : ∃ k, p.nTestFolds = k + 1 := ⟨p.nTestFolds - 1, by have := hp.2.1; omega⟩
  have hn : 0 < p.nFolds := by have := hp.1; omega
  have hpa : ∀ i j, i < nSplits p.nFolds p.nTestFolds → j < p.nTestFolds →
      pathAt p i j = rank p.nFolds p.nTestFolds (foldAt p i j) i := by
    intro i j hi hj
    unfold pathAt foldAt
    rw [hk] at hi hj ⊢
    exact pathIds_getD hi hj
  have hmem : ∀ ij, ij ∈ pathMembers p path ↔
      (ij.1 < nSplits p.nFolds p.nTestFolds ∧ ij.2 < p.nTestFolds ∧ pathAt p ij.1 ij.2 = path) := by
    rintro ⟨i, j⟩
    unfold pathMembers
    simp only [List.mem_flatMap, List.mem_range, List.mem_map, List.mem_filter, decide_eq_true_eq]
    constructor
    · rintro ⟨i', hi', j', ⟨hj', hpj⟩, he⟩
      simp only [Prod.mk.injEq] at he
      obtain ⟨rfl, rfl⟩ := he
      exact ⟨hi', hj', hpj⟩
    · rintro ⟨a, b, c⟩
      exact ⟨i, a, j, ⟨b, c⟩, rfl⟩
  -- appended in lexicographic order
  have hlex : (pathMembers p path).Pairwise (fun a b => a.1 < b.1 ∨ (a.1 = b.1 ∧ a.2 < b.2)) := by
    unfold pathMembers
    rw [List.pairwise_flatMap]
    refine ⟨?_, ?_⟩
    · intro i _
      rw [List.pairwise_map]
      exact (List.Pairwise.filter _ List.pairwise_lt_range).imp (fun h => Or.inr ⟨rfl, h⟩)
    · refine List.pairwise_lt_range.imp ?_
      intro a b hab x hx y hy
      obtain ⟨_, _, rfl⟩ := List.mem_map.1 hx
      obtain ⟨_, _, rfl⟩ := List.mem_map.1 hy
      exact Or.inl hab
  have hsorted : ((pathMembers p path).map (fun ij => foldAt p ij.1 ij.2)).Pairwise (· < ·) := by
    rw [List.pairwise_map]
    refine hlex.imp_of_mem ?_
    intro a b ha hb hab
    obtain ⟨a1, a2, a3⟩ := (hmem a).1 ha
    obtain ⟨b1, b2, b3⟩ := (hmem b).1 hb
    have hfa := foldAt_mem p a.1 a.2 a1 a2
    have hfb := foldAt_mem p b.1 b.2 b1 b2
    rcases hab with hlt | ⟨he, hlt⟩
    · rw [hpa _ _ a1 a2] at a3
      rw [hpa _ _ b1 b2] at b3
      have hs := rank_succ (f := foldAt p a.1 a.2) a1
      rw [if_pos (binary_iff.2 hfa.1)] at hs
      have hm := rank_mono (n := p.nFolds) (k := p.nTestFolds) (f := foldAt p a.1 a.2) (show a.1 + 1 ≤ b.1 by omega)
      rcases Nat.lt_trichotomy (foldAt p a.1 a.2) (foldAt p b.1 b.2) with h | h | h
      · exact h
      · rw [← h] at b3; omega
      · have := rank_dominance (n := p.nFolds) (k := p.nTestFolds) (i := b.1) h hfa.2
        omega
    · have hT : (testSetIndex p.nFolds p.nTestFolds).getD a.1 [] ∈ testSetIndex p.nFolds p.nTestFolds :=
        getD_mem _ _ _ (by rw [testSetIndex_length]; exact a1)
      obtain ⟨h1, h2, _⟩ := testSet_props hT
      unfold foldAt
      have e : ∀ j, (hj : j < p.nTestFolds) → ((testSetIndex p.nFolds p.nTestFolds).getD a.1 []).getD j 0 =
          ((testSetIndex p.nFolds p.nTestFolds).getD a.1 [])[j]'(lt_of_lt_of_eq hj h2.symm) :=
        fun j hj => List.getD_eq_getElem _ _ _
      rw [← he, e _ a2, e _ b2]
      exact List.pairwise_iff_getElem.1 h1 _ _ _ _ hlt
  apply List.Perm.eq_of_pairwise (le := (· < ·))
  · intro a b _ _ h1 h2; omega
  · exact hsorted
  · exact List.pairwise_lt_range
  · rw [List.perm_ext_iff_of_nodup (hsorted.imp (fun h => Nat.ne_of_lt h)) List.nodup_range]
    intro f
    rw [List.mem_map, List.mem_range]
    constructor
    · rintro ⟨ij, hij, rfl⟩
      obtain ⟨a, b, _⟩ := (hmem ij).1 hij
      exact (foldAt_mem p _ _ a b).2
    · intro hf
      obtain ⟨ij, ⟨a, b, c, d⟩, _⟩ := (C07_paths_bijective p hp).2 path f hpath hf
      exact ⟨ij, (hmem ij).2 ⟨a, b, c⟩, d⟩

theorem foldl_max_spec (l : List Nat) (m : Nat) : m ≤ l.foldl max m ∧ (∀ x ∈ l, x ≤ l.foldl max m) ∧
    (l.foldl max m = m ∨ l.foldl max m ∈ l) := by
  induction l generalizing m with
  | nil => simp
  | cons a l ih =>
    obtain ⟨h1, h2, h3⟩ := ih (max m a)
    rw [List.foldl_cons]
    refine ⟨by omega, ?_, ?_⟩
    · intro x hx
      rcases List.mem_cons.1 hx with rfl | hx
      · omega
      · exact h2 x hx
    · rcases h3 with h3 | h3
      · rw [h3]
        rcases Nat.le_total m a with h | h
        · right; rw [max_eq_right h]; simp
        · left; exact max_eq_left h
      · right; exact List.mem_cons_of_mem _ h3

/-- `path_nb` of `cross_val_predict` is the number of test paths. -/
theorem pathNb_eq (p : Params) (hp : Valid p) :
    (pathIds p.nFolds p.nTestFolds).flatten.foldl max 0 + 1 = nTestPaths p.nFolds p.nTestFolds := by
  obtain ⟨h1, h2⟩ := C07_paths_bijective p hp
  have hmem : ∀ x, x ∈ (pathIds p.nFolds p.nTestFolds).flatten ↔
      ∃ i j, i < nSplits p.nFolds p.nTestFolds ∧ j < p.nTestFolds ∧ pathAt p i j = x := by
    intro x
    rw [List.mem_flatten]
    have hlen : (pathIds p.nFolds p.nTestFolds).length = nSplits p.nFolds p.nTestFolds := by simp [pathIds]
    have hrow : ∀ i, i < nSplits p.nFolds p.nTestFolds → ((pathIds p.nFolds p.nTestFolds).getD i []).length = p.nTestFolds := by
      intro i hi
      rw [List.getD_eq_getElem _ _ (by rw [hlen]; exact hi)]
      simp [pathIds]
    constructor
    · rintro ⟨row, hrow', hx⟩
      obtain ⟨i, hi, rfl⟩ := List.getElem_of_mem hrow'
      obtain ⟨j, hj, rfl⟩ := List.getElem_of_mem hx
      rw [hlen] at hi
      have hl := hrow i hi
      rw [List.getD_eq_getElem _ _ (by rw [hlen]; exact hi)] at hl
      refine ⟨i, j, hi, by omega, ?_⟩
      unfold pathAt
      have e : (pathIds p.nFolds p.nTestFolds).getD i [] = (pathIds p.nFolds p.nTestFolds)[i] := List.getD_eq_getElem _ _ _
      rw [e]
      exact List.getD_eq_getElem _ _ hj
    · rintro ⟨i, j, hi, hj, rfl⟩
      exact ⟨_, getD_mem _ i [] (by rw [hlen]; exact hi), getD_mem _ j 0 (by rw [hrow i hi]; exact hj)⟩
  obtain ⟨a, b, c⟩ := foldl_max_spec (pathIds p.nFolds p.nTestFolds).flatten 0
  have hpos : 0 < nTestPaths p.nFolds p.nTestFolds := by
    rw [(C07_counts p hp).2.2]
    exact Nat.choose_pos (by have := hp.2.2; omega)
  have hlast : nTestPaths p.nFolds p.nTestFolds - 1 ∈ (pathIds p.nFolds p.nTestFolds).flatten := by
    rw [hmem]
    obtain ⟨ij, ⟨x, y, z, _⟩, _⟩ := h2 (nTestPaths p.nFolds p.nTestFolds - 1) 0 (by omega) (by have := hp.1; omega)
    exact ⟨ij.1, ij.2, x, y, z⟩
  have hub : (pathIds p.nFolds p.nTestFolds).flatten.foldl max 0 < nTestPaths p.nFolds p.nTestFolds := by
    rcases c with c | c
    · omega
    · obtain ⟨i, j, x, y, z⟩ := (hmem _).1 c
      rw [← z]; exact h1 i j x y
  have := b _ hlast
  omega

/-- **C08 (combinatorial splitter).** `cross_val_predict` returns one list of predictions per test path, and the
predictions of each path are those of the folds `0, 1, …, n_folds - 1`, each exactly once and in this order. -/
theorem C08_paths_in_fold_order {β : Type} (p : Params) (hp : Valid p) (pred : Nat → Nat → β) :
    (assemblePaths p.nFolds p.nTestFolds pred).length = nTestPaths p.nFolds p.nTestFolds ∧
    ∀ path (h : path < (assemblePaths p.nFolds p.nTestFolds pred).length),
      ∃ members : List (Nat × Nat), (∀ ij ∈ members, ij.1 < nSplits p.nFolds p.nTestFolds ∧ ij.2 < p.nTestFolds ∧
          pathAt p ij.1 ij.2 = path) ∧
        (assemblePaths p.nFolds p.nTestFolds pred)[path] = members.map (fun ij => pred ij.1 ij.2) ∧
        members.map (fun ij => foldAt p ij.1 ij.2) = List.range p.nFolds := by
  have hlen : (assemblePaths p.nFolds p.nTestFolds pred).length = nTestPaths p.nFolds p.nTestFolds := by
    unfold assemblePaths
    simp only [List.length_map, List.length_range]
    exact pathNb_eq p hp
  refine ⟨hlen, ?_⟩
  intro path h
  refine ⟨pathMembers p path, ?_, ?_, pathMembers_folds p hp path (by omega)⟩
  · rintro ⟨i, j⟩ hij
    unfold pathMembers at hij
    simp only [List.mem_flatMap, List.mem_range, List.mem_map, List.mem_filter, decide_eq_true_eq] at hij
    obtain ⟨i', hi', j', ⟨hj', hpj⟩, he⟩ := hij
    simp only [Prod.mk.injEq] at he
    obtain ⟨rfl, rfl⟩ := he
    exact ⟨hi', hj', hpj⟩
  · have e : (assemblePaths p.nFolds p.nTestFolds pred)[path] = (assemblePaths p.nFolds p.nTestFolds pred).getD path [] :=
      (List.getD_eq_getElem _ _ _).symm
    rw [e]
    unfold assemblePaths pathMembers
    rw [getD_map_range _ _ _ _ (by rw [pathNb_eq p hp]; omega)]
    rw [List.map_flatMap]
    congr 1
    funext i
    rw [List.map_map]
    rfl

/-- **C07/C08.** Hence every predicted path covers the sample: the test observations of the portfolios of a path,
concatenated, are exactly `0, 1, …, n-1` in order. -/
theorem C08_path_covers_sample (p : Params) (hp : Valid p) (n : Nat) (hr : RemainderFits p.nFolds n)
    (L : List (List Nat × List (List Nat))) (hL : split p n = .ok L) :
    ∀ path ∈ assemblePaths p.nFolds p.nTestFolds (fun i j => ((L.getD i ([], [])).2.getD j [])),
      path.flatten = List.range n := by
  intro path hpath
  obtain ⟨q, hq, rfl⟩ := List.getElem_of_mem hpath
  obtain ⟨members, h1, h2, h3⟩ := (C08_paths_in_fold_order p hp _).2 q hq
  rw [h2]
  obtain ⟨S, hS, hlen, hall⟩ := C06_train_test p hp n L hL
  have hm : 1 ≤ n / p.nFolds := by
    unfold split at hL
    split_ifs at hL with hg
    omega
  obtain ⟨k, hk⟩ : ∃ k, p.nTestFolds = k + 1 := ⟨p.nTestFolds - 1, by have := hp.2.1; omega⟩
  have hval : members.map (fun ij => (L.getD ij.1 ([], [])).2.getD ij.2 []) =
      members.map (fun ij => block p.nFolds n (foldAt p ij.1 ij.2)) := by
    apply List.map_congr_left
    intro ij hij
    obtain ⟨a, b, _⟩ := h1 ij hij
    unfold split at hL
    split_ifs at hL with hg
    have hL' := Except.ok.inj hL
    subst hL'
    rw [getD_map_range _ _ _ _ a]
    rw [← C06_folds p.nFolds n (foldAt p ij.1 ij.2) (foldAt_mem p _ _ a b).2 hm]
    have hT : (testSetIndex p.nFolds p.nTestFolds).getD ij.1 [] ∈ testSetIndex p.nFolds p.nTestFolds :=
      getD_mem _ _ _ (by rw [testSetIndex_length]; exact a)
    have h2' := (testSet_props hT).2.1
    have : argwhereEq (recombinedPaths p.nFolds p.nTestFolds) ij.1 =
        ((testSetIndex p.nFolds p.nTestFolds).getD ij.1 []).map fun f => (f, rank p.nFolds p.nTestFolds f ij.1) := by
      rw [hk] at a ⊢
      exact argwhereEq_eq a
    simp only
    rw [this, List.map_map, List.getD_eq_getElem _ _ (by rw [List.length_map, h2']; exact b)]
    simp only [List.getElem_map, Function.comp]
    congr 1
    unfold foldAt
    exact (List.getD_eq_getElem _ _ (by rw [h2']; exact b)).symm
  rw [hval]
  have : members.map (fun ij => block p.nFolds n (foldAt p ij.1 ij.2)) =
      (members.map (fun ij => foldAt p ij.1 ij.2)).map (block p.nFolds n) := by
    rw [List.map_map]; rfl
  rw [this, h3]
  -- the blocks tile the sample
  have htile : ∀ m, m < p.nFolds → ((List.range m).map (block p.nFolds n)).flatten = List.range (m * (n / p.nFolds)) := by
    intro m
    induction m with
    | zero => intro _; simp
    | succ m ih =>
      intro hm'
      rw [List.range_succ, List.map_append, List.flatten_append, ih (by omega)]
      simp only [List.map_cons, List.map_nil, List.flatten_cons, List.flatten_nil, List.append_nil]
      unfold block interval
      rw [if_pos hm']
      rw [List.range_eq_range', List.range_eq_range']
      have := List.range'_append_1 (s := 0) (m := m * (n / p.nFolds)) (n := (m + 1) * (n / p.nFolds) - m * (n / p.nFolds))
      rw [Nat.zero_add] at this
      rw [this]
      congr 1
      rw [Nat.succ_mul]; omega
  obtain ⟨N, hN⟩ : ∃ N, p.nFolds = N + 1 := ⟨p.nFolds - 1, by have := hp.1; omega⟩
  have hmin : min n ((p.nFolds + 1) * (n / p.nFolds)) = n := min_eq_left hr
  have hmod := Nat.div_mul_le_self n p.nFolds
  have hmod' : N * (n / p.nFolds) + n / p.nFolds ≤ n := by
    have e : N * (n / p.nFolds) + n / p.nFolds = p.nFolds * (n / p.nFolds) := by rw [← Nat.succ_mul, Nat.succ_eq_add_one, ← hN]
    rw [e, Nat.mul_comm]; exact hmod
  have h0 := htile N (by omega)
  rw [hN, List.range_succ, List.map_append, List.flatten_append, ← hN, h0]
  simp only [List.map_cons, List.map_nil, List.flatten_cons, List.flatten_nil, List.append_nil]
  unfold block interval
  rw [if_neg (by omega), hmin, List.range_eq_range', List.range_eq_range']
  have := List.range'_append_1 (s := 0) (m := N * (n / p.nFolds)) (n := n - N * (n / p.nFolds))
  rw [Nat.zero_add] at this
  rw [this]
  congr 1
  omega

end Skfolio.Combinatorial
