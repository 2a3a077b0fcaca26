import Verif.Validation.BacktestModel
import Verif.Combinatorial.Theorems
import Mathlib.Data.List.GetD

/-!
**C140.** A combinatorial backtest tests each fold with weights that know nothing of the fold.
-/
set_option autoImplicit false

namespace Skfolio.Validation

open Combinatorial (Params split assemblePaths Valid block IsTest foldAt pathAt nSplits nTestPaths testSetIndex)

variable {R W P : Type}

/-! ### Model -/

/-- `cross_val_predict(estimator, X, cv=CombinatorialPurgedCV(...))` on the first `n` rows of `X`: `src/skfolio/model_selection/_validation.py` L179-235 with `fit_and_predict`, `src/skfolio/utils/tools.py` L664-682, once for each
split and with one prediction for each of its test arrays. The result lists the portfolios of each path. (`C140_paths` shows that no index is out of range.) -/
def combinatorialBacktest (est : Estimator R W P) (p : Params) (X : Nat → R) (n : Nat) : Except Combinatorial.Err (List (List P)) :=
  match split p n with
  | .error e => .error e
  | .ok splits =>
    let predictions := splits.map fun s => s.2.map fun t => est.fitPredict X s.1 t
    .ok (assemblePaths p.nFolds p.nTestFolds fun i j => (predictions.getD i []).getD j (est.fitPredict X [] []))

/-! ### Specification -/

/-- Row `u` is in fold `f`, at most `purged_size` rows before it or at most `purged_size + embargo_size` rows after it. -/
def Near (p : Params) (n f u : Nat) : Prop := ∃ t ∈ block p.nFolds n f, t ≤ u + p.purgedSize ∧ u ≤ t + (p.purgedSize + p.embargoSize)

/-- Row `u` may be trained on while the folds `c` are tested. -/
def MayTrain (p : Params) (n : Nat) (c : List Nat) (u : Nat) : Prop := u < n ∧ ∀ f ∈ c, ¬ Near p n f u

/-! ### Lemmas -/

theorem split_at (p : Params) (hp : Valid p) (n : Nat) (L : List (List Nat × List (List Nat))) (hL : split p n = .ok L) (i : Nat) (hi : i < L.length) :
    i < nSplits p.nFolds p.nTestFolds ∧ L[i].2 = ((testSetIndex p.nFolds p.nTestFolds).getD i []).map (block p.nFolds n) := by
  have hL0 := hL
  unfold split at hL
  split_ifs at hL with hguard
  have hL' := Except.ok.inj hL
  subst hL'
  rw [List.length_map, List.length_range] at hi
  refine ⟨hi, ?_⟩
  rw [List.getElem_map, List.getElem_range]
  simp only
  rw [← (Combinatorial.C07_path_ids_defined p hp i hi).2, List.map_map]
  refine List.map_congr_left fun fp hfp => ?_
  have hmem : fp.1 ∈ (testSetIndex p.nFolds p.nTestFolds).getD i [] := by
    rw [← (Combinatorial.C07_path_ids_defined p hp i hi).2]
    exact List.mem_map_of_mem hfp
  have hT : (testSetIndex p.nFolds p.nTestFolds).getD i [] ∈ testSetIndex p.nFolds p.nTestFolds :=
    Combinatorial.getD_mem _ _ _ (by rw [Combinatorial.testSetIndex_length]; exact hi)
  exact Combinatorial.C06_folds _ _ _ ((Combinatorial.testSet_props hT).2.2 _ hmem) (by omega)

/-- What is tested where, for all data and estimators at once. -/
theorem path_entry (p : Params) (hp : Valid p) (n : Nat) (L : List (List Nat × List (List Nat))) (hL : split p n = .ok L) (path : Nat) (hpath : path < nTestPaths p.nFolds p.nTestFolds) (f : Nat) (hf : f < p.nFolds) :
    ∃ c train : List Nat, c.Pairwise (· < ·) ∧ c.length = p.nTestFolds ∧ (∀ g ∈ c, g < p.nFolds) ∧ f ∈ c ∧ train.Pairwise (· < ·) ∧ (∀ u, u ∈ train ↔ MayTrain p n c u) ∧
      ∀ (est : Estimator R W P) (X : Nat → R) (r : List (List P)), combinatorialBacktest est p X n = .ok r → ∃ q, r[path]? = some q ∧ q[f]? = some (est.predict (est.fit (train.map X)) ((block p.nFolds n f).map X)) := by
  obtain ⟨⟨i, j⟩, ⟨a1, a2, a3, hfold⟩, huniq⟩ := (Combinatorial.C07_paths_bijective p hp).2 path f hpath hf
  simp only at a1 a2 a3 hfold
  obtain ⟨S, hS, hlen, hall⟩ := Combinatorial.C06_train_test p hp n L hL
  have hLn : L.length = nSplits p.nFolds p.nTestFolds := by
    unfold split at hL
    split_ifs at hL
    have hL' := Except.ok.inj hL
    subst hL'
    simp
  have hi : i < L.length := by omega
  obtain ⟨-, hblocks⟩ := split_at p hp n L hL i hi
  have hT : (testSetIndex p.nFolds p.nTestFolds).getD i [] ∈ testSetIndex p.nFolds p.nTestFolds :=
    Combinatorial.getD_mem _ _ _ (by rw [Combinatorial.testSetIndex_length]; exact a1)
  obtain ⟨t1, t2, t3⟩ := Combinatorial.testSet_props hT
  obtain ⟨s1, s2, s3⟩ := hall i hi
  refine ⟨(testSetIndex p.nFolds p.nTestFolds).getD i [], L[i].1, t1, t2, t3, ?_, s2, fun u => ?_, fun est X r h => ?_⟩
  · rw [← hfold]
    exact (Combinatorial.foldAt_mem p i j a1 a2).1
  · rw [s3]
    have htest : ∀ x, IsTest L[i] x ↔ ∃ g ∈ (testSetIndex p.nFolds p.nTestFolds).getD i [], x ∈ block p.nFolds n g := by
      intro x
      unfold IsTest
      rw [hblocks]
      simp only [List.mem_map, exists_exists_and_eq_and]
    unfold MayTrain Near
    constructor
    · rintro ⟨u1, u2, u3, u4⟩
      refine ⟨u1, fun g hg ⟨t, ht, v1, v2⟩ => ?_⟩
      have hx := (htest t).2 ⟨g, hg, ht⟩
      rcases Nat.lt_trichotomy u t with hlt | heq | hgt
      · have := u3 t hx hlt
        omega
      · subst heq
        exact u2 hx
      · have := u4 t hx hgt
        omega
    · rintro ⟨u1, u2⟩
      refine ⟨u1, fun hx => ?_, fun t hx hlt => ?_, fun t hx hlt => ?_⟩
      · obtain ⟨g, hg, hu⟩ := (htest u).1 hx
        exact u2 g hg ⟨u, hu, by omega, by omega⟩
      · obtain ⟨g, hg, ht⟩ := (htest t).1 hx
        by_contra hno
        exact u2 g hg ⟨t, ht, by omega, by omega⟩
      · obtain ⟨g, hg, ht⟩ := (htest t).1 hx
        by_contra hno
        exact u2 g hg ⟨t, ht, by omega, by omega⟩
  · unfold combinatorialBacktest at h
    rw [hL] at h
    have h' := Except.ok.inj h
    obtain ⟨c1, c2⟩ := Combinatorial.C08_paths_in_fold_order p hp fun i j => ((L.map fun s => s.2.map fun t => est.fitPredict X s.1 t).getD i []).getD j (est.fitPredict X [] [])
    have hpr : path < (assemblePaths p.nFolds p.nTestFolds fun i j => ((L.map fun s => s.2.map fun t => est.fitPredict X s.1 t).getD i []).getD j (est.fitPredict X [] [])).length := by
      rw [c1]
      exact hpath
    obtain ⟨members, m1, m2, m3⟩ := c2 path hpr
    have hmlen : members.length = p.nFolds := by
      have := congrArg List.length m3
      simpa using this
    have hfm : f < members.length := by rw [hmlen]; exact hf
    have hm : members[f] = (i, j) := by
      obtain ⟨b1, b2, b3⟩ := m1 _ (List.getElem_mem hfm)
      refine huniq _ ⟨b1, b2, b3, ?_⟩
      have : (members.map fun ij => foldAt p ij.1 ij.2)[f]'(by rw [List.length_map]; exact hfm) = (List.range p.nFolds)[f]'(by rw [List.length_range]; omega) := by
        simp only [m3]
      simpa using this
    refine ⟨_, by rw [← h']; exact List.getElem?_eq_getElem hpr, ?_⟩
    rw [m2, List.getElem?_map, List.getElem?_eq_getElem hfm, hm, Option.map_some]
    simp only
    have e1 : (L.map fun s => s.2.map fun t => est.fitPredict X s.1 t).getD i [] = L[i].2.map fun t => est.fitPredict X L[i].1 t := by
      rw [List.getD_eq_getElem _ _ (by rw [List.length_map]; exact hi), List.getElem_map]
    rw [e1, List.getD_eq_getElem _ _ (by rw [List.length_map, hblocks, List.length_map, t2]; exact a2), List.getElem_map]
    unfold Estimator.fitPredict
    have hj : j < ((testSetIndex p.nFolds p.nTestFolds).getD i []).length := by rw [t2]; exact a2
    have e2 : L[i].2[j]'(by rw [hblocks, List.length_map, t2]; exact a2) = block p.nFolds n f := by
      simp only [hblocks, List.getElem_map]
      congr 1
      rw [← hfold]
      unfold foldAt
      rw [List.getD_eq_getElem _ _ hj]
    rw [e2]

/-! ### The claim -/

/-- **C140.** What a combinatorial backtest is: there are as many paths as `n_test_paths`; each has one portfolio for each fold, in the order of the folds; and each portfolio is the prediction, on the rows of its fold, of the
estimator fitted to exactly the rows that may be trained on while `n_test_folds` folds, its own among them, are tested. -/
theorem C140_paths (est : Estimator R W P) (p : Params) (hp : Valid p) (X : Nat → R) (n : Nat) (r : List (List P)) (h : combinatorialBacktest est p X n = .ok r) :
    r.length = nTestPaths p.nFolds p.nTestFolds ∧ (∀ q ∈ r, q.length = p.nFolds) ∧ ∀ path < nTestPaths p.nFolds p.nTestFolds, ∀ f < p.nFolds, ∃ c train : List Nat,
      c.Pairwise (· < ·) ∧ c.length = p.nTestFolds ∧ (∀ g ∈ c, g < p.nFolds) ∧ f ∈ c ∧ train.Pairwise (· < ·) ∧ (∀ u, u ∈ train ↔ MayTrain p n c u) ∧
      ∃ q, r[path]? = some q ∧ q[f]? = some (est.predict (est.fit (train.map X)) ((block p.nFolds n f).map X)) := by
  cases hL : split p n with
  | error e =>
    unfold combinatorialBacktest at h
    rw [hL] at h
    cases h
  | ok L =>
    refine ⟨?_, ?_, fun path hpath f hf => ?_⟩
    · unfold combinatorialBacktest at h
      rw [hL] at h
      rw [← Except.ok.inj h]
      exact (Combinatorial.C08_paths_in_fold_order p hp _).1
    · unfold combinatorialBacktest at h
      rw [hL] at h
      rw [← Except.ok.inj h]
      intro q hq
      obtain ⟨path, hpath, rfl⟩ := List.getElem_of_mem hq
      obtain ⟨members, -, m2, m3⟩ := (Combinatorial.C08_paths_in_fold_order p hp _).2 path hpath
      rw [m2, List.length_map]
      have := congrArg List.length m3
      simpa using this
    · obtain ⟨c, train, a1, a2, a3, a4, a5, a6, a7⟩ := path_entry (R := R) (W := W) (P := P) p hp n L hL path hpath f hf
      exact ⟨c, train, a1, a2, a3, a4, a5, a6, a7 est X r h⟩

/-- **C140.** The weights with which a fold is tested, on every path, do not depend on the rows of the fold, nor on the `purged_size` rows before it, nor on the `purged_size + embargo_size` rows after it: if two data sets agree
elsewhere, the two portfolios are the predictions of the same fitted state, whatever the estimator. -/
theorem C140_no_leak (est : Estimator R W P) (p : Params) (hp : Valid p) (X X' : Nat → R) (n : Nat) (r r' : List (List P)) (h : combinatorialBacktest est p X n = .ok r) (h' : combinatorialBacktest est p X' n = .ok r')
    (f : Nat) (hf : f < p.nFolds) (hX : ∀ u, u < n → ¬ Near p n f u → X u = X' u) (path : Nat) (hpath : path < nTestPaths p.nFolds p.nTestFolds) :
    ∃ (q q' : List P) (w : W), r[path]? = some q ∧ r'[path]? = some q' ∧ q[f]? = some (est.predict w ((block p.nFolds n f).map X)) ∧ q'[f]? = some (est.predict w ((block p.nFolds n f).map X')) := by
  cases hL : split p n with
  | error e =>
    unfold combinatorialBacktest at h
    rw [hL] at h
    cases h
  | ok L =>
    obtain ⟨c, train, -, -, -, hfc, -, htr, hall⟩ := path_entry (R := R) (W := W) (P := P) p hp n L hL path hpath f hf
    obtain ⟨q, e1, e2⟩ := hall est X r h
    obtain ⟨q', e1', e2'⟩ := hall est X' r' h'
    refine ⟨q, q', _, e1, e1', e2, ?_⟩
    rw [e2']
    have : train.map X' = train.map X := by
      refine List.map_congr_left fun u hu => ?_
      obtain ⟨u1, u2⟩ := (htr u).1 hu
      exact (hX u u1 (u2 f hfc)).symm
    rw [this]

/-- **C140.** It fails only if the folds are too short for the purge and the embargo, whatever the data. -/
theorem C140_error_iff (est : Estimator R W P) (p : Params) (X : Nat → R) (n : Nat) : combinatorialBacktest est p X n = .error .valueError ↔ n / p.nFolds ≤ p.purgedSize + p.embargoSize + 1 := by
  rw [← Combinatorial.C06_error_iff]
  unfold combinatorialBacktest
  cases split p n with
  | error e => simp
  | ok L => simp

/-- Two test folds of four with three rows each, one row purged: an estimator that adds up its training rows. -/
def exSum : Estimator Nat Nat (Nat × List Nat) := ⟨List.sum, fun w l => (w, l)⟩

example : Valid ⟨4, 2, 1, 0⟩ ∧ combinatorialBacktest exSum ⟨4, 2, 1, 0⟩ id 12 = .ok
    [[(7 + 8 + 9 + 10 + 11, [0, 1, 2]), (7 + 8 + 9 + 10 + 11, [3, 4, 5]), (4 + 10 + 11, [6, 7, 8]), (4 + 5 + 6 + 7, [9, 10, 11])],
     [(4 + 10 + 11, [0, 1, 2]), (0 + 1 + 10 + 11, [3, 4, 5]), (0 + 1 + 10 + 11, [6, 7, 8]), (0 + 1 + 7, [9, 10, 11])],
     [(4 + 5 + 6 + 7, [0, 1, 2]), (0 + 1 + 7, [3, 4, 5]), (0 + 1 + 2 + 3 + 4, [6, 7, 8]), (0 + 1 + 2 + 3 + 4, [9, 10, 11])]] := by
  unfold Valid
  decide +kernel

end Skfolio.Validation
