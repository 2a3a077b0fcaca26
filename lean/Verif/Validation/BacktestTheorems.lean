import Verif.Validation.BacktestModel
import Verif.Validation.Theorems
import Verif.WalkForward.Theorems

/-!
C105: a walk-forward backtest uses no information from the future.
-/
set_option autoImplicit false

namespace Skfolio.Validation
open WalkForward (Params interval mem_interval)

variable {R W P : Type}

/-! ### specification -/

/-- The rows `a, …, b - 1` of the data. -/
def rows (X : Nat → R) (a b : Nat) : List R := (List.range' a (b - a)).map X

/-- First row of test window number `k`. -/
def testStart (p : Params) (k : Nat) : Nat := p.trainSize + p.purgedSize + k * p.testSize

/-- One past the last row from which window number `k` is trained. -/
def trainEnd (p : Params) (k : Nat) : Nat := p.trainSize + k * p.testSize

/-- First row from which window number `k` is trained. -/
def trainStart (p : Params) (k : Nat) : Nat := if p.expendTrain then 0 else k * p.testSize

/-! ### lemmas -/

theorem crossValPredict_sorted {β : Type} (splits : List (List Nat × List Nat)) (f : List Nat → List Nat → β) (P : List β)
    (hs : splits.Pairwise fun s s' => ∃ a a', s.2.head? = some a ∧ s'.2.head? = some a' ∧ a < a')
    (h : crossValPredict none splits f = .ok P) : P = splits.map fun s => f s.1 s.2 := by
  obtain ⟨o, h1, rfl, h3⟩ := C08_plain none splits f P h
  have : o = splits := by
    refine h1.eq_of_pairwise ?_ h3 hs
    rintro a b _ _ ⟨x, y, hx, hy, hxy⟩ ⟨x', y', hx', hy', hxy'⟩
    rw [hy] at hx'
    rw [hx] at hy'
    cases hx'
    cases hy'
    omega
  rw [this]

theorem head_range' (a n : Nat) (h : 0 < n) : (List.range' a n).head? = some a := by
  cases n with
  | zero => omega
  | succ n => rfl

theorem pairwise_windows (p : Params) (n s N : Nat) (hts : 1 ≤ p.testSize) (hN : N ≤ WalkForward.num p n s) :
    ((List.range N).map fun k => WalkForward.mk p n (s + k * p.testSize)).Pairwise
      fun s s' => ∃ a a', s.2.head? = some a ∧ s'.2.head? = some a' ∧ a < a' := by
  rw [List.pairwise_map]
  refine List.Pairwise.imp_of_mem ?_ List.pairwise_lt_range
  intro i j hi hj hij
  rw [List.mem_range] at hi hj
  have h1 := (WalkForward.num_lt p n s i hts (by omega)).1
  have h2 := (WalkForward.num_lt p n s j hts (by omega)).1
  refine ⟨s + i * p.testSize, s + j * p.testSize, head_range' _ _ (by omega), head_range' _ _ (by omega), ?_⟩
  have := Nat.mul_lt_mul_of_pos_right hij (show 0 < p.testSize by omega)
  omega

/-- What the backtest returns. -/
theorem backtest_eq (est : Estimator R W P) (p : Params) (X : Nat → R) (n fuel : Nat) (hts : 1 ≤ p.testSize) (hn : p.trainSize + p.purgedSize < n) (hfuel : n ≤ fuel)
    (r : List P) (h : backtest est p X n fuel = .ok r) :
    r = (List.range (WalkForward.num p n (p.trainSize + p.purgedSize))).map fun k =>
      est.predict (est.fit (rows X (trainStart p k) (trainEnd p k))) (rows X (testStart p k) (min (testStart p k + p.testSize) n)) := by
  unfold backtest WalkForward.split at h
  rw [if_neg (by omega), WalkForward.loop_eq p n fuel _ hts (by omega) (by omega)] at h
  simp only at h
  generalize hL : ((List.range (WalkForward.num p n (p.trainSize + p.purgedSize))).map fun k => WalkForward.mk p n (p.trainSize + p.purgedSize + k * p.testSize)) = L at h
  have hs := pairwise_windows p n (p.trainSize + p.purgedSize) _ hts (le_refl _)
  rw [hL] at hs
  cases hc : crossValPredict none L (est.fitPredict X) with
  | error e => rw [hc] at h; cases h
  | ok l =>
    rw [hc] at h
    cases h
    rw [crossValPredict_sorted L _ _ hs hc, ← hL, List.map_map]
    apply List.map_congr_left
    intro k _
    unfold Function.comp Estimator.fitPredict WalkForward.mk rows testStart trainEnd trainStart
    simp only
    have e1 : p.trainSize + p.purgedSize + k * p.testSize - p.purgedSize = p.trainSize + k * p.testSize := by omega
    rw [e1]
    cases p.expendTrain
    · simp only [Bool.false_eq_true, if_false]
      have e2 : p.trainSize + k * p.testSize - p.trainSize = k * p.testSize := by omega
      rw [e2]
    · simp only [if_true]

theorem rows_congr (X X' : Nat → R) (a b : Nat) (h : ∀ i, i < b → X i = X' i) : rows X a b = rows X' a b := by
  unfold rows
  apply List.map_congr_left
  intro i hi
  rw [List.mem_range'_1] at hi
  exact h i (by omega)

/-! ### the claim -/

/-- **C105.** What a backtest is: portfolio number `k` is predicted on its test window by the estimator fitted on its training window, which ends `purged_size` rows before the test window starts; nothing else is used. -/
theorem C105_windows (est : Estimator R W P) (p : Params) (X : Nat → R) (n fuel : Nat) (hts : 1 ≤ p.testSize) (hn : p.trainSize + p.purgedSize < n) (hfuel : n ≤ fuel)
    (r : List P) (h : backtest est p X n fuel = .ok r) (k : Nat) (hk : k < r.length) :
    testStart p k < n ∧ r[k] = est.predict (est.fit (rows X (trainStart p k) (trainEnd p k))) (rows X (testStart p k) (min (testStart p k + p.testSize) n)) := by
  have e := backtest_eq est p X n fuel hts hn hfuel r h
  subst e
  rw [List.length_map, List.length_range] at hk
  refine ⟨(WalkForward.num_lt p n _ k hts hk).1, ?_⟩
  rw [List.getElem_map, List.getElem_range]

/-- **C105.** The future does not change the past of a backtest: if two data sets agree on the rows before `t`, the portfolios of all test windows that end by `t` are the same, whatever the estimator. -/
theorem C105_causal (est : Estimator R W P) (p : Params) (X X' : Nat → R) (n fuel : Nat) (hts : 1 ≤ p.testSize) (hn : p.trainSize + p.purgedSize < n) (hfuel : n ≤ fuel)
    (r r' : List P) (h : backtest est p X n fuel = .ok r) (h' : backtest est p X' n fuel = .ok r') (t : Nat) (hX : ∀ i, i < t → X i = X' i) :
    r.length = r'.length ∧ ∀ k (hk : k < r.length) (hk' : k < r'.length), min (testStart p k + p.testSize) n ≤ t → r[k] = r'[k] := by
  have e := backtest_eq est p X n fuel hts hn hfuel r h
  have e' := backtest_eq est p X' n fuel hts hn hfuel r' h'
  refine ⟨by rw [e, e', List.length_map, List.length_map], fun k hk hk' ht => ?_⟩
  have hw := C105_windows est p X n fuel hts hn hfuel r h k hk
  have hw' := C105_windows est p X' n fuel hts hn hfuel r' h' k hk'
  rw [hw.2, hw'.2]
  have e1 : trainEnd p k ≤ testStart p k := by
    unfold trainEnd testStart
    omega
  have e2 : testStart p k ≤ t := by have := hw.1; omega
  rw [rows_congr X X' _ (trainEnd p k) fun i hi => hX i (by omega), rows_congr X X' _ _ fun i hi => hX i (by omega)]

/-- **C105.** The state (the weights) with which a window is traded does not depend on the `purged_size` rows before the window nor on anything after them: if two data sets agree on the rows before these, the two portfolios are
the predictions of the same fitted state. -/
theorem C105_weights (est : Estimator R W P) (p : Params) (X X' : Nat → R) (n fuel : Nat) (hts : 1 ≤ p.testSize) (hn : p.trainSize + p.purgedSize < n) (hfuel : n ≤ fuel)
    (r r' : List P) (h : backtest est p X n fuel = .ok r) (h' : backtest est p X' n fuel = .ok r') (k : Nat) (hk : k < r.length) (hk' : k < r'.length)
    (hX : ∀ i, i + p.purgedSize < testStart p k → X i = X' i) :
    ∃ w : W, r[k] = est.predict w (rows X (testStart p k) (min (testStart p k + p.testSize) n)) ∧ r'[k] = est.predict w (rows X' (testStart p k) (min (testStart p k + p.testSize) n)) := by
  refine ⟨_, (C105_windows est p X n fuel hts hn hfuel r h k hk).2, ?_⟩
  rw [(C105_windows est p X' n fuel hts hn hfuel r' h' k hk').2]
  rw [rows_congr X X' _ (trainEnd p k) fun i hi => hX i (by unfold trainEnd at hi; unfold testStart; omega)]

/-- **C105.** New observations only continue a backtest: with further rows, all portfolios of whole test windows stay as they were, and without `reduce_test` the old backtest is the beginning of the new one. -/
theorem C105_extend (est : Estimator R W P) (p : Params) (X : Nat → R) (n n' fuel : Nat) (hts : 1 ≤ p.testSize) (hn : p.trainSize + p.purgedSize < n) (hnn : n ≤ n') (hfuel : n' ≤ fuel)
    (r r' : List P) (h : backtest est p X n fuel = .ok r) (h' : backtest est p X n' fuel = .ok r') :
    r.length ≤ r'.length ∧ (∀ k (hk : k < r.length) (hk' : k < r'.length), testStart p k + p.testSize ≤ n → r[k] = r'[k]) ∧ (p.reduceTest = false → r <+: r') := by
  have e := backtest_eq est p X n fuel hts hn (by omega) r h
  have e' := backtest_eq est p X n' fuel hts (by omega) hfuel r' h'
  have hlen : r.length ≤ r'.length := by
    rw [e, e', List.length_map, List.length_map, List.length_range, List.length_range]
    unfold WalkForward.num
    split_ifs
    · exact Nat.div_le_div_right (by omega)
    · exact Nat.div_le_div_right (by omega)
  have hsame : ∀ k (hk : k < r.length) (hk' : k < r'.length), testStart p k + p.testSize ≤ n → r[k] = r'[k] := by
    intro k hk hk' ht
    rw [(C105_windows est p X n fuel hts hn (by omega) r h k hk).2, (C105_windows est p X n' fuel hts (by omega) hfuel r' h' k hk').2]
    rw [min_eq_left ht, min_eq_left (by omega)]
  refine ⟨hlen, hsame, fun hr => ?_⟩
  rw [List.prefix_iff_eq_take]
  apply List.ext_getElem
  · rw [List.length_take]; omega
  · intro k h1 h2
    rw [List.getElem_take]
    refine hsame k h1 (by omega) ?_
    have hk : k < WalkForward.num p n (p.trainSize + p.purgedSize) := by
      rw [e, List.length_map, List.length_range] at h1
      exact h1
    rcases (WalkForward.num_lt p n _ k hts hk).2 with hc | hc
    · unfold testStart
      have := Nat.succ_mul k p.testSize
      simp only [Nat.succ_eq_add_one] at this
      omega
    · rw [hr] at hc
      exact absurd hc.1 (by simp)

/-- **C105.** The same with a frequency: if the calendar is increasing and all its dates are usable (as in C05), the future does not change the past: two data sets that agree on the rows before `t` have the same portfolios on all test windows that end
by `t`. -/
theorem C105_period_causal (est : Estimator R W P) (p : Params) (previous : Bool) (ts calendar : List Int) (X X' : Nat → R) (fuel : Nat)
    (hts : 1 ≤ p.testSize) (hd : ts.Pairwise (· < ·)) (hcal : calendar.Pairwise (· ≤ ·)) (hu : WalkForward.Usable previous ts calendar) (hfuel : calendar.length ≤ fuel)
    (r r' : List P) (h : periodBacktest est p previous ts calendar X fuel = .ok r) (h' : periodBacktest est p previous ts calendar X' fuel = .ok r') (t : Nat) (hX : ∀ i, i < t → X i = X' i) :
    ∃ splits : List (List Nat × List Nat), List.Forall₂ (fun s y => y = est.predict (est.fit (s.1.map X)) (s.2.map X)) splits r ∧
      List.Forall₂ (fun s y => y = est.predict (est.fit (s.1.map X')) (s.2.map X')) splits r' ∧
      (∀ s ∈ splits, ∀ i ∈ s.1, ∀ j ∈ s.2, i + p.purgedSize < j) ∧
      ∀ k (hk : k < splits.length) (h1 : k < r.length) (h2 : k < r'.length), splits[k].2 ≠ [] → (∀ j ∈ splits[k].2, j < t) → r[k] = r'[k] := by
  obtain ⟨L, hL, hgood⟩ := WalkForward.C05_period_no_look_ahead p previous ts calendar fuel hts hd hcal hu hfuel
  unfold periodBacktest at h h'
  rw [hL] at h h'
  simp only at h h'
  generalize hM : (L.map fun s => (s.1.map Int.toNat, s.2.map Int.toNat)) = M at h h'
  cases hc : crossValPredict none M (est.fitPredict X) with
  | error e => rw [hc] at h; cases h
  | ok l =>
    cases hc' : crossValPredict none M (est.fitPredict X') with
    | error e => rw [hc'] at h'; cases h'
    | ok l' =>
      rw [hc] at h
      rw [hc'] at h'
      cases h
      cases h'
      obtain ⟨o, o1, rfl, o3⟩ := C08_plain none M _ _ hc
      obtain ⟨o', o1', rfl, o3'⟩ := C08_plain none M _ _ hc'
      have ho : o' = o := by
        refine (o1'.trans o1.symm).eq_of_pairwise ?_ o3' o3
        rintro a b _ _ ⟨x, y, hx, hy, hxy⟩ ⟨x', y', hx', hy', hxy'⟩
        rw [hy] at hx'
        rw [hx] at hy'
        cases hx'
        cases hy'
        omega
      subst ho
      have hahead : ∀ s ∈ o', ∀ i ∈ s.1, ∀ j ∈ s.2, i + p.purgedSize < j := by
        intro s hs i hi j hj
        rw [o1.mem_iff, ← hM] at hs
        obtain ⟨u, hu', rfl⟩ := List.mem_map.1 hs
        obtain ⟨i', hi', rfl⟩ := List.mem_map.1 hi
        obtain ⟨j', hj', rfl⟩ := List.mem_map.1 hj
        obtain ⟨g1, g2, g3, -⟩ := hgood u hu'
        have a1 := g1 i' hi' j' hj'
        have a2 := g2 i' hi'
        have a3 := g3 j' hj'
        omega
      refine ⟨o', ?_, ?_, hahead, ?_⟩
      · rw [List.forall₂_map_right_iff, List.forall₂_same]
        exact fun _ _ => rfl
      · rw [List.forall₂_map_right_iff, List.forall₂_same]
        exact fun _ _ => rfl
      · intro k hk h1 h2 hne ht
        rw [List.getElem_map, List.getElem_map]
        have hm : o'[k] ∈ o' := List.getElem_mem hk
        obtain ⟨j0, hj0⟩ := List.exists_mem_of_ne_nil _ hne
        unfold Estimator.fitPredict
        rw [List.map_congr_left (f := X) (g := X') (l := o'[k].1) fun i hi => hX i (by
            have := hahead _ hm i hi j0 hj0
            have := ht j0 hj0
            omega),
          List.map_congr_left (f := X) (g := X') (l := o'[k].2) fun j hj => hX j (ht j hj)]

theorem crossValPredict_none_ok {β : Type} (s : List Nat × List Nat) (l : List (List Nat × List Nat)) (f : List Nat → List Nat → β)
    (h1 : s.1.Pairwise (· < ·)) (h2 : s.2.Pairwise (· < ·)) (h : Acceptable (s :: l)) : ∃ P, crossValPredict none (s :: l) f = .ok P := by
  obtain ⟨P, hP⟩ := (C08_plain_ok_iff (s :: l) f).2 h
  refine ⟨P, ?_⟩
  obtain ⟨a, b⟩ := s
  have hc : shuffleCheck none ((a, b) :: l) = .ok () := by
    unfold shuffleCheck
    rw [← isIncreasing_iff] at h1 h2
    simp only at h1 h2
    simp [h1, h2]
  have hc' : shuffleCheck (some false) ((a, b) :: l) = .ok () := rfl
  unfold crossValPredict at hP ⊢
  rw [hc'] at hP
  rw [hc]
  exact hP

/-- **C105.** A backtest runs iff at least one test window fits in the data (or a part of one, with `reduce_test`). -/
theorem C105_runs (est : Estimator R W P) (p : Params) (X : Nat → R) (n fuel : Nat) (hts : 1 ≤ p.testSize) (hn : p.trainSize + p.purgedSize < n) (hfuel : n ≤ fuel) :
    (∃ r, backtest est p X n fuel = .ok r) ↔ p.trainSize + p.purgedSize + p.testSize ≤ n ∨ p.reduceTest = true := by
  have hiff : (p.trainSize + p.purgedSize + p.testSize ≤ n ∨ p.reduceTest = true) ↔ WalkForward.num p n (p.trainSize + p.purgedSize) ≠ 0 := by
    constructor
    · intro h h0
      have := WalkForward.num_step p n (p.trainSize + p.purgedSize) hts hn (by
        rintro ⟨h1, h2⟩
        rcases h with h | h
        · omega
        · rw [h2] at h; cases h)
      omega
    · intro h
      by_contra hno
      push Not at hno
      exact h (WalkForward.num_stop p n _ hts (Or.inr ⟨hno.1, by simpa using hno.2⟩))
  rw [hiff]
  unfold backtest WalkForward.split
  rw [if_neg (by omega), WalkForward.loop_eq p n fuel _ hts (by omega) (by omega)]
  simp only
  cases hN : WalkForward.num p n (p.trainSize + p.purgedSize) with
  | zero =>
    constructor
    · rintro ⟨r, hr⟩
      simp [crossValPredict, shuffleCheck] at hr
    · intro h; exact absurd rfl h
  | succ N =>
    refine ⟨fun _ => by simp, fun _ => ?_⟩
    have hacc : Acceptable ((List.range (N + 1)).map fun k => WalkForward.mk p n (p.trainSize + p.purgedSize + k * p.testSize)) := by
      refine ⟨by simp, ?_, ?_⟩
      · intro s hs
        obtain ⟨k, hk, rfl⟩ := List.mem_map.1 hs
        rw [List.mem_range] at hk
        have h1 := (WalkForward.num_lt p n _ k hts (by rw [hN]; exact hk)).1
        intro h0
        have := head_range' (p.trainSize + p.purgedSize + k * p.testSize) (min (p.trainSize + p.purgedSize + k * p.testSize + p.testSize) n - (p.trainSize + p.purgedSize + k * p.testSize)) (by omega)
        unfold WalkForward.mk at h0
        simp only at h0
        rw [h0] at this
        cases this
      · rw [List.map_map]
        have := WalkForward.tests_flatten p n (p.trainSize + p.purgedSize) (N + 1) hts (by omega)
        rw [show (Prod.snd ∘ fun k => WalkForward.mk p n (p.trainSize + p.purgedSize + k * p.testSize)) = fun j => (WalkForward.mk p n (p.trainSize + p.purgedSize + j * p.testSize)).2 from rfl, this]
        exact List.nodup_range'
    rw [List.range_succ_eq_map, List.map_cons] at hacc ⊢
    obtain ⟨Q, hQ⟩ := crossValPredict_none_ok _ _ (est.fitPredict X) List.pairwise_lt_range' List.pairwise_lt_range' hacc
    rw [hQ]
    exact ⟨Q, rfl⟩

/-- A backtest with three training rows, a gap of one row and test windows of two rows, on nine and on twelve rows. -/
example : (∃ r, backtest (R := Nat) (W := Nat) (P := List Nat) ⟨List.sum, fun w l => l.map (w * ·)⟩ ⟨2, 3, 1, false, false⟩ id 9 12 = .ok r) ∧
    ∃ r, backtest (R := Nat) (W := Nat) (P := List Nat) ⟨List.sum, fun w l => l.map (w * ·)⟩ ⟨2, 3, 1, false, false⟩ id 12 12 = .ok r :=
  ⟨(C105_runs _ _ _ _ _ (by decide) (by decide) (by decide)).2 (Or.inl (by decide)), (C105_runs _ _ _ _ _ (by decide) (by decide) (by decide)).2 (Or.inl (by decide))⟩

end Skfolio.Validation
