import Verif.WalkForward.Lemmas
import Mathlib.Data.List.GetD

/-!
C03, C04, C05: `src/skfolio/model_selection/_walk_forward.py`.
-/
set_option autoImplicit false

namespace Skfolio.WalkForward

/-! ### Specification -/

/-- The consecutive indices `a, a+1, …, b-1`. -/
def interval (a b : Nat) : List Nat := List.range' a (b - a)

theorem mem_interval {a b x : Nat} : x ∈ interval a b ↔ a ≤ x ∧ x < b := by
  unfold interval
  rw [List.mem_range'_1]
  omega

/-- What a user expects of split number `k` of `N` splits of a sample of `n` observations. -/
structure GoodSplit (p : Params) (n k N : Nat) (train test : List Nat) : Prop where
  ex : ∃ a b c d, train = interval a b ∧ test = interval c d ∧ a ≤ b ∧
    -- the training window ends exactly `purged_size` observations before the test window starts
    b + p.purgedSize = c ∧
    -- the test window is not empty and inside the sample
    c < d ∧ d ≤ n ∧
    (if p.expendTrain then a = 0 else b = a + p.trainSize) ∧
    -- full length, except possibly for the last test window when `reduce_test` is set
    (d = c + p.testSize ∨ (p.reduceTest = true ∧ k + 1 = N ∧ d = n ∧ n < c + p.testSize))

/-- End of the range covered by the test windows: the whole sample with `reduce_test`, otherwise what is covered by whole
windows. -/
def coveredEnd (p : Params) (n : Nat) : Nat :=
  let s := p.trainSize + p.purgedSize
  if p.reduceTest then n else s + (n - s) / p.testSize * p.testSize

/-! ### C03 -/

/-- **C03.** Every split has the documented shape: consecutive indices, exact purge gap, exact sizes. -/
theorem C03_split_shape (p : Params) (n fuel : Nat) (hts : 1 ≤ p.testSize) (hn : p.trainSize + p.purgedSize < n)
    (hfuel : n ≤ fuel) :
    ∃ L, split p n fuel = .ok (some L) ∧ ∀ k (hk : k < L.length), GoodSplit p n k L.length L[k].1 L[k].2 := by
  unfold split
  rw [if_neg (by omega), loop_eq p n fuel _ hts (by omega) (by omega)]
  refine ⟨_, rfl, ?_⟩
  intro k hk
  rw [List.length_map, List.length_range] at hk
  simp only [List.getElem_map, List.getElem_range, List.length_map, List.length_range]
  obtain ⟨h1, h2⟩ := num_lt p n (p.trainSize + p.purgedSize) k hts hk
  have e1 : (k + 1) * p.testSize = k * p.testSize + p.testSize := Nat.succ_mul _ _
  refine ⟨⟨if p.expendTrain then 0 else k * p.testSize, p.trainSize + k * p.testSize,
    p.trainSize + p.purgedSize + k * p.testSize, min (p.trainSize + p.purgedSize + k * p.testSize + p.testSize) n,
    ?_, ?_, ?_, by omega, by omega, by omega, ?_, ?_⟩⟩
  · unfold mk interval
    simp only
    split_ifs
    · congr 1; omega
    · congr 1 <;> omega
  · unfold mk interval; rfl
  · split_ifs <;> omega
  · split_ifs <;> omega
  · rcases h2 with h2 | ⟨h2, h3⟩
    · left; omega
    · by_cases h4 : p.trainSize + p.purgedSize + k * p.testSize + p.testSize ≤ n
      · left; omega
      · right; exact ⟨h2, h3, by omega, by omega⟩

example : split ⟨2, 3, 1, false, true⟩ 9 9 =
    .ok (some [([0, 1, 2], [4, 5]), ([2, 3, 4], [6, 7]), ([4, 5, 6], [8])]) := by decide

/-- **C03.** No look-ahead: every training index precedes every test index by more than `purged_size`, and all indices are
valid. -/
theorem C03_no_look_ahead (p : Params) (n fuel : Nat) (hts : 1 ≤ p.testSize) (hn : p.trainSize + p.purgedSize < n)
    (hfuel : n ≤ fuel) (L : List (List Nat × List Nat)) (hL : split p n fuel = .ok (some L)) :
    ∀ s ∈ L, (∀ t ∈ s.1, ∀ u ∈ s.2, t + p.purgedSize < u) ∧ (∀ t ∈ s.1, t < n) ∧ (∀ u ∈ s.2, u < n) ∧ s.2 ≠ [] := by
  obtain ⟨L', h1, h2⟩ := C03_split_shape p n fuel hts hn hfuel
  rw [h1] at hL
  obtain rfl : L' = L := by simpa using hL
  intro s hs
  obtain ⟨k, hk, rfl⟩ := List.getElem_of_mem hs
  obtain ⟨⟨a, b, c, d, e1, e2, h3, h4, h5, h6, _, _⟩⟩ := h2 k hk
  rw [e1, e2]
  refine ⟨?_, ?_, ?_, ?_⟩
  · intro t ht u hu
    rw [mem_interval] at ht hu
    omega
  · intro t ht; rw [mem_interval] at ht; omega
  · intro u hu; rw [mem_interval] at hu; omega
  · intro h0
    have : c ∈ interval c d := mem_interval.2 (by omega)
    rw [h0] at this; simp at this

/-! ### C04 -/

/-- **C04.** The test windows, put one after the other, are exactly the observations from `train_size + purged_size` to the
end of the covered range: they are in order, disjoint and leave no hole. -/
theorem C04_tests_tile (p : Params) (n fuel : Nat) (hts : 1 ≤ p.testSize) (hn : p.trainSize + p.purgedSize < n)
    (hfuel : n ≤ fuel) :
    ∃ L, split p n fuel = .ok (some L) ∧
      (L.map Prod.snd).flatten = interval (p.trainSize + p.purgedSize) (coveredEnd p n) := by
  unfold split
  rw [if_neg (by omega), loop_eq p n fuel _ hts (by omega) (by omega)]
  refine ⟨_, rfl, ?_⟩
  rw [List.map_map]
  have := tests_flatten p n (p.trainSize + p.purgedSize) _ hts (le_refl _)
  rw [show (Prod.snd ∘ fun k => mk p n (p.trainSize + p.purgedSize + k * p.testSize)) =
    fun j => (mk p n (p.trainSize + p.purgedSize + j * p.testSize)).2 from rfl, this]
  unfold interval
  congr 2
  unfold coveredEnd num
  simp only
  split_ifs with hr
  · set m := n - (p.trainSize + p.purgedSize) with hm
    have h1 := Nat.div_add_mod (m + p.testSize - 1) p.testSize
    have h2 := Nat.mod_lt (m + p.testSize - 1) (show 0 < p.testSize by omega)
    rw [Nat.mul_comm] at h1
    omega
  · set m := n - (p.trainSize + p.purgedSize) with hm
    have h1 := Nat.div_mul_le_self m p.testSize
    omega

/-- **C04.** `get_n_splits` equals the number of splits produced. -/
theorem C04_count (p : Params) (n fuel : Nat) (hts : 1 ≤ p.testSize) (hn : p.trainSize + p.purgedSize < n)
    (hfuel : n ≤ fuel) :
    ∃ L, split p n fuel = .ok (some L) ∧ getNSplits p n = (L.length : Int) := by
  unfold split
  rw [if_neg (by omega), loop_eq p n fuel _ hts (by omega) (by omega)]
  refine ⟨_, rfl, ?_⟩
  rw [List.length_map, List.length_range]
  unfold getNSplits num
  obtain ⟨m, hm⟩ : ∃ m, n - (p.trainSize + p.purgedSize) = m := ⟨_, rfl⟩
  have e : (n : Int) - p.trainSize - p.purgedSize = (m : Int) := by omega
  have hd : ((n - (p.trainSize + p.purgedSize) + p.testSize - 1) / p.testSize : Nat) =
      m / p.testSize + if m % p.testSize = 0 then 0 else 1 := by
    rw [hm]
    have h1 := Nat.div_add_mod m p.testSize
    have h2 := Nat.mod_lt m (show 0 < p.testSize by omega)
    split_ifs with h0
    · have : m + p.testSize - 1 = (p.testSize - 1) + p.testSize * (m / p.testSize) := by omega
      rw [this, Nat.add_mul_div_left _ _ (by omega), Nat.div_eq_of_lt (by omega)]; omega
    · have : m + p.testSize - 1 = (m % p.testSize - 1) + p.testSize * (m / p.testSize + 1) := by
        rw [Nat.mul_add]; omega
      rw [this, Nat.add_mul_div_left _ _ (by omega), Nat.div_eq_of_lt (by omega)]; omega
  have hfd : Int.fdiv (m : Int) p.testSize = ((m / p.testSize : Nat) : Int) := (Int.ofNat_fdiv _ _).symm
  have hfm : Int.fmod (m : Int) p.testSize = ((m % p.testSize : Nat) : Int) := (Int.ofNat_fmod _ _).symm
  simp only [e, hfd, hfm]
  cases hr : p.reduceTest
  · simp [hm]
  · simp only [Bool.true_and, decide_eq_true_eq, if_true]
    rw [hd]
    by_cases h0 : m % p.testSize = 0
    · rw [if_pos h0, if_neg (by simp [h0])]; simp
    · rw [if_neg h0, if_pos (by exact_mod_cast h0)]; push_cast; rfl

example : getNSplits ⟨2, 3, 1, false, true⟩ 9 = 3 ∧ getNSplits ⟨2, 3, 1, false, false⟩ 9 = 2 := by decide

/-- **C04.** `split` raises exactly when there is no room for a single test observation. -/
theorem C04_error_iff (p : Params) (n fuel : Nat) :
    split p n fuel = .error .valueError ↔ n ≤ p.trainSize + p.purgedSize := by
  unfold split
  split_ifs with h
  · simpa using h
  · simp; omega

/-- **C04 (disagreement).** With `test_size = 0`, which the constructor accepts, the generator never stops. -/
theorem C04_zero_test_size_diverges (p : Params) (n fuel : Nat) (h0 : p.testSize = 0)
    (hn : p.trainSize + p.purgedSize < n) : split p n fuel = .ok none := by
  unfold split
  rw [if_neg (by omega)]
  congr 1
  generalize p.trainSize + p.purgedSize = s at hn
  induction fuel with
  | zero =>
    unfold loop
    rw [if_neg (by omega)]
    simp only [h0]
    rw [if_neg (by omega)]
  | succ fuel ih =>
    unfold loop
    rw [if_neg (by omega)]
    simp only [h0, Nat.add_zero]
    rw [if_neg (by omega), ih]
    rfl

/-! ### C05: period mode -/

/-- The calendar dates are usable: with `previous=False` every date is followed by some observation, with `previous=True` every
date is preceded by some observation. -/
def Usable (previous : Bool) (ts calendar : List Int) : Prop :=
  ∀ d ∈ calendar, if previous then ∃ t ∈ ts, t ≤ d else ∃ t ∈ ts, d ≤ t

/-- `idx` is a non-decreasing array of valid positions. -/
structure GoodIdx (n : Nat) (idx : List Int) : Prop where
  nonneg : ∀ x ∈ idx, 0 ≤ x
  lt : ∀ x ∈ idx, x < n
  mono : idx.Pairwise (· ≤ ·)

theorem bfill_mono_of_usable (ts : List Int) {d e : Int} (h : d ≤ e)
    (he : ∃ t ∈ ts, e ≤ t) : 0 ≤ bfill ts d ∧ bfill ts d ≤ bfill ts e ∧
      bfill ts d = ts.countP (fun t => decide (t < d)) := by
  have key : ∀ d, (∃ t ∈ ts, d ≤ t) → ts.countP (fun t => decide (t < d)) < ts.length := by
    rintro d ⟨t, ht, hd⟩
    by_contra hc
    have h1 : ts.countP (fun t => decide (t < d)) = ts.length := by
      have := List.countP_le_length (l := ts) (p := fun t => decide (t < d))
      omega
    rw [List.countP_eq_length] at h1
    have := h1 t ht
    simp at this; omega
  obtain ⟨t, ht, het⟩ := he
  have k1 := key e ⟨t, ht, het⟩
  have k2 := key d ⟨t, ht, by omega⟩
  unfold bfill
  rw [if_pos k1, if_pos k2]
  have := countP_mono ts (fun t => decide (t < d)) (fun t => decide (t < e)) (by intro x hx; simp at hx ⊢; omega)
  refine ⟨by omega, by omega, rfl⟩

theorem goodIdx_of_usable (previous : Bool) (ts calendar : List Int)
    (hcal : calendar.Pairwise (· ≤ ·)) (hu : Usable previous ts calendar) :
    GoodIdx ts.length (calendar.map (if previous then ffill ts else bfill ts)) := by
  cases previous
  · simp only [Bool.false_eq_true, if_false]
    have hu' : ∀ d ∈ calendar, ∃ t ∈ ts, d ≤ t := by
      intro d hd; have := hu d hd; simpa using this
    refine ⟨?_, ?_, ?_⟩
    · intro x hx
      obtain ⟨d, hd, rfl⟩ := List.mem_map.1 hx
      exact (bfill_mono_of_usable ts (le_refl d) (hu' d hd)).1
    · intro x hx
      obtain ⟨d, hd, rfl⟩ := List.mem_map.1 hx
      obtain ⟨t, ht, _⟩ := hu' d hd
      exact bfill_lt ts (List.ne_nil_of_mem ht) d
    · rw [List.pairwise_map]
      refine hcal.imp_of_mem ?_
      intro a b _ hb hab
      exact (bfill_mono_of_usable ts hab (hu' b hb)).2.1
  · simp only [if_true]
    refine ⟨?_, ?_, ?_⟩
    · intro x hx
      obtain ⟨d, hd, rfl⟩ := List.mem_map.1 hx
      have := hu d hd
      simp only [if_true] at this
      obtain ⟨t, ht, htd⟩ := this
      have : 0 < ts.countP (fun t => decide (t ≤ d)) := List.countP_pos_iff.2 ⟨t, ht, by simpa using htd⟩
      unfold ffill; omega
    · intro x hx
      obtain ⟨d, hd, rfl⟩ := List.mem_map.1 hx
      exact ffill_lt ts d
    · rw [List.pairwise_map]
      exact hcal.imp (fun h => ffill_mono ts h)

theorem GoodIdx.getD_mono {n : Nat} {idx : List Int} (h : GoodIdx n idx) {i j : Nat} (hij : i ≤ j) (hj : j < idx.length) :
    idx.getD i 0 ≤ idx.getD j 0 := by
  rw [List.getD_eq_getElem _ _ (by omega), List.getD_eq_getElem _ _ hj]
  rcases Nat.eq_or_lt_of_le hij with rfl | hlt
  · exact le_refl _
  · exact List.pairwise_iff_getElem.1 h.mono i j (by omega) hj hlt

theorem GoodIdx.getD_range {n : Nat} {idx : List Int} (h : GoodIdx n idx) {i : Nat} (hi : i < idx.length) :
    0 ≤ idx.getD i 0 ∧ idx.getD i 0 < n := by
  rw [List.getD_eq_getElem _ _ hi]
  exact ⟨h.nonneg _ (List.getElem_mem hi), h.lt _ (List.getElem_mem hi)⟩

/-- The splits of the period loop, one by one. -/
theorem periodLoop_spec (p : Params) (n : Nat) (idx : List Int) (hts : 1 ≤ p.testSize) (fuel i : Nat)
    (hfuel : idx.length ≤ i + fuel) :
    ∃ L, periodLoop p n idx fuel i = some L ∧ ∀ k (hk : k < L.length),
      let j := i + k * p.testSize + p.trainSize
      j < idx.length ∧
      L[k] = (arange (if p.expendTrain then 0 else idx.getD (i + k * p.testSize) 0) (idx.getD j 0 - p.purgedSize),
        arange (idx.getD j 0) (if j + p.testSize ≥ idx.length then n else idx.getD (j + p.testSize) 0)) ∧
      (j + p.testSize ≥ idx.length → p.reduceTest = true) := by
  induction fuel generalizing i with
  | zero =>
    refine ⟨[], ?_, by simp⟩
    unfold periodLoop
    rw [if_pos (by omega)]
  | succ fuel ih =>
    unfold periodLoop
    by_cases h1 : i + p.trainSize ≥ idx.length
    · exact ⟨[], by rw [if_pos h1], by simp⟩
    by_cases h2 : i + p.trainSize + p.testSize ≥ idx.length ∧ p.reduceTest = false
    · exact ⟨[], by rw [if_neg h1, if_pos h2], by simp⟩
    obtain ⟨L, hL, hk⟩ := ih (i + p.testSize) (by omega)
    rw [if_neg h1, if_neg h2]
    simp only [hL, Option.map_some]
    refine ⟨_, rfl, ?_⟩
    intro k hk'
    cases k with
    | zero =>
      simp only [Nat.zero_mul, Nat.add_zero, List.getElem_cons_zero]
      refine ⟨by omega, ?_, ?_⟩
      · split_ifs <;> rfl
      · intro h
        by_contra hr
        exact h2 ⟨h, by simpa using hr⟩
    | succ k =>
      have := hk k (by simpa using hk')
      have e1 : (k + 1) * p.testSize = k * p.testSize + p.testSize := Nat.succ_mul _ _
      have e2 : i + (k + 1) * p.testSize = i + p.testSize + k * p.testSize := by omega
      simp only [List.getElem_cons_succ, e2]
      exact this

/-- **C05 (integer `train_size`).** With usable calendar dates, every training index precedes every test index by more than
`purged_size`, all indices are valid positions, and the training window stops exactly `purged_size` observations before the
start of the test window. -/
theorem C05_period_no_look_ahead (p : Params) (previous : Bool) (ts calendar : List Int) (fuel : Nat)
    (hp : 1 ≤ p.testSize) (_hts : ts.Pairwise (· < ·)) (hcal : calendar.Pairwise (· ≤ ·)) (hu : Usable previous ts calendar)
    (hfuel : calendar.length ≤ fuel) :
    ∃ L, periodSplit p previous ts calendar fuel = some L ∧ ∀ s ∈ L,
      (∀ t ∈ s.1, ∀ u ∈ s.2, t + p.purgedSize < u) ∧ (∀ t ∈ s.1, 0 ≤ t ∧ t < ts.length) ∧
      (∀ u ∈ s.2, 0 ≤ u ∧ u < ts.length) ∧
      ∃ a c d : Int, s.1 = arange a (c - p.purgedSize) ∧ s.2 = arange c d := by
  have hg := goodIdx_of_usable previous ts calendar hcal hu
  unfold periodSplit
  generalize hidx : calendar.map (if previous then ffill ts else bfill ts) = idx at hg
  have hlen : idx.length = calendar.length := by rw [← hidx]; simp
  obtain ⟨L, hL, hk⟩ := periodLoop_spec p ts.length idx hp fuel 0 (by omega)
  refine ⟨L, hL, ?_⟩
  intro s hs
  obtain ⟨k, hk', rfl⟩ := List.getElem_of_mem hs
  obtain ⟨h1, h2, h3⟩ := hk k hk'
  rw [h2]
  have r1 := hg.getD_range h1
  refine ⟨?_, ?_, ?_, _, _, _, rfl, rfl⟩
  · intro t ht u hu
    rw [mem_arange] at ht hu
    omega
  · intro t ht
    rw [mem_arange] at ht
    have : 0 ≤ (if p.expendTrain then (0 : Int) else idx.getD (0 + k * p.testSize) 0) := by
      split_ifs
      · exact le_refl _
      · exact (hg.getD_range (by omega)).1
    omega
  · intro u hu
    rw [mem_arange] at hu
    refine ⟨by omega, ?_⟩
    split_ifs at hu with hc
    · omega
    · have := hg.getD_range (i := 0 + k * p.testSize + p.trainSize + p.testSize) (by omega)
      omega

/-- **C05 (integer `train_size`).** The test windows come in order and do not overlap, and each window starts where the
previous one ends. -/
theorem C05_period_tests_ordered (p : Params) (previous : Bool) (ts calendar : List Int) (fuel : Nat)
    (hp : 1 ≤ p.testSize) (_hts : ts.Pairwise (· < ·)) (hcal : calendar.Pairwise (· ≤ ·)) (hu : Usable previous ts calendar)
    (hfuel : calendar.length ≤ fuel) :
    ∃ L, periodSplit p previous ts calendar fuel = some L ∧
      (∀ k l (_ : k < l) (hl : l < L.length), ∀ x ∈ L[k].2, ∀ y ∈ L[l].2, x < y) ∧
      (∀ k (hk : k + 1 < L.length), ∃ a b c : Int, L[k].2 = arange a b ∧ L[k + 1].2 = arange b c) := by
  have hg := goodIdx_of_usable previous ts calendar hcal hu
  unfold periodSplit
  generalize hidx : calendar.map (if previous then ffill ts else bfill ts) = idx at hg
  have hlen : idx.length = calendar.length := by rw [← hidx]; simp
  obtain ⟨L, hL, hk⟩ := periodLoop_spec p ts.length idx hp fuel 0 (by omega)
  refine ⟨L, hL, ?_, ?_⟩
  · intro k l hkl hl x hx y hy
    obtain ⟨a1, a2, a3⟩ := hk k (by omega)
    obtain ⟨b1, b2, b3⟩ := hk l hl
    rw [a2] at hx
    rw [b2] at hy
    rw [mem_arange] at hx hy
    have hmul : (k + 1) * p.testSize ≤ l * p.testSize := Nat.mul_le_mul_right _ hkl
    have e1 : (k + 1) * p.testSize = k * p.testSize + p.testSize := Nat.succ_mul _ _
    rw [if_neg (by omega)] at hx
    have := hg.getD_mono (i := 0 + k * p.testSize + p.trainSize + p.testSize)
      (j := 0 + l * p.testSize + p.trainSize) (by omega) b1
    omega
  · intro k hk1
    obtain ⟨a1, a2, a3⟩ := hk k (by omega)
    obtain ⟨b1, b2, b3⟩ := hk (k + 1) hk1
    have e1 : (k + 1) * p.testSize = k * p.testSize + p.testSize := Nat.succ_mul _ _
    have e2 : 0 + (k + 1) * p.testSize + p.trainSize = 0 + k * p.testSize + p.trainSize + p.testSize := by omega
    rw [a2, b2]
    simp only [e2]
    rw [if_neg (by omega)]
    exact ⟨_, _, _, rfl, rfl⟩

/-- **C05 (integer `train_size`, `previous=False`).** In terms of dates: test window number `k` consists of exactly the
observations dated from the calendar date number `train_size + k * test_size` (included) to the calendar date number
`train_size + (k+1) * test_size` (excluded). -/
theorem C05_period_test_dates (p : Params) (ts calendar : List Int) (fuel : Nat)
    (hp : 1 ≤ p.testSize) (hts : ts.Pairwise (· < ·)) (hcal : calendar.Pairwise (· ≤ ·)) (hu : Usable false ts calendar)
    (hfuel : calendar.length ≤ fuel) :
    ∃ L, periodSplit p false ts calendar fuel = some L ∧ ∀ k (hk : k < L.length),
      ∃ hc : p.trainSize + k * p.testSize < calendar.length, ∀ x (hx : x < ts.length),
        ((x : Int) ∈ L[k].2 ↔ (calendar[p.trainSize + k * p.testSize] ≤ ts[x] ∧
          ∀ hd : p.trainSize + k * p.testSize + p.testSize < calendar.length,
            ts[x] < calendar[p.trainSize + k * p.testSize + p.testSize])) := by
  -- position `x` is at or after the back-filled position of `d` iff its date is at or after `d`
  have pos : ∀ (ts : List Int), ts.Pairwise (· < ·) → ∀ d x (hx : x < ts.length),
      (ts.countP (fun t => decide (t < d)) ≤ x ↔ d ≤ ts[x]) := by
    intro ts
    induction ts with
    | nil => intro _ d x hx; simp at hx
    | cons a ts ih =>
      intro hs d x hx
      rw [List.pairwise_cons] at hs
      rw [List.countP_cons]
      cases x with
      | zero =>
        simp only [List.getElem_cons_zero, Nat.le_zero]
        by_cases had : a < d
        · simp [had]
        · simp only [had, decide_false, Bool.false_eq_true, if_false, Nat.add_zero]
          have h0 : ts.countP (fun t => decide (t < d)) = 0 := by
            rw [List.countP_eq_zero]
            intro b hb; have := hs.1 b hb; simp; omega
          rw [h0]; simp; omega
      | succ x =>
        simp only [List.getElem_cons_succ]
        have hx' : x < ts.length := by simpa using hx
        rw [← ih hs.2 d x hx']
        by_cases had : a < d
        · simp [had]
        · have h0 : ts.countP (fun t => decide (t < d)) = 0 := by
            rw [List.countP_eq_zero]
            intro b hb; have := hs.1 b hb; simp; omega
          simp [had, h0]
  have hg := goodIdx_of_usable false ts calendar hcal hu
  simp only [Bool.false_eq_true, if_false] at hg
  unfold periodSplit
  simp only [Bool.false_eq_true, if_false]
  have hu' : ∀ d ∈ calendar, ∃ t ∈ ts, d ≤ t := by
    intro d hd; have := hu d hd; simpa using this
  obtain ⟨L, hL, hk⟩ := periodLoop_spec p ts.length (calendar.map (bfill ts)) hp fuel 0 (by simpa using hfuel)
  refine ⟨L, hL, ?_⟩
  intro k hk'
  obtain ⟨h1, h2, h3⟩ := hk k hk'
  rw [List.length_map] at h1 h2
  have e0 : 0 + k * p.testSize + p.trainSize = p.trainSize + k * p.testSize := by omega
  rw [e0] at h1 h2
  refine ⟨h1, ?_⟩
  intro x hx
  have val : ∀ j (hj : j < calendar.length), (calendar.map (bfill ts)).getD j 0 =
      (ts.countP (fun t => decide (t < calendar[j])) : Int) := by
    intro j hj
    rw [List.getD_eq_getElem _ _ (by simpa using hj), List.getElem_map]
    exact (bfill_mono_of_usable ts (le_refl _) (hu' _ (List.getElem_mem hj))).2.2
  rw [h2, mem_arange, val _ h1, ← pos ts hts _ x hx]
  by_cases hc : p.trainSize + k * p.testSize + p.testSize ≥ calendar.length
  · rw [if_pos hc]
    constructor
    · rintro ⟨a, _⟩; exact ⟨by exact_mod_cast a, fun hd => by omega⟩
    · rintro ⟨a, _⟩; exact ⟨by exact_mod_cast a, by omega⟩
  · rw [if_neg hc, val _ (by omega)]
    constructor
    · rintro ⟨a, b⟩
      refine ⟨by exact_mod_cast a, fun hd => ?_⟩
      by_contra hlt
      have := (pos ts hts (calendar[p.trainSize + k * p.testSize + p.testSize]) x hx).2 (by omega)
      omega
    · rintro ⟨a, b⟩
      refine ⟨by exact_mod_cast a, ?_⟩
      have hb := b (by omega)
      by_contra hle
      have := (pos ts hts (calendar[p.trainSize + k * p.testSize + p.testSize]) x hx).1 (by omega)
      omega

/-- Nine daily observations, a calendar date every third day, one period of training, one of test, purge of one. -/
example : periodSplit ⟨1, 1, 1, false, true⟩ false [10, 11, 12, 13, 14, 15, 16, 17, 18] [10, 13, 16] 3 =
    some [([0, 1], [3, 4, 5]), ([3, 4], [6, 7, 8])] ∧
    Usable false [10, 11, 12, 13, 14, 15, 16, 17, 18] [10, 13, 16] := by
  refine ⟨by decide, ?_⟩
  unfold Usable; decide

/-- **C05 (disagreement).** With `previous=True` and a calendar date before the first observation (a negative `freq_offset`
makes the first period start earlier than the data), `get_indexer` returns -1 and the training set contains the position `-1`,
i.e. the *last* observation of the sample, which lies after the test window: look-ahead. -/
theorem C05_previous_look_ahead :
    ∃ (p : Params) (ts calendar : List Int) (L : List (List Int × List Int)),
      ts.Pairwise (· < ·) ∧ calendar.Pairwise (· ≤ ·) ∧ periodSplit p true ts calendar calendar.length = some L ∧
      ∃ s ∈ L, (-1) ∈ s.1 ∧ s.2 ≠ [] :=
  ⟨⟨1, 1, 0, false, false⟩, [10, 11, 12, 13, 14, 15, 16, 17, 18], [9, 12, 15],
    [([-1, 0, 1], [2, 3, 4])], by decide, by decide, by decide, by decide⟩

/-- **C04/C05 (disagreement).** In period mode `get_n_splits`, which ignores `freq`, is not the number of splits. -/
theorem C04_count_wrong_with_freq :
    ∃ (p : Params) (ts calendar : List Int) (L : List (List Int × List Int)),
      ts.Pairwise (· < ·) ∧ calendar.Pairwise (· ≤ ·) ∧ Usable false ts calendar ∧
      periodSplit p false ts calendar calendar.length = some L ∧ getNSplits p ts.length ≠ L.length :=
  ⟨⟨1, 1, 0, false, false⟩, [10, 11, 12, 13, 14, 15, 16, 17, 18], [10, 13, 16],
    [([0, 1, 2], [3, 4, 5])], by decide, by decide, by unfold Usable; decide, by decide, by decide⟩

theorem offsetLoop_spec (p : Params) (n : Nat) (idx trainIdx : List Int) (hts : 1 ≤ p.testSize) (fuel i : Nat)
    (hfuel : idx.length ≤ i + fuel) :
    ∃ L, offsetLoop p n idx trainIdx fuel i = some L ∧ ∀ k (hk : k < L.length),
      let j := i + k * p.testSize
      j < idx.length ∧
      L[k] = (arange (if p.expendTrain then 0 else trainIdx.getD j 0) (idx.getD j 0),
        arange (idx.getD j 0) (if j + p.testSize ≥ idx.length then n else idx.getD (j + p.testSize) 0 - p.purgedSize)) ∧
      (j + p.testSize ≥ idx.length → p.reduceTest = true) := by
  induction fuel generalizing i with
  | zero =>
    refine ⟨[], ?_, by simp⟩
    unfold offsetLoop
    rw [if_pos (by omega)]
  | succ fuel ih =>
    unfold offsetLoop
    by_cases h1 : i ≥ idx.length
    · exact ⟨[], by rw [if_pos h1], by simp⟩
    by_cases h2 : i + p.testSize ≥ idx.length ∧ p.reduceTest = false
    · exact ⟨[], by rw [if_neg h1, if_pos h2], by simp⟩
    obtain ⟨L, hL, hk⟩ := ih (i + p.testSize) (by omega)
    rw [if_neg h1, if_neg h2]
    simp only [hL, Option.map_some]
    refine ⟨_, rfl, ?_⟩
    intro k hk'
    cases k with
    | zero =>
      simp only [Nat.zero_mul, Nat.add_zero, List.getElem_cons_zero]
      refine ⟨by omega, ?_, ?_⟩
      · split_ifs <;> rfl
      · intro h
        by_contra hr
        exact h2 ⟨h, by simpa using hr⟩
    | succ k =>
      have := hk k (by simpa using hk')
      have e1 : (k + 1) * p.testSize = k * p.testSize + p.testSize := Nat.succ_mul _ _
      have e2 : i + (k + 1) * p.testSize = i + p.testSize + k * p.testSize := by omega
      simp only [List.getElem_cons_succ, e2]
      exact this

/-- **C05 (offset `train_size`), partial.** Training precedes test, all positions are valid, test windows are in order and
disjoint. Missing with respect to C05: the purge gap between training and test, which the code does not apply in this mode
(see `C05_offset_purge_ignored`). -/
theorem C05_offset_partial (p : Params) (previous : Bool) (ts calendar trainCalendar : List Int) (fuel : Nat)
    (hp : 1 ≤ p.testSize) (_hts : ts.Pairwise (· < ·)) (hcal : calendar.Pairwise (· ≤ ·)) (hu : Usable previous ts calendar)
    (htc : trainCalendar.Pairwise (· ≤ ·)) (hlen : trainCalendar.length = calendar.length)
    (hfuel : calendar.length ≤ fuel) :
    ∃ L, offsetSplit p previous ts calendar trainCalendar fuel = some L ∧
      (∀ s ∈ L, (∀ t ∈ s.1, ∀ u ∈ s.2, t < u) ∧ (∀ t ∈ s.1, 0 ≤ t ∧ t < ts.length) ∧
        (∀ u ∈ s.2, 0 ≤ u ∧ u < ts.length)) ∧
      (∀ k l (_ : k < l) (hl : l < L.length), ∀ x ∈ L[k].2, ∀ y ∈ L[l].2, x + p.purgedSize < y) := by
  have hg := goodIdx_of_usable previous ts calendar hcal hu
  unfold offsetSplit
  simp only
  by_cases hall : (trainCalendar.map (ffill ts)).all (fun t => t == -1) = true
  · exact ⟨[], by rw [if_pos hall], by simp, by simp⟩
  rw [if_neg hall]
  have hidxlen : (calendar.map (if previous then ffill ts else bfill ts)).length = calendar.length := by simp
  generalize (calendar.map (if previous then ffill ts else bfill ts)) = idx at hg hidxlen
  have htrlen : (trainCalendar.map (ffill ts)).length = calendar.length := by simp [hlen]
  have htrmono : (trainCalendar.map (ffill ts)).Pairwise (· ≤ ·) := by
    rw [List.pairwise_map]; exact htc.imp (fun h => ffill_mono ts h)
  have htrge : ∀ x ∈ trainCalendar.map (ffill ts), -1 ≤ x := by
    intro x hx
    obtain ⟨d, _, rfl⟩ := List.mem_map.1 hx
    unfold ffill; omega
  generalize (trainCalendar.map (ffill ts)) = tr at hall htrlen htrmono htrge
  have hex : ∃ x ∈ tr, (fun t => decide (t > -1)) x = true := by
    by_contra hno
    push Not at hno
    apply hall
    rw [List.all_eq_true]
    intro x hx
    have h1 := hno x hx
    have h2 := htrge x hx
    simp at h1 ⊢; omega
  obtain ⟨i, hi⟩ : ∃ i, tr.findIdx (fun t => decide (t > -1)) = i := ⟨_, rfl⟩
  have hilt : i < tr.length := by
    rw [← hi]; exact List.findIdx_lt_length.2 hex
  have hipos : -1 < tr[i] := by
    have := List.findIdx_getElem (w := by rw [hi]; exact hilt) (p := fun t => decide (t > -1)) (xs := tr)
    simp only [hi] at this
    simpa using this
  rw [hi]
  obtain ⟨L, hL, hk⟩ := offsetLoop_spec p ts.length idx tr hp fuel i (by omega)
  refine ⟨L, hL, ?_, ?_⟩
  · intro s hs
    obtain ⟨k, hk', rfl⟩ := List.getElem_of_mem hs
    obtain ⟨h1, h2, h3⟩ := hk k hk'
    rw [h2]
    have r1 := hg.getD_range h1
    refine ⟨?_, ?_, ?_⟩
    · intro t ht u hu
      rw [mem_arange] at ht hu
      omega
    · intro t ht
      rw [mem_arange] at ht
      have : 0 ≤ (if p.expendTrain then (0 : Int) else tr.getD (i + k * p.testSize) 0) := by
        split_ifs
        · exact le_refl _
        · rw [List.getD_eq_getElem _ _ (by omega)]
          have : tr[i] ≤ tr[i + k * p.testSize]'(by omega) := by
            rcases Nat.eq_or_lt_of_le (Nat.le_add_right i (k * p.testSize)) with he | hlt
            · exact le_of_eq (by congr 1)
            · exact List.pairwise_iff_getElem.1 htrmono _ _ _ _ hlt
          omega
      omega
    · intro u hu
      rw [mem_arange] at hu
      refine ⟨by omega, ?_⟩
      split_ifs at hu with hc
      · omega
      · have := hg.getD_range (i := i + k * p.testSize + p.testSize) (by omega)
        omega
  · intro k l hkl hl x hx y hy
    obtain ⟨a1, a2, a3⟩ := hk k (by omega)
    obtain ⟨b1, b2, b3⟩ := hk l hl
    rw [a2] at hx
    rw [b2] at hy
    rw [mem_arange] at hx hy
    have hmul : (k + 1) * p.testSize ≤ l * p.testSize := Nat.mul_le_mul_right _ hkl
    have e1 : (k + 1) * p.testSize = k * p.testSize + p.testSize := Nat.succ_mul _ _
    rw [if_neg (by omega)] at hx
    have := hg.getD_mono (i := i + k * p.testSize + p.testSize) (j := i + l * p.testSize) (by omega) b1
    omega

example : offsetSplit ⟨1, 0, 0, false, true⟩ false [10, 11, 12, 13, 14, 15, 16, 17, 18] [10, 13, 16] [8, 11, 14] 3 =
    some [([1, 2], [3, 4, 5]), ([4, 5], [6, 7, 8])] := by decide

/-- **C05 (disagreement).** With an offset `train_size`, `purged_size` does not separate training from test: with
`purged_size = 1` some training index is immediately followed by a test index. (The code shortens the end of the test window
instead.) -/
theorem C05_offset_purge_ignored :
    ∃ (p : Params) (ts calendar trainCalendar : List Int) (L : List (List Int × List Int)),
      1 ≤ p.testSize ∧ p.purgedSize = 1 ∧ ts.Pairwise (· < ·) ∧ calendar.Pairwise (· ≤ ·) ∧ Usable false ts calendar ∧
      trainCalendar = calendar.map (· - 2) ∧
      offsetSplit p false ts calendar trainCalendar calendar.length = some L ∧
      ∃ s ∈ L, ∃ t ∈ s.1, ∃ u ∈ s.2, ¬ (t + p.purgedSize < u) :=
  ⟨⟨1, 0, 1, false, false⟩, [10, 11, 12, 13, 14, 15, 16, 17, 18], [10, 13, 16], [8, 11, 14],
    [([1, 2], [3, 4])], by decide, rfl, by decide, by decide, by unfold Usable; decide, by decide, by decide, by decide⟩

end Skfolio.WalkForward
