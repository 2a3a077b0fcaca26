import Verif.WalkForward.Theorems

/-!
C147 for `WalkForward` with `freq`: what `expand_train`, `reduce_test` and `purged_size` change when the windows are periods of a calendar.
-/
set_option autoImplicit false

namespace Skfolio.WalkForward

/-- Two training windows with the same end, of which the second goes back to the first observation. -/
def SameEnd (a b : List Int) : Prop := ∃ e s : Int, (∀ x, x ∈ a ↔ s ≤ x ∧ x < e) ∧ ∀ x, x ∈ b ↔ 0 ≤ x ∧ x < e

/-- What `expand_train` may do to a split. -/
def Expanded (s s' : List Int × List Int) : Prop := s'.2 = s.2 ∧ SameEnd s.1 s'.1

theorem sameEnd_arange (a b : Int) : SameEnd (arange a b) (arange 0 b) := ⟨b, a, fun x => mem_arange _ _ _, fun x => mem_arange _ _ _⟩

/-- The second list is the first one, or the first one and a split whose test window runs to the last of `n` observations. -/
def OneMore (n : Nat) (L L' : List (List Int × List Int)) : Prop :=
  L' = L ∨ ∃ s, L' = L ++ [s] ∧ ∃ a : Int, ∀ x, x ∈ s.2 ↔ a ≤ x ∧ x < n

theorem OneMore.cons {n : Nat} {L L' : List (List Int × List Int)} (s : List Int × List Int) (h : OneMore n L L') : OneMore n (s :: L) (s :: L') := by
  rcases h with h | ⟨t, h, ht⟩
  · exact .inl (by rw [h])
  · exact .inr ⟨t, by rw [h]; rfl, ht⟩

theorem periodLoop_expand (p : Params) (n : Nat) (idx : List Int) : ∀ (fuel i : Nat) (L L' : List (List Int × List Int)),
    periodLoop { p with expendTrain := false } n idx fuel i = some L → periodLoop { p with expendTrain := true } n idx fuel i = some L' →
    List.Forall₂ Expanded L L' := by
  intro fuel
  induction fuel with
  | zero =>
    intro i L L' hL hL'
    unfold periodLoop at hL hL'
    dsimp only at hL hL'
    split_ifs at hL hL' <;> simp_all
  | succ fuel ih =>
    intro i L L' hL hL'
    unfold periodLoop at hL hL'
    simp only [Bool.false_eq_true, if_false, if_true] at hL hL'
    split_ifs at hL hL' with h1 h2
    · simp_all
    · simp_all
    all_goals
      obtain ⟨R, hR, rfl⟩ := Option.map_eq_some_iff.1 hL
      obtain ⟨R', hR', rfl⟩ := Option.map_eq_some_iff.1 hL'
      exact .cons ⟨rfl, sameEnd_arange _ _⟩ (ih _ _ _ hR hR')

theorem offsetLoop_expand (p : Params) (n : Nat) (idx trainIdx : List Int) : ∀ (fuel i : Nat) (L L' : List (List Int × List Int)),
    offsetLoop { p with expendTrain := false } n idx trainIdx fuel i = some L → offsetLoop { p with expendTrain := true } n idx trainIdx fuel i = some L' →
    List.Forall₂ Expanded L L' := by
  intro fuel
  induction fuel with
  | zero =>
    intro i L L' hL hL'
    unfold offsetLoop at hL hL'
    dsimp only at hL hL'
    split_ifs at hL hL' <;> simp_all
  | succ fuel ih =>
    intro i L L' hL hL'
    unfold offsetLoop at hL hL'
    simp only [Bool.false_eq_true, if_false, if_true] at hL hL'
    split_ifs at hL hL' with h1 h2
    · simp_all
    · simp_all
    all_goals
      obtain ⟨R, hR, rfl⟩ := Option.map_eq_some_iff.1 hL
      obtain ⟨R', hR', rfl⟩ := Option.map_eq_some_iff.1 hL'
      exact .cons ⟨rfl, sameEnd_arange _ _⟩ (ih _ _ _ hR hR')

theorem periodLoop_end (p : Params) (n : Nat) (idx : List Int) (fuel i : Nat) (h : idx.length ≤ i + p.trainSize) (L : List (List Int × List Int))
    (hL : periodLoop p n idx fuel i = some L) : L = [] := by
  unfold periodLoop at hL
  rw [if_pos h] at hL
  exact (Option.some.inj hL).symm

theorem offsetLoop_end (p : Params) (n : Nat) (idx trainIdx : List Int) (fuel i : Nat) (h : idx.length ≤ i) (L : List (List Int × List Int))
    (hL : offsetLoop p n idx trainIdx fuel i = some L) : L = [] := by
  unfold offsetLoop at hL
  rw [if_pos h] at hL
  exact (Option.some.inj hL).symm

theorem periodLoop_reduce (p : Params) (n : Nat) (idx : List Int) : ∀ (fuel i : Nat) (L L' : List (List Int × List Int)),
    periodLoop { p with reduceTest := false } n idx fuel i = some L → periodLoop { p with reduceTest := true } n idx fuel i = some L' →
    OneMore n L L' := by
  intro fuel
  induction fuel with
  | zero =>
    intro i L L' hL hL'
    unfold periodLoop at hL hL'
    dsimp only at hL hL'
    split_ifs at hL hL' <;> simp_all [OneMore]
  | succ fuel ih =>
    intro i L L' hL hL'
    unfold periodLoop at hL hL'
    dsimp only at hL hL'
    by_cases h1 : i + p.trainSize ≥ idx.length
    · rw [if_pos h1] at hL hL'
      exact .inl ((Option.some.inj hL').symm.trans (Option.some.inj hL))
    rw [if_neg h1] at hL hL'
    by_cases h2 : i + p.trainSize + p.testSize ≥ idx.length
    · rw [if_pos ⟨h2, rfl⟩] at hL
      rw [if_neg (by simp), if_pos h2] at hL'
      obtain ⟨R', hR', rfl⟩ := Option.map_eq_some_iff.1 hL'
      rw [periodLoop_end { p with reduceTest := true } n idx fuel (i + p.testSize) (by dsimp only; omega) R' hR']
      refine .inr ⟨_, by rw [← Option.some.inj hL]; rfl, _, fun x => mem_arange _ _ _⟩
    · rw [if_neg (by simp [h2]), if_neg h2] at hL
      rw [if_neg (by simp), if_neg h2] at hL'
      obtain ⟨R, hR, rfl⟩ := Option.map_eq_some_iff.1 hL
      obtain ⟨R', hR', rfl⟩ := Option.map_eq_some_iff.1 hL'
      exact .cons _ (ih _ _ _ hR hR')

theorem offsetLoop_reduce (p : Params) (n : Nat) (idx trainIdx : List Int) : ∀ (fuel i : Nat) (L L' : List (List Int × List Int)),
    offsetLoop { p with reduceTest := false } n idx trainIdx fuel i = some L → offsetLoop { p with reduceTest := true } n idx trainIdx fuel i = some L' →
    OneMore n L L' := by
  intro fuel
  induction fuel with
  | zero =>
    intro i L L' hL hL'
    unfold offsetLoop at hL hL'
    dsimp only at hL hL'
    split_ifs at hL hL' <;> simp_all [OneMore]
  | succ fuel ih =>
    intro i L L' hL hL'
    unfold offsetLoop at hL hL'
    dsimp only at hL hL'
    by_cases h1 : i ≥ idx.length
    · rw [if_pos h1] at hL hL'
      exact .inl ((Option.some.inj hL').symm.trans (Option.some.inj hL))
    rw [if_neg h1] at hL hL'
    by_cases h2 : i + p.testSize ≥ idx.length
    · rw [if_pos ⟨h2, rfl⟩] at hL
      rw [if_neg (by simp), if_pos h2] at hL'
      obtain ⟨R', hR', rfl⟩ := Option.map_eq_some_iff.1 hL'
      rw [offsetLoop_end { p with reduceTest := true } n idx trainIdx fuel (i + p.testSize) (by omega) R' hR']
      refine .inr ⟨_, by rw [← Option.some.inj hL]; rfl, _, fun x => mem_arange _ _ _⟩
    · rw [if_neg (by simp [h2]), if_neg h2] at hL
      rw [if_neg (by simp), if_neg h2] at hL'
      obtain ⟨R, hR, rfl⟩ := Option.map_eq_some_iff.1 hL
      obtain ⟨R', hR', rfl⟩ := Option.map_eq_some_iff.1 hL'
      exact .cons _ (ih _ _ _ hR hR')

theorem periodLoop_purge (p : Params) (n : Nat) (idx : List Int) (d : Nat) : ∀ (fuel i : Nat) (L L' : List (List Int × List Int)),
    periodLoop p n idx fuel i = some L → periodLoop { p with purgedSize := p.purgedSize + d } n idx fuel i = some L' →
    List.Forall₂ (fun s s' => s'.2 = s.2 ∧ ∃ a b : Int, (∀ x, x ∈ s.1 ↔ a ≤ x ∧ x < b) ∧ ∀ x, x ∈ s'.1 ↔ a ≤ x ∧ x < b - d) L L' := by
  intro fuel
  induction fuel with
  | zero =>
    intro i L L' hL hL'
    unfold periodLoop at hL hL'
    dsimp only at hL hL'
    split_ifs at hL hL' <;> simp_all
  | succ fuel ih =>
    intro i L L' hL hL'
    unfold periodLoop at hL hL'
    dsimp only at hL hL'
    split_ifs at hL hL' with h1 h2
    · simp_all
    · simp_all
    all_goals
      obtain ⟨R, hR, rfl⟩ := Option.map_eq_some_iff.1 hL
      obtain ⟨R', hR', rfl⟩ := Option.map_eq_some_iff.1 hL'
      refine .cons ⟨rfl, _, _, fun x => mem_arange _ _ _, fun x => ?_⟩ (ih _ _ _ hR hR')
      rw [mem_arange]
      push_cast
      constructor <;> rintro ⟨h, h'⟩ <;> exact ⟨h, by omega⟩

/-- **C147.** `expand_train` with a calendar, for a training size in periods and for one that is an offset: as many splits, the same test windows, and training windows with the same end that go back to the first observation. -/
theorem C147_period_expand_train (p : Params) (previous : Bool) (ts calendar trainCalendar : List Int) (fuel : Nat) (L L' : List (List Int × List Int)) :
    (periodSplit { p with expendTrain := false } previous ts calendar fuel = some L → periodSplit { p with expendTrain := true } previous ts calendar fuel = some L' →
      List.Forall₂ Expanded L L') ∧
    (offsetSplit { p with expendTrain := false } previous ts calendar trainCalendar fuel = some L →
      offsetSplit { p with expendTrain := true } previous ts calendar trainCalendar fuel = some L' → List.Forall₂ Expanded L L') := by
  refine ⟨periodLoop_expand p _ _ fuel 0 L L', fun hL hL' => ?_⟩
  unfold offsetSplit at hL hL'
  dsimp only at hL hL'
  split_ifs at hL hL' with h
  · rw [← Option.some.inj hL, ← Option.some.inj hL']
    exact .nil
  all_goals exact offsetLoop_expand p _ _ _ fuel _ L L' hL hL'

/-- **C147.** `reduce_test` with a calendar only adds a split, at most one, whose test window runs to the last observation. -/
theorem C147_period_reduce_test (p : Params) (previous : Bool) (ts calendar trainCalendar : List Int) (fuel : Nat) (L L' : List (List Int × List Int)) :
    (periodSplit { p with reduceTest := false } previous ts calendar fuel = some L → periodSplit { p with reduceTest := true } previous ts calendar fuel = some L' →
      OneMore ts.length L L') ∧
    (offsetSplit { p with reduceTest := false } previous ts calendar trainCalendar fuel = some L →
      offsetSplit { p with reduceTest := true } previous ts calendar trainCalendar fuel = some L' → OneMore ts.length L L') := by
  refine ⟨periodLoop_reduce p _ _ fuel 0 L L', fun hL hL' => ?_⟩
  unfold offsetSplit at hL hL'
  dsimp only at hL hL'
  split_ifs at hL hL' with h
  · rw [← Option.some.inj hL, ← Option.some.inj hL']
    exact .inl rfl
  all_goals exact offsetLoop_reduce p _ _ _ fuel _ L L' hL hL'

/-- **C147.** `purged_size` with a calendar and a training size in periods: with `d` more the test windows are the same and every training window ends `d` observations earlier. -/
theorem C147_period_purge (p : Params) (previous : Bool) (ts calendar : List Int) (fuel d : Nat) (L L' : List (List Int × List Int))
    (hL : periodSplit p previous ts calendar fuel = some L) (hL' : periodSplit { p with purgedSize := p.purgedSize + d } previous ts calendar fuel = some L') :
    List.Forall₂ (fun s s' => s'.2 = s.2 ∧ ∃ a b : Int, (∀ x, x ∈ s.1 ↔ a ≤ x ∧ x < b) ∧ ∀ x, x ∈ s'.1 ↔ a ≤ x ∧ x < b - d) L L' :=
  periodLoop_purge p _ _ d fuel 0 L L' hL hL'

/-- The fuel suffices and the parameters matter: six observations on the days 0, 1, 2, 4, 5, 6 and periods of two days. -/
example : periodSplit ⟨1, 1, 0, false, false⟩ false [0, 1, 2, 4, 5, 6] [0, 2, 4, 6] 6 = some [([0, 1], [2]), ([2], [3, 4])] ∧
    periodSplit ⟨1, 1, 0, true, false⟩ false [0, 1, 2, 4, 5, 6] [0, 2, 4, 6] 6 = some [([0, 1], [2]), ([0, 1, 2], [3, 4])] ∧
    periodSplit ⟨1, 1, 0, false, true⟩ false [0, 1, 2, 4, 5, 6] [0, 2, 4, 6] 6 = some [([0, 1], [2]), ([2], [3, 4]), ([3, 4], [5])] ∧
    periodSplit ⟨1, 1, 1, false, false⟩ false [0, 1, 2, 4, 5, 6] [0, 2, 4, 6] 6 = some [([0], [2]), ([], [3, 4])] ∧
    offsetSplit ⟨1, 0, 0, false, false⟩ false [0, 1, 2, 4, 5, 6] [0, 2, 4, 6] [-2, 0, 2, 4] 6 = some [([0, 1], [2]), ([2], [3, 4])] := by
  decide +kernel

end Skfolio.WalkForward
