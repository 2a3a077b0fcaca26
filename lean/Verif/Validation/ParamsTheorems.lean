import Verif.WalkForward.Theorems
import Verif.Combinatorial.Theorems

/-!
C147: what the parameters of the splitters change and what they leave alone.
-/
set_option autoImplicit false

namespace Skfolio.WalkForward

/-- The splits of `WalkForward` in closed form. -/
theorem split_closed (p : Params) (n fuel : Nat) (hts : 1 ≤ p.testSize) (hn : p.trainSize + p.purgedSize < n) (hfuel : n ≤ fuel) :
    split p n fuel = .ok (some ((List.range (num p n (p.trainSize + p.purgedSize))).map fun k => mk p n (p.trainSize + p.purgedSize + k * p.testSize))) := by
  unfold split
  rw [if_neg (by omega), loop_eq p n fuel _ hts (by omega) (by omega)]

/-- A sample that is split is long enough. -/
theorem split_long (p : Params) (n fuel : Nat) (L : List (List Nat × List Nat)) (h : split p n fuel = .ok (some L)) : p.trainSize + p.purgedSize < n := by
  unfold split at h
  split_ifs at h with hc
  omega

/-- **C147.** `expand_train` leaves the test windows alone: there are as many splits, each with the same test window, and its training window contains the other one and goes back to the first observation. -/
theorem C147_expand_train (p : Params) (n fuel : Nat) (hts : 1 ≤ p.testSize) (hfuel : n ≤ fuel) (L L' : List (List Nat × List Nat))
    (hL : split { p with expendTrain := false } n fuel = .ok (some L)) (hL' : split { p with expendTrain := true } n fuel = .ok (some L')) :
    L'.map Prod.snd = L.map Prod.snd ∧ ∀ k (hk : k < L.length) (hk' : k < L'.length), L[k].1 <:+ L'[k].1 ∧ ∃ b, L'[k].1 = List.range b := by
  have hn := split_long _ _ _ _ hL
  rw [split_closed { p with expendTrain := false } n fuel hts hn hfuel] at hL
  rw [split_closed { p with expendTrain := true } n fuel hts hn hfuel] at hL'
  simp only [Except.ok.injEq, Option.some.injEq] at hL hL'
  subst hL hL'
  refine ⟨by simp [mk, num, Function.comp_def], fun k hk hk' => ?_⟩
  simp only [List.getElem_map, List.getElem_range, mk, Bool.false_eq_true, if_false, if_true]
  refine ⟨⟨List.range' 0 (p.trainSize + p.purgedSize + k * p.testSize - p.purgedSize - p.trainSize), ?_⟩, ?_⟩
  · have h : ∀ a b : Nat, a ≤ b → List.range' 0 a ++ List.range' a (b - a) = List.range' 0 (b - 0) := by
      intro a b hab
      have h := List.range'_append (s := 0) (m := a) (n := b - a) (step := 1)
      rw [one_mul, zero_add] at h
      rw [h]
      congr 1
      omega
    exact h _ _ (Nat.sub_le _ _)
  · exact ⟨p.trainSize + p.purgedSize + k * p.testSize - p.purgedSize - 0, by rw [List.range_eq_range']⟩

/-- **C147.** `reduce_test` only adds a split: without it the splits are the first of those with it; at most one is added, and its test window is shorter than `test_size` and ends with the sample. -/
theorem C147_reduce_test (p : Params) (n fuel : Nat) (hts : 1 ≤ p.testSize) (hfuel : n ≤ fuel) (L L' : List (List Nat × List Nat))
    (hL : split { p with reduceTest := false } n fuel = .ok (some L)) (hL' : split { p with reduceTest := true } n fuel = .ok (some L')) :
    L' = L ∨ ∃ s, L' = L ++ [s] ∧ s.2.length < p.testSize ∧ s.2.getLast? = some (n - 1) := by
  have hn := split_long { p with reduceTest := false } n fuel L hL
  dsimp only at hn
  rw [split_closed { p with reduceTest := false } n fuel hts hn hfuel] at hL
  rw [split_closed { p with reduceTest := true } n fuel hts hn hfuel] at hL'
  simp only [Except.ok.injEq, Option.some.injEq] at hL hL'
  obtain ⟨d, hd⟩ : ∃ d, d = n - (p.trainSize + p.purgedSize) := ⟨_, rfl⟩
  have h1 := Nat.div_add_mod d p.testSize
  have h2 := Nat.mod_lt d (show 0 < p.testSize by omega)
  have e1 : num { p with reduceTest := false } n (p.trainSize + p.purgedSize) = d / p.testSize := by simp [num, hd]
  have e2 : num { p with reduceTest := true } n (p.trainSize + p.purgedSize) = d / p.testSize + if d % p.testSize = 0 then 0 else 1 := by
    simp only [num, if_true]
    rw [← hd]
    split_ifs with h0
    · have : d + p.testSize - 1 = (p.testSize - 1) + p.testSize * (d / p.testSize) := by omega
      rw [this, Nat.add_mul_div_left _ _ (by omega), Nat.div_eq_of_lt (by omega)]; omega
    · have : d + p.testSize - 1 = (d % p.testSize - 1) + p.testSize * (d / p.testSize + 1) := by
        rw [Nat.mul_add]; omega
      rw [this, Nat.add_mul_div_left _ _ (by omega), Nat.div_eq_of_lt (by omega)]; omega
  rw [e1] at hL
  rw [e2] at hL'
  have hmk : (mk { p with reduceTest := true } n) = mk { p with reduceTest := false } n := rfl
  rw [hmk] at hL'
  by_cases h0 : d % p.testSize = 0
  · left
    rw [if_pos h0, add_zero] at hL'
    rw [← hL, ← hL']
  · right
    rw [if_neg h0, List.range_succ, List.map_append] at hL'
    refine ⟨mk { p with reduceTest := false } n (p.trainSize + p.purgedSize + d / p.testSize * p.testSize), by rw [← hL', hL]; rfl, ?_, ?_⟩
    · simp only [mk, List.length_range']
      rw [Nat.mul_comm] at h1
      omega
    · simp only [mk]
      rw [Nat.mul_comm] at h1
      have hmin : min (p.trainSize + p.purgedSize + d / p.testSize * p.testSize + p.testSize) n = n := by omega
      rw [hmin, List.getLast?_range', if_neg (by omega)]
      congr 1
      omega

/-- **C147.** `purged_size` moves the test windows away: with `d` more, and `d` more observations, the training windows are the same and the test windows start and end `d` observations later. -/
theorem C147_purge (p : Params) (n d fuel : Nat) (hts : 1 ≤ p.testSize) (hfuel : n + d ≤ fuel) (L L' : List (List Nat × List Nat))
    (hL : split p n fuel = .ok (some L)) (hL' : split { p with purgedSize := p.purgedSize + d } (n + d) fuel = .ok (some L')) :
    L' = L.map fun s => (s.1, s.2.map (· + d)) := by
  have hn := split_long _ _ _ _ hL
  rw [split_closed _ n fuel hts hn (by omega)] at hL
  rw [split_closed { p with purgedSize := p.purgedSize + d } (n + d) fuel hts (by simp only; omega) hfuel] at hL'
  simp only [Except.ok.injEq, Option.some.injEq] at hL hL'
  subst hL hL'
  have hnum : num { p with purgedSize := p.purgedSize + d } (n + d) (p.trainSize + (p.purgedSize + d)) = num p n (p.trainSize + p.purgedSize) := by
    unfold num
    dsimp only
    rw [show n + d - (p.trainSize + (p.purgedSize + d)) = n - (p.trainSize + p.purgedSize) by omega]
  rw [hnum, List.map_map]
  apply List.map_congr_left
  intro k _
  simp only [mk, Function.comp_def]
  have e1 : p.trainSize + (p.purgedSize + d) + k * p.testSize - (p.purgedSize + d) = p.trainSize + p.purgedSize + k * p.testSize - p.purgedSize := by omega
  rw [e1]
  congr 1
  have hc : (fun x => x + d) = fun x => d + x := funext fun x => Nat.add_comm _ _
  rw [hc, List.map_add_range']
  congr 1 <;> omega

/-- A sample where each parameter matters: two full test windows and a shorter one, training windows that differ. -/
example : split ⟨3, 2, 1, false, false⟩ 10 10 = .ok (some [([0, 1], [3, 4, 5]), ([3, 4], [6, 7, 8])]) ∧
    split ⟨3, 2, 1, true, false⟩ 10 10 = .ok (some [([0, 1], [3, 4, 5]), ([0, 1, 2, 3, 4], [6, 7, 8])]) ∧
    split ⟨3, 2, 1, false, true⟩ 10 10 = .ok (some [([0, 1], [3, 4, 5]), ([3, 4], [6, 7, 8]), ([6, 7], [9])]) ∧
    split ⟨3, 2, 3, false, false⟩ 12 12 = .ok (some [([0, 1], [5, 6, 7]), ([3, 4], [8, 9, 10])]) := by
  refine ⟨?_, ?_, ?_, ?_⟩ <;> rfl

end Skfolio.WalkForward

namespace Skfolio.Combinatorial

/-- **C147.** A larger purge or embargo of `CombinatorialPurgedCV` leaves the test sets alone and only takes observations from the training sets. -/
theorem C147_combinatorial (p p' : Params) (hp : Valid p) (hf : p'.nFolds = p.nFolds) (ht : p'.nTestFolds = p.nTestFolds) (h1 : p.purgedSize ≤ p'.purgedSize)
    (h2 : p.purgedSize + p.embargoSize ≤ p'.purgedSize + p'.embargoSize) (n : Nat) (L' : List (List Nat × List (List Nat))) (hL' : split p' n = .ok L') :
    ∃ L, split p n = .ok L ∧ L'.map Prod.snd = L.map Prod.snd ∧ ∀ i (hi : i < L.length) (hi' : i < L'.length), List.Sublist L'[i].1 L[i].1 := by
  have hp' : Valid p' := by unfold Valid at hp ⊢; rw [hf, ht]; exact hp
  obtain ⟨L, hL⟩ : ∃ L, split p n = .ok L := by
    unfold split at hL' ⊢
    split_ifs at hL' with hg
    rw [if_neg (by rw [hf] at hg; omega)]
    exact ⟨_, rfl⟩
  have hsnd : L'.map Prod.snd = L.map Prod.snd := by
    unfold split at hL hL'
    split_ifs at hL hL'
    rw [← Except.ok.inj hL, ← Except.ok.inj hL', List.map_map, List.map_map, hf, ht]
    rfl
  refine ⟨L, hL, hsnd, fun i hi hi' => ?_⟩
  have he : L'[i].2 = L[i].2 := by
    have := List.getElem_of_eq hsnd (i := i) (by simpa using hi')
    simpa using this
  obtain ⟨S, _, _, hS⟩ := C06_train_test p hp n L hL
  obtain ⟨S', _, _, hS'⟩ := C06_train_test p' hp' n L' hL'
  obtain ⟨-, hsort, hmem⟩ := hS i hi
  obtain ⟨-, hsort', hmem'⟩ := hS' i hi'
  have hT : ∀ t, IsTest L'[i] t ↔ IsTest L[i] t := by
    intro t
    unfold IsTest
    rw [he]
  refine List.sublist_of_subperm_of_pairwise (r := (· < ·)) ?_ hsort' hsort
  refine (List.Nodup.subperm (hsort'.imp fun h => h.ne) fun t ht' => ?_)
  rw [hmem'] at ht'
  rw [hmem]
  obtain ⟨a, b, c, d⟩ := ht'
  refine ⟨a, fun h => b ((hT t).2 h), fun u hu htu => ?_, fun u hu hut => ?_⟩
  · have := c u ((hT u).2 hu) htu
    omega
  · have := d u ((hT u).2 hu) hut
    omega

/-- A purge of one observation on each side takes observations from the training sets. -/
example : Valid ⟨3, 2, 0, 0⟩ ∧ (split ⟨3, 2, 0, 0⟩ 12).map (·.map Prod.fst) = .ok [[8, 9, 10, 11], [4, 5, 6, 7], [0, 1, 2, 3]] ∧
    (split ⟨3, 2, 1, 1⟩ 12).map (·.map Prod.fst) = .ok [[10, 11], [6], [0, 1, 2]] := by
  refine ⟨by unfold Valid; decide, ?_, ?_⟩ <;> rfl

end Skfolio.Combinatorial
