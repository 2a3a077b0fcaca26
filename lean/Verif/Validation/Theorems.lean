import Verif.Validation.Model
import Verif.Combinatorial.Theorems
import Mathlib.Data.List.GetD
import Mathlib.Data.List.Sort

/-!
C08: `cross_val_predict` with a splitter that is not combinatorial (the combinatorial case is in `Verif.Combinatorial.Theorems`).
-/
set_option autoImplicit false

namespace Skfolio.Validation

/-! ### Specification -/

/-- The splits are acceptable: at least one, no test set is empty and no observation is tested twice. -/
structure Acceptable (splits : List (List Nat × List Nat)) : Prop where
  ne : splits ≠ []
  nonempty : ∀ s ∈ splits, s.2 ≠ []
  nodup : (splits.map Prod.snd).flatten.Nodup

/-- A run of consecutive observations. -/
def IsRun (l : List Nat) : Prop := ∃ a n, l = List.range' a n

theorem isIncreasing_iff (l : List Nat) : isIncreasing l = true ↔ l.Pairwise (· < ·) := by
  induction l with
  | nil => simp [isIncreasing]
  | cons a l ih =>
    cases l with
    | nil => simp [isIncreasing]
    | cons b l =>
      unfold isIncreasing
      rw [Bool.and_eq_true, ih, List.pairwise_cons (a := a)]
      simp only [decide_eq_true_eq]
      constructor
      · rintro ⟨h1, h2⟩
        refine ⟨?_, h2⟩
        intro x hx
        rcases List.mem_cons.1 hx with rfl | hx
        · exact h1
        · exact lt_trans h1 ((List.pairwise_cons.1 h2).1 x hx)
      · rintro ⟨h1, h2⟩; exact ⟨h1 b (by simp), h2⟩

theorem argsort_perm (keys : List Nat) : (argsort keys).Perm (List.range keys.length) := List.mergeSort_perm _ _

theorem argsort_sorted (keys : List Nat) : (argsort keys).Pairwise (fun i j => keys.getD i 0 ≤ keys.getD j 0) := by
  have := List.pairwise_mergeSort (le := fun i j => decide (keys.getD i 0 ≤ keys.getD j 0))
    (by intro a b c h1 h2; simp only [decide_eq_true_eq] at *; omega)
    (by intro a b; simp only [Bool.or_eq_true, decide_eq_true_eq]; omega) (List.range keys.length)
  exact this.imp (fun h => by simpa using h)

/-- **C08 (errors).** With un-shuffled folds, the call succeeds exactly on the acceptable lists of splits. -/
theorem C08_plain_ok_iff {β : Type} (splits : List (List Nat × List Nat)) (fitPredict : List Nat → List Nat → β) :
    (∃ P, crossValPredict (some false) splits fitPredict = .ok P) ↔ Acceptable splits := by
  have hany : ((splits.map Prod.snd).any List.isEmpty = true) ↔ ∃ s ∈ splits, s.2 = [] := by
    simp [List.any_eq_true]
  unfold crossValPredict shuffleCheck
  simp only
  split_ifs with h1 h2 h3
  · constructor
    · rintro ⟨P, h⟩; cases h
    · intro h; exact absurd h1 h.ne
  · constructor
    · rintro ⟨P, h⟩; cases h
    · intro h
      obtain ⟨s, hs, he⟩ := hany.1 h3
      exact absurd he (h.nonempty s hs)
  · refine ⟨fun _ => ⟨h1, ?_, h2⟩, fun _ => ⟨_, rfl⟩⟩
    intro s hs he
    exact h3 (hany.2 ⟨s, hs, he⟩)
  · constructor
    · rintro ⟨P, h⟩; cases h
    · intro h; exact absurd h.nodup h2

/-- **C08 (errors).** A shuffling splitter is refused; without a `shuffle` attribute the first split must have increasing train and
test indices. -/
theorem C08_plain_shuffled {β : Type} (splits : List (List Nat × List Nat)) (fitPredict : List Nat → List Nat → β) :
    crossValPredict (some true) splits fitPredict = .error .shuffled ∧
    ∀ s rest, splits = s :: rest → (crossValPredict none splits fitPredict = .error .shuffled ↔
      ¬ (s.1.Pairwise (· < ·) ∧ s.2.Pairwise (· < ·))) := by
  refine ⟨rfl, ?_⟩
  rintro ⟨tr, te⟩ rest rfl
  unfold crossValPredict shuffleCheck
  simp only
  rw [← isIncreasing_iff, ← isIncreasing_iff, ← Bool.and_eq_true]
  by_cases h : (isIncreasing tr && isIncreasing te) = true
  · rw [if_pos h]
    simp only [h]
    split_ifs <;> simp
  · rw [if_neg h]
    simp [h]

/-- **C08.** When the call succeeds, the portfolios are the predictions of all the splits, each exactly once, in increasing order of
the first test observation. -/
theorem C08_plain {β : Type} (shuffle : Option Bool) (splits : List (List Nat × List Nat)) (fitPredict : List Nat → List Nat → β)
    (P : List β) (hP : crossValPredict shuffle splits fitPredict = .ok P) :
    ∃ ordered : List (List Nat × List Nat), ordered.Perm splits ∧ P = ordered.map (fun s => fitPredict s.1 s.2) ∧
      ordered.Pairwise (fun s s' => ∃ a a', s.2.head? = some a ∧ s'.2.head? = some a' ∧ a < a') := by
  have hacc : Acceptable splits ∧
      P = (argsort ((splits.map Prod.snd).map fun x => x.headD 0)).filterMap fun k => (splits.map fun s => fitPredict s.1 s.2)[k]? := by
    have hcv : crossValPredict (some false) splits fitPredict = .ok P := by
      unfold crossValPredict at hP ⊢
      cases hs : shuffleCheck shuffle splits with
      | error e => rw [hs] at hP; simp at hP
      | ok u =>
        rw [hs] at hP
        simpa [shuffleCheck] using hP
    refine ⟨(C08_plain_ok_iff splits fitPredict).1 ⟨P, hcv⟩, ?_⟩
    unfold crossValPredict shuffleCheck at hcv
    simp only at hcv
    split_ifs at hcv
    exact (Except.ok.inj hcv).symm
  obtain ⟨hA, rfl⟩ := hacc
  set keys := (splits.map Prod.snd).map fun x => x.headD 0 with hkeys
  have hklen : keys.length = splits.length := by simp [hkeys]
  have hperm := argsort_perm keys
  rw [hklen] at hperm
  have hlt : ∀ k ∈ argsort keys, k < splits.length := fun k hk => List.mem_range.1 (hperm.mem_iff.1 hk)
  have hfm : ∀ {γ : Type} (g : List Nat × List Nat → γ) (l : List Nat), (∀ k ∈ l, k < splits.length) →
      (l.filterMap fun k => (splits.map g)[k]?) = (l.map fun k => splits.getD k ([], [])).map g := by
    intro γ g l hl
    induction l with
    | nil => rfl
    | cons k l ih =>
      have hk := hl k (by simp)
      rw [List.filterMap_cons, List.getElem?_eq_getElem (by simpa using hk)]
      simp only [List.getElem_map, List.map_cons]
      rw [ih (fun x hx => hl x (by simp [hx])), List.getD_eq_getElem _ _ hk]
  refine ⟨(argsort keys).map fun k => splits.getD k ([], []), ?_, ?_, ?_⟩
  · have h1 := hperm.map (fun k => splits.getD k ([], []))
    have h2 : (List.range splits.length).map (fun k => splits.getD k ([], [])) = splits := by
      apply List.ext_getElem
      · simp
      · intro i h1 h2
        simp only [List.getElem_map, List.getElem_range]
        exact List.getD_eq_getElem _ _ h2
    rw [h2] at h1
    exact h1
  · exact hfm _ _ hlt
  · rw [List.pairwise_map]
    have hnd : (argsort keys).Nodup := hperm.nodup_iff.2 List.nodup_range
    refine ((argsort_sorted keys).and hnd).imp_of_mem ?_
    rintro i j hi hj ⟨hle, hne⟩
    have hi' := hlt i hi
    have hj' := hlt j hj
    have hkey : ∀ k, k < splits.length → ∃ a, (splits.getD k ([], [])).2.head? = some a ∧ keys.getD k 0 = a ∧
        a ∈ (splits.getD k ([], [])).2 := by
      intro k hk
      have hmem : splits.getD k ([], []) ∈ splits := by rw [List.getD_eq_getElem _ _ hk]; exact List.getElem_mem hk
      have hne := hA.nonempty _ hmem
      have hkd : keys.getD k 0 = (splits.getD k ([], [])).2.headD 0 := by
        rw [List.getD_eq_getElem _ _ (by rw [hklen]; exact hk), List.getD_eq_getElem _ _ hk]
        simp [hkeys]
      rw [hkd]
      cases h : (splits.getD k ([], [])).2 with
      | nil => exact absurd h hne
      | cons a l => exact ⟨a, by simp, by simp, by simp⟩
    obtain ⟨a, ha, hka, hain⟩ := hkey i hi'
    obtain ⟨b, hb, hkb, hbin⟩ := hkey j hj'
    refine ⟨a, b, ha, hb, ?_⟩
    rw [hka, hkb] at hle
    rcases Nat.lt_or_eq_of_le hle with h | h
    · exact h
    · exfalso
      have hpw := (List.nodup_flatten.1 hA.nodup).2
      rw [List.pairwise_map, List.pairwise_iff_getElem] at hpw
      rw [List.getD_eq_getElem _ _ hi'] at hain
      rw [List.getD_eq_getElem _ _ hj', ← h] at hbin
      rcases Nat.lt_or_gt_of_ne hne with hij | hij
      · exact hpw i j hi' hj' hij hain hbin
      · exact hpw j i hj' hi' hij hbin hain

/-- **C08.** Hence the observations of the multi-period portfolio are the union of the test sets, each tested observation exactly once. -/
theorem C08_plain_observations (shuffle : Option Bool) (splits : List (List Nat × List Nat)) (P : List (List Nat))
    (hP : crossValPredict shuffle splits (fun _ test => test) = .ok P) :
    P.flatten.Perm (splits.map Prod.snd).flatten ∧ P.flatten.Nodup := by
  obtain ⟨o, h1, rfl, _⟩ := C08_plain shuffle splits _ P hP
  have hperm : (o.map fun s => s.2).flatten.Perm (splits.map Prod.snd).flatten := (h1.map Prod.snd).flatten
  refine ⟨hperm, hperm.nodup_iff.2 ?_⟩
  have hcv : ∃ Q, crossValPredict (some false) splits (fun _ test => test) = .ok Q := by
    unfold crossValPredict at hP ⊢
    cases hs : shuffleCheck shuffle splits with
    | error e => rw [hs] at hP; simp at hP
    | ok u =>
      rw [hs] at hP
      exact ⟨_, by simpa [shuffleCheck] using hP⟩
  exact ((C08_plain_ok_iff splits _).1 hcv).nodup

/-- **C08.** If every test set is a run of consecutive observations (KFold, walk-forward, …) the observations are in chronological
order, whatever the order in which the splitter produced the folds. -/
theorem C08_plain_chronological (shuffle : Option Bool) (splits : List (List Nat × List Nat)) (hruns : ∀ s ∈ splits, IsRun s.2)
    (P : List (List Nat)) (hP : crossValPredict shuffle splits (fun _ test => test) = .ok P) :
    P.flatten.Pairwise (· < ·) := by
  have hnd := (C08_plain_observations shuffle splits P hP).2
  obtain ⟨o, h1, rfl, h3⟩ := C08_plain shuffle splits _ P hP
  have hruns' : ∀ s ∈ o, IsRun s.2 := fun s hs => hruns s (h1.mem_iff.1 hs)
  rw [List.pairwise_flatten]
  refine ⟨?_, ?_⟩
  · intro l hl
    obtain ⟨s, hs, rfl⟩ := List.mem_map.1 hl
    obtain ⟨a, n, h⟩ := hruns' s hs
    rw [h]; exact List.pairwise_lt_range'
  · rw [List.pairwise_map]
    have hdis := (List.nodup_flatten.1 hnd).2
    rw [List.pairwise_map] at hdis
    refine (h3.and hdis).imp_of_mem ?_
    rintro s s' hs hs' ⟨⟨a, a', ha, ha', hlt⟩, hd⟩ x hx y hy
    obtain ⟨b, n, h⟩ := hruns' s hs
    obtain ⟨b', n', h'⟩ := hruns' s' hs'
    rw [h] at ha hx hd
    rw [h'] at ha' hy hd
    have hb : b = a := by cases n <;> simp [List.range'_succ] at ha; exact ha
    have hb' : b' = a' := by cases n' <;> simp [List.range'_succ] at ha'; exact ha'
    subst hb hb'
    rw [List.mem_range'_1] at hx hy
    by_contra hc
    exact hd (a := b') (by rw [List.mem_range'_1]; omega) (by rw [List.mem_range'_1]; omega)

/-- Folds produced in reverse order are put back in order. -/
example : crossValPredict none [([0, 1], [4, 5]), ([4, 5], [2, 3]), ([2, 3], [0, 1])] (fun _ test => test) =
    .ok [[0, 1], [2, 3], [4, 5]] ∧
    Acceptable [([0, 1], [4, 5]), ([4, 5], [2, 3]), ([2, 3], [0, 1])] ∧
    (∀ s ∈ ([([0, 1], [4, 5]), ([4, 5], [2, 3]), ([2, 3], [0, 1])] : List (List Nat × List Nat)), IsRun s.2) := by
  refine ⟨?_, ⟨by decide, by decide, by decide⟩, ?_⟩
  · simp [crossValPredict, shuffleCheck, isIncreasing, argsort, List.range_succ, List.mergeSort, List.MergeSort.Internal.splitInTwo]
  · intro s hs
    simp only [List.mem_cons, List.not_mem_nil, or_false] at hs
    rcases hs with rfl | rfl | rfl
    · exact ⟨4, 2, rfl⟩
    · exact ⟨2, 2, rfl⟩
    · exact ⟨0, 2, rfl⟩

/-- **C08 (limit of the guarantee).** When the test sets interleave, ordering by the first index does not give a chronological
series, although the call succeeds. -/
theorem C08_interleaved_not_chronological :
    ∃ splits P, Acceptable splits ∧ crossValPredict none splits (fun _ test => test) = .ok P ∧ ¬ P.flatten.Pairwise (· < ·) := by
  refine ⟨[([1, 3], [0, 2]), ([0, 2], [1, 3])], [[0, 2], [1, 3]], ⟨by decide, by decide, by decide⟩, ?_, by decide⟩
  simp [crossValPredict, shuffleCheck, isIncreasing, argsort, List.range_succ, List.mergeSort, List.MergeSort.Internal.splitInTwo]

/-- **C08 (combinatorial splitter).** In every predicted path the portfolios follow one another without overlap, so that the check of
`MultiPeriodPortfolio` (each portfolio starts strictly after the end of the previous one) cannot fail. -/
theorem C08_paths_no_overlap (p : Combinatorial.Params) (hp : Combinatorial.Valid p) (n : Nat)
    (hr : Combinatorial.RemainderFits p.nFolds n) (L : List (List Nat × List (List Nat))) (hL : Combinatorial.split p n = .ok L) :
    ∀ path ∈ Combinatorial.assemblePaths p.nFolds p.nTestFolds (fun i j => ((L.getD i ([], [])).2.getD j [])),
      path.Pairwise (fun a b => ∀ x ∈ a, ∀ y ∈ b, x < y) := by
  intro path hpath
  have h := Combinatorial.C08_path_covers_sample p hp n hr L hL path hpath
  have hs : path.flatten.Pairwise (· < ·) := by rw [h]; exact List.pairwise_lt_range
  exact (List.pairwise_flatten.1 hs).2

end Skfolio.Validation
