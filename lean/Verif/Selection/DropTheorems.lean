import Verif.Selection.Model
import Mathlib.Data.List.Sort
import Mathlib.Tactic.NormNum
import Mathlib.Algebra.Order.Ring.Rat

/-!
# DropCorrelated: the claims
-/

set_option autoImplicit false

namespace Skfolio.Selection

variable {K : Type*} [LinearOrder K]

theorem mem_triuIndices (n : ℕ) (p : ℕ × ℕ) : p ∈ triuIndices n ↔ p.1 < p.2 ∧ p.2 < n := by
  obtain ⟨i, j⟩ := p
  simp only [triuIndices, List.mem_flatMap, List.mem_range, List.mem_map, List.mem_filter,
    decide_eq_true_eq, Prod.mk.injEq]
  constructor
  · rintro ⟨a, ha, b, ⟨hb, hab⟩, rfl, rfl⟩
    exact ⟨hab, hb⟩
  · rintro ⟨h1, h2⟩
    exact ⟨i, by omega, j, ⟨h2, h1⟩, rfl, rfl⟩

theorem mem_selectedPairs (corr : ℕ → ℕ → K) (thr : K) (n : ℕ) (p : ℕ × ℕ) :
    p ∈ selectedPairs corr thr n ↔ p.1 < p.2 ∧ p.2 < n ∧ thr < corr p.1 p.2 := by
  unfold selectedPairs
  rw [List.mem_insertionSort, List.mem_filter, mem_triuIndices]
  simp [and_assoc]

theorem dropStep_mono (mc : ℕ → K) (R : List ℕ) (p : ℕ × ℕ) : R ⊆ dropStep mc R p := by
  unfold dropStep
  split_ifs <;> simp

theorem dropStep_covers (mc : ℕ → K) (R : List ℕ) (p : ℕ × ℕ) :
    p.1 ∈ dropStep mc R p ∨ p.2 ∈ dropStep mc R p := by
  unfold dropStep
  split_ifs with h
  · simp
  · simp
  · by_cases h1 : p.1 ∈ R
    · exact .inl h1
    · by_cases h2 : p.2 ∈ R
      · exact .inr h2
      · exact absurd ⟨h1, h2⟩ h

theorem fold_mono (mc : ℕ → K) (l : List (ℕ × ℕ)) (R : List ℕ) : R ⊆ l.foldl (dropStep mc) R := by
  induction l generalizing R with
  | nil => exact fun _ h => h
  | cons p l ih => exact fun x hx => ih _ (dropStep_mono mc R p hx)

theorem fold_covers (mc : ℕ → K) (l : List (ℕ × ℕ)) (R : List ℕ) (p : ℕ × ℕ) (hp : p ∈ l) :
    p.1 ∈ l.foldl (dropStep mc) R ∨ p.2 ∈ l.foldl (dropStep mc) R := by
  induction l generalizing R with
  | nil => simp at hp
  | cons q l ih =>
    rcases List.mem_cons.mp hp with rfl | h
    · exact (dropStep_covers mc R p).imp (fun h => fold_mono mc l _ h) (fun h => fold_mono mc l _ h)
    · exact ih _ h

/-- Why an asset was removed: a pair of the list, both members of which were still present, of which it is the member with
the larger mean correlation. -/
theorem fold_cause (mc : ℕ → K) (l : List (ℕ × ℕ)) (R : List ℕ) (a : ℕ)
    (ha : a ∈ l.foldl (dropStep mc) R) :
    a ∈ R ∨ ∃ pre p post b, l = pre ++ p :: post ∧ (p = (a, b) ∨ p = (b, a)) ∧
      a ∉ pre.foldl (dropStep mc) R ∧ b ∉ pre.foldl (dropStep mc) R ∧ mc b ≤ mc a := by
  induction l generalizing R with
  | nil => exact .inl ha
  | cons q l ih =>
    rcases ih _ ha with h | ⟨pre, p, post, b, h1, h2, h3, h4, h5⟩
    · by_cases haR : a ∈ R
      · exact .inl haR
      · right
        unfold dropStep at h
        split_ifs at h with c1 c2
        · obtain rfl : a = q.1 := by simpa [haR] using h
          exact ⟨[], q, l, q.2, rfl, .inl rfl, c1.1, c1.2, c2.le⟩
        · obtain rfl : a = q.2 := by simpa [haR] using h
          exact ⟨[], q, l, q.1, rfl, .inr rfl, c1.2, c1.1, not_lt.mp c2⟩
        · exact absurd h haR
    · exact .inr ⟨q :: pre, p, post, b, by rw [h1]; rfl, h2, h3, h4, h5⟩

theorem fold_survivor (mc : ℕ → K) (n : ℕ) (l : List (ℕ × ℕ)) (hl : ∀ p ∈ l, p.1 < p.2 ∧ p.2 < n) (R : List ℕ)
    (hR : ∃ x < n, x ∉ R) : ∃ x < n, x ∉ l.foldl (dropStep mc) R := by
  induction l generalizing R with
  | nil => exact hR
  | cons p l ih =>
    refine ih (fun q hq => hl q (by simp [hq])) _ ?_
    obtain ⟨h1, h2⟩ := hl p (by simp)
    unfold dropStep
    split_ifs with c1 c2
    · exact ⟨p.2, h2, by simp only [List.mem_cons, not_or]; exact ⟨by omega, c1.2⟩⟩
    · exact ⟨p.1, by omega, by simp only [List.mem_cons, not_or]; exact ⟨by omega, c1.1⟩⟩
    · exact hR

/-- Asset `i` is kept by the fitted selector. -/
def Kept (mask : List Bool) (i : ℕ) : Prop := mask[i]? = some true

theorem kept_iff (corr : ℕ → ℕ → K) (mc : ℕ → K) (thr : K) (abs : Bool) (n i : ℕ) :
    Kept (dropCorrelated corr mc thr abs n) i ↔
      i < n ∧ i ∉ (selectedPairs corr thr n).foldl (dropStep mc) [] := by
  unfold Kept dropCorrelated
  by_cases h : i < n
  · simp [h]
  · simp [h]

/-- C31: no two kept assets have a correlation above the threshold. -/
theorem C31_no_correlated_pair_kept (corr : ℕ → ℕ → K) (hsym : ∀ i j, corr i j = corr j i) (mc : ℕ → K)
    (thr : K) (abs : Bool) (n i j : ℕ) (hij : i ≠ j)
    (hi : Kept (dropCorrelated corr mc thr abs n) i) (hj : Kept (dropCorrelated corr mc thr abs n) j) :
    corr i j ≤ thr := by
  rw [kept_iff] at hi hj
  by_contra hc
  rw [not_le] at hc
  rcases lt_or_gt_of_ne hij with h | h
  · rcases fold_covers mc (selectedPairs corr thr n) [] (i, j)
      ((mem_selectedPairs ..).mpr ⟨h, hj.1, hc⟩) with h | h
    · exact hi.2 h
    · exact hj.2 h
  · rcases fold_covers mc (selectedPairs corr thr n) [] (j, i)
      ((mem_selectedPairs ..).mpr ⟨h, hi.1, hsym i j ▸ hc⟩) with h | h
    · exact hj.2 h
    · exact hi.2 h

/-- C31: an asset is only dropped for a partner correlated above the threshold, with a mean correlation no larger than its
own. -/
theorem C31_drop_is_justified (corr : ℕ → ℕ → K) (hsym : ∀ i j, corr i j = corr j i) (mc : ℕ → K)
    (thr : K) (abs : Bool) (n a : ℕ) (ha : a < n)
    (hk : ¬ Kept (dropCorrelated corr mc thr abs n) a) :
    ∃ b < n, b ≠ a ∧ thr < corr a b ∧ mc b ≤ mc a := by
  rw [kept_iff, not_and, not_not] at hk
  rcases fold_cause mc _ [] a (hk ha) with h | ⟨pre, p, post, b, h1, h2, -, -, h5⟩
  · simp at h
  have hp : p ∈ selectedPairs corr thr n := by rw [h1]; simp
  rw [mem_selectedPairs] at hp
  rcases h2 with rfl | rfl
  · exact ⟨b, hp.2.1, by have := hp.1; simp only at this; omega, hp.2.2, h5⟩
  · exact ⟨b, by have := hp.1; simp only at this; omega, by have := hp.1; simp only at this; omega,
      by rw [hsym]; exact hp.2.2, h5⟩

/-- A history of removals, most recent first, in which every removed asset had at the time of its removal a partner that was
still present, correlated with it above the threshold and with a mean correlation no larger. -/
def JustifiedHistory (corr : ℕ → ℕ → K) (mc : ℕ → K) (thr : K) (n : ℕ) : List ℕ → Prop
  | [] => True
  | a :: earlier => a ∉ earlier ∧ (∃ b < n, b ≠ a ∧ b ∉ earlier ∧ thr < corr a b ∧ mc b ≤ mc a) ∧
      JustifiedHistory corr mc thr n earlier

theorem fold_history (corr : ℕ → ℕ → K) (hsym : ∀ i j, corr i j = corr j i) (mc : ℕ → K) (thr : K) (n : ℕ)
    (l : List (ℕ × ℕ)) (hl : ∀ p ∈ l, p.1 < p.2 ∧ p.2 < n ∧ thr < corr p.1 p.2) (R : List ℕ)
    (hR : JustifiedHistory corr mc thr n R) : JustifiedHistory corr mc thr n (l.foldl (dropStep mc) R) := by
  induction l generalizing R with
  | nil => exact hR
  | cons p l ih =>
    refine ih (fun q hq => hl q (by simp [hq])) _ ?_
    obtain ⟨h1, h2, h3⟩ := hl p (by simp)
    unfold dropStep
    split_ifs with c1 c2
    · exact ⟨c1.1, ⟨p.2, h2, by omega, c1.2, h3, c2.le⟩, hR⟩
    · exact ⟨c1.2, ⟨p.1, by omega, by omega, c1.1, hsym p.1 p.2 ▸ h3, not_lt.mp c2⟩, hR⟩
    · exact hR

/-- C31: the dropped assets can be listed in the order of their removal so that each had, when it was removed, a partner
still present that justifies the removal. -/
theorem C31_drops_are_justified_in_turn (corr : ℕ → ℕ → K) (hsym : ∀ i j, corr i j = corr j i) (mc : ℕ → K)
    (thr : K) (abs : Bool) (n : ℕ) :
    ∃ history, JustifiedHistory corr mc thr n history ∧
      ∀ a < n, a ∈ history ↔ ¬ Kept (dropCorrelated corr mc thr abs n) a := by
  refine ⟨(selectedPairs corr thr n).foldl (dropStep mc) [],
    fold_history corr hsym mc thr n _ (fun p hp => (mem_selectedPairs ..).mp hp) [] trivial, fun a ha => ?_⟩
  rw [kept_iff]
  simp [ha]

/-- C31: an asset with no correlation above the threshold is kept. -/
theorem C31_uncorrelated_kept (corr : ℕ → ℕ → K) (hsym : ∀ i j, corr i j = corr j i) (mc : ℕ → K)
    (thr : K) (abs : Bool) (n a : ℕ) (ha : a < n) (h : ∀ b < n, b ≠ a → corr a b ≤ thr) :
    Kept (dropCorrelated corr mc thr abs n) a := by
  by_contra hk
  obtain ⟨b, hb, hne, hc, -⟩ := C31_drop_is_justified corr hsym mc thr abs n a ha hk
  exact absurd (h b hb hne) (not_le.mpr hc)

/-- C31: at least one asset is kept, and there is one decision per asset. -/
theorem C31_not_all_dropped (corr : ℕ → ℕ → K) (mc : ℕ → K) (thr : K) (abs : Bool) (n : ℕ) (hn : 0 < n) :
    (dropCorrelated corr mc thr abs n).length = n ∧ ∃ i, Kept (dropCorrelated corr mc thr abs n) i := by
  refine ⟨by simp [dropCorrelated], ?_⟩
  obtain ⟨x, h1, h2⟩ := fold_survivor mc n (selectedPairs corr thr n)
    (fun p hp => by rw [mem_selectedPairs] at hp; exact ⟨hp.1, hp.2.1⟩) [] ⟨0, hn, by simp⟩
  exact ⟨x, (kept_iff ..).mpr ⟨h1, h2⟩⟩

theorem head_is_top (corr : ℕ → ℕ → K) (thr : K) (n i j : ℕ) (hij : i < j) (hj : j < n)
    (hc : thr < corr i j) (htop : ∀ a b, a < b → b < n → (a, b) ≠ (i, j) → corr a b < corr i j) :
    ∃ rest, selectedPairs corr thr n = (i, j) :: rest := by
  have hmem : (i, j) ∈ selectedPairs corr thr n := (mem_selectedPairs ..).mpr ⟨hij, hj, hc⟩
  have hs : (selectedPairs corr thr n).Pairwise fun p q => corr q.1 q.2 ≤ corr p.1 p.2 := by
    unfold selectedPairs
    have : Std.Total (fun p q : ℕ × ℕ => corr q.1 q.2 ≤ corr p.1 p.2) := ⟨fun _ _ => le_total _ _⟩
    have : IsTrans (ℕ × ℕ) (fun p q : ℕ × ℕ => corr q.1 q.2 ≤ corr p.1 p.2) := ⟨fun _ _ _ h1 h2 => le_trans h2 h1⟩
    exact List.pairwise_insertionSort _ _
  have hlt := mem_selectedPairs corr thr n
  revert hmem hs hlt
  generalize selectedPairs corr thr n = L
  intro hmem hs hlt
  cases L with
  | nil => simp at hmem
  | cons p rest =>
    by_cases hp : p = (i, j)
    · exact ⟨rest, by rw [hp]⟩
    · exfalso
      obtain ⟨h1, h2, -⟩ := (hlt p).mp (by simp)
      have hin : (i, j) ∈ rest := by
        rcases List.mem_cons.mp hmem with h | h
        · exact absurd h.symm hp
        · exact h
      have := (List.pairwise_cons.mp hs).1 _ hin
      exact absurd this (not_le.mpr (htop p.1 p.2 h1 h2 hp))

/-- C31: pairs are handled from the most correlated one.  The pair that is strictly the most correlated loses the member
with the larger mean correlation (the second one when they are equal). -/
theorem C31_top_pair (corr : ℕ → ℕ → K) (mc : ℕ → K) (thr : K) (abs : Bool) (n i j : ℕ) (hij : i < j) (hj : j < n)
    (hc : thr < corr i j) (htop : ∀ a b, a < b → b < n → (a, b) ≠ (i, j) → corr a b < corr i j) :
    ¬ Kept (dropCorrelated corr mc thr abs n) (if mc j < mc i then i else j) := by
  obtain ⟨rest, hr⟩ := head_is_top corr thr n i j hij hj hc htop
  rw [kept_iff, hr, not_and, not_not]
  intro _
  rw [List.foldl_cons]
  apply fold_mono
  unfold dropStep
  split_ifs <;> simp_all

/-- Witness: with `absolute=True` two assets whose correlation is `-1` are both kept at any threshold in `[0, 1)`. -/
theorem C31_absolute_pair_kept :
    dropCorrelated (fun i j => if i = j then (1 : ℚ) else -1) (fun _ => 0) (1 / 2) true 2 = [true, true] := by
  decide +kernel

/-- A correlation matrix of three assets: 0 and 1 close, 1 and 2 close, 0 and 2 apart. -/
def exCorr (i j : ℕ) : ℚ :=
  if i = j then 1 else if (i, j) = (0, 1) ∨ (i, j) = (1, 0) then 9 / 10
  else if (i, j) = (1, 2) ∨ (i, j) = (2, 1) then 97 / 100 else 1 / 2

example : dropCorrelated exCorr (fun j => ((List.range 3).map fun i => exCorr i j).sum / 3) (19 / 20) false 3 =
    [true, false, true] := by decide +kernel
example : ∀ i j, exCorr i j = exCorr j i := by
  intro i j
  unfold exCorr
  simp only [Prod.mk.injEq]
  split_ifs <;> first | rfl | omega
example : ∀ a < 3, ∀ b < 3, a < b → (a, b) ≠ (1, 2) → exCorr a b < exCorr 1 2 := by decide +kernel

end Skfolio.Selection
