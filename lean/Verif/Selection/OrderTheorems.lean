import Verif.Selection.AgainTheorems
import Mathlib.Logic.Equiv.Defs
import Mathlib.Logic.Equiv.Basic

/-!
**C142.** The order of the assets does not matter to the selectors, ties aside.
-/

set_option autoImplicit false

namespace Skfolio.Selection

open Sorting

/-! ### Specification -/

/-- `σ` renumbers `n` assets: column `i` of the new data is column `σ i` of the old. -/
def Renumbers (σ : Equiv.Perm ℕ) (n : ℕ) : Prop := ∀ i, σ i < n ↔ i < n

/-- The same assets are kept. -/
def SameKept (σ : Equiv.Perm ℕ) (mask mask' : List Bool) : Prop := ∀ i, Kept mask' i ↔ Kept mask (σ i)

theorem Renumbers.symm {σ : Equiv.Perm ℕ} {n : ℕ} (h : Renumbers σ n) : Renumbers σ.symm n := fun i => by
  rw [← h (σ.symm i), Equiv.apply_symm_apply]

/-! ### Selectors that look at one column at a time -/

theorem sameKept_map {α : Type*} (σ : Equiv.Perm ℕ) (columns columns' : List α) (h : ∀ i, columns'[i]? = columns[σ i]?) (p : α → Bool) : SameKept σ (columns.map p) (columns'.map p) := by
  intro i
  unfold Kept
  rw [List.getElem?_map, List.getElem?_map, h]

/-- **C142.** `SelectComplete`. -/
theorem C142_select_complete {K : Type*} (drop : Bool) (σ : Equiv.Perm ℕ) (columns columns' : List (List (Option K))) (h : ∀ i, columns'[i]? = columns[σ i]?) :
    SameKept σ (selectComplete drop columns) (selectComplete drop columns') := sameKept_map σ columns columns' h _

/-- **C142.** `SelectNonExpiring`. -/
theorem C142_select_non_expiring {D : Type*} [LinearOrder D] (expiration : List (String × D)) (maxDate cutoff : D) (σ : Equiv.Perm ℕ) (columns columns' : List String) (h : ∀ i, columns'[i]? = columns[σ i]?) :
    SameKept σ (selectNonExpiring expiration maxDate cutoff columns) (selectNonExpiring expiration maxDate cutoff columns') := sameKept_map σ columns columns' h _

/-- **C142.** `DropZeroVariance`: the same assets, or an error for both. -/
theorem C142_drop_zero_variance {K : Type*} [Field K] [LinearOrder K] (threshold : K) (σ : Equiv.Perm ℕ) (columns columns' : List (List K)) (h : ∀ i, columns'[i]? = columns[σ i]?) :
    (dropZeroVariance threshold columns = none ∧ dropZeroVariance threshold columns' = none) ∨
      ∃ mask mask', dropZeroVariance threshold columns = some mask ∧ dropZeroVariance threshold columns' = some mask' ∧ SameKept σ mask mask' := by
  unfold dropZeroVariance
  split_ifs with ht
  · exact .inl ⟨rfl, rfl⟩
  · exact .inr ⟨_, _, rfl, rfl, sameKept_map σ columns columns' h _⟩

/-! ### SelectKExtremes -/

/-- **C142.** `SelectKExtremes`, if no two assets have the same measure. -/
theorem C142_k_extremes {K : Type*} [LinearOrder K] (m : ℕ → K) (k : ℤ) (highest : Bool) (n : ℕ) (σ : Equiv.Perm ℕ) (hσ : Renumbers σ n) (hinj : ∀ i < n, ∀ j < n, m i = m j → i = j) :
    (selectKExtremes m k highest n = none ∧ selectKExtremes (fun i => m (σ i)) k highest n = none) ∨
      ∃ mask mask', selectKExtremes m k highest n = some mask ∧ selectKExtremes (fun i => m (σ i)) k highest n = some mask' ∧ SameKept σ mask mask' := by
  by_cases hk : 0 < k
  swap
  · left
    unfold selectKExtremes
    rw [if_pos (not_lt.1 hk)]
    exact ⟨rfl, if_pos (not_lt.1 hk)⟩
  right
  obtain ⟨mask, e, hl, hc, hx⟩ := C32_k_extremes m k hk highest n
  obtain ⟨mask', e', hl', hc', hx'⟩ := C32_k_extremes (fun i => m (σ i)) k hk highest n
  refine ⟨mask, mask', e, e', ?_⟩
  have hA : (keptAssets mask).Nodup := (keptAssets_sorted mask).imp fun h => h.ne
  have hB0 : (keptAssets mask').Nodup := (keptAssets_sorted mask').imp fun h => h.ne
  have hB : ((keptAssets mask').map σ).Nodup := hB0.map σ.injective
  have hlen : (keptAssets mask).length = ((keptAssets mask').map σ).length := by rw [List.length_map, keptAssets_length, keptAssets_length, hc, hc']
  have ltn : ∀ i, Kept mask i → i < n := by
    intro i hi
    unfold Kept at hi
    rw [← hl]
    exact (List.getElem?_eq_some_iff.1 hi).1
  have ltn' : ∀ i, Kept mask' i → i < n := by
    intro i hi
    unfold Kept at hi
    rw [← hl']
    exact (List.getElem?_eq_some_iff.1 hi).1
  -- an asset kept only once and one kept only the other time would have the same measure
  have clash : ∀ a b, Kept mask a → ¬ Kept mask' (σ.symm a) → Kept mask' (σ.symm b) → ¬ Kept mask b → False := by
    intro a b h1 h2 h3 h4
    have ha := ltn a h1
    have hb : b < n := by have := (hσ _).2 (ltn' _ h3); rwa [Equiv.apply_symm_apply] at this
    have c1 := hx a b h1 hb h4
    have c2 := hx' (σ.symm b) (σ.symm a) h3 ((hσ.symm a).2 ha) h2
    simp only [Equiv.apply_symm_apply] at c2
    have : m a = m b := by
      cases highest
      · exact le_antisymm c1 c2
      · exact le_antisymm c2 c1
    have := hinj a ha b hb this
    subst this
    exact h4 h1
  have hsub : keptAssets mask ⊆ (keptAssets mask').map σ := by
    intro a ha
    by_contra hno
    have hna : ¬ Kept mask' (σ.symm a) := fun h => hno (List.mem_map.2 ⟨_, (mem_keptAssets mask' _).2 h, Equiv.apply_symm_apply σ a⟩)
    have hsub' : (keptAssets mask').map σ ⊆ keptAssets mask := by
      intro b hb
      by_contra hnb
      obtain ⟨b', hb', rfl⟩ := List.mem_map.1 hb
      exact clash a (σ b') ((mem_keptAssets mask a).1 ha) hna (by rw [Equiv.symm_apply_apply]; exact (mem_keptAssets mask' b').1 hb') fun h => hnb ((mem_keptAssets mask _).2 h)
    exact hno (((hB.subperm hsub').perm_of_length_le hlen.le).mem_iff.2 ha)
  have hp := (hA.subperm hsub).perm_of_length_le hlen.ge
  intro i
  rw [← mem_keptAssets, ← mem_keptAssets, hp.mem_iff]
  constructor
  · exact fun h => List.mem_map_of_mem h
  · intro h
    obtain ⟨j, hj, hji⟩ := List.mem_map.1 h
    rwa [← σ.injective hji]

/-! ### DropCorrelated -/

section Corr
variable {K : Type*} [LinearOrder K]

theorem nodup_triuIndices (n : ℕ) : (triuIndices n).Nodup := by
  unfold triuIndices
  rw [List.nodup_flatMap]
  refine ⟨fun i _ => (List.nodup_range.filter _).map fun a b h => (Prod.mk.inj h).2, ?_⟩
  refine List.nodup_range.imp fun {a b} hab => ?_
  intro p hp hq
  obtain ⟨_, _, rfl⟩ := List.mem_map.1 hp
  obtain ⟨_, _, h⟩ := List.mem_map.1 hq
  exact hab (Prod.mk.inj h).1.symm

/-- The old numbers of a pair, the smaller first. -/
def oldPair (σ : Equiv.Perm ℕ) (p : ℕ × ℕ) : ℕ × ℕ := if σ p.1 < σ p.2 then (σ p.1, σ p.2) else (σ p.2, σ p.1)

theorem corr_oldPair (corr : ℕ → ℕ → K) (hsym : ∀ i j, corr i j = corr j i) (σ : Equiv.Perm ℕ) (p : ℕ × ℕ) : corr (oldPair σ p).1 (oldPair σ p).2 = corr (σ p.1) (σ p.2) := by
  unfold oldPair
  split_ifs with h
  · rfl
  · exact hsym _ _

theorem selectedPairs_sorted (corr : ℕ → ℕ → K) (thr : K) (n : ℕ) : (selectedPairs corr thr n).Pairwise fun p q => corr q.1 q.2 ≤ corr p.1 p.2 := by
  unfold selectedPairs
  have : Std.Total (fun p q : ℕ × ℕ => corr q.1 q.2 ≤ corr p.1 p.2) := ⟨fun a b => le_total _ _⟩
  have : IsTrans (ℕ × ℕ) (fun p q => corr q.1 q.2 ≤ corr p.1 p.2) := ⟨fun _ _ _ h1 h2 => le_trans h2 h1⟩
  exact List.pairwise_insertionSort _ _

theorem nodup_selectedPairs (corr : ℕ → ℕ → K) (thr : K) (n : ℕ) : (selectedPairs corr thr n).Nodup := by
  unfold selectedPairs
  rw [(List.perm_insertionSort _ _).nodup_iff]
  exact (nodup_triuIndices n).filter _

theorem selectedPairs_renumbered (corr : ℕ → ℕ → K) (hsym : ∀ i j, corr i j = corr j i) (thr : K) (n : ℕ) (σ : Equiv.Perm ℕ) (hσ : Renumbers σ n)
    (hd : ∀ p ∈ selectedPairs corr thr n, ∀ q ∈ selectedPairs corr thr n, corr p.1 p.2 = corr q.1 q.2 → p = q) :
    selectedPairs corr thr n = (selectedPairs (fun i j => corr (σ i) (σ j)) thr n).map (oldPair σ) := by
  have hmem : ∀ p, p ∈ (selectedPairs (fun i j => corr (σ i) (σ j)) thr n).map (oldPair σ) ↔ p ∈ selectedPairs corr thr n := by
    rintro ⟨i, j⟩
    rw [mem_selectedPairs]
    constructor
    · intro h
      obtain ⟨⟨a, b⟩, hab, e⟩ := List.mem_map.1 h
      obtain ⟨h1, h2, h3⟩ := (mem_selectedPairs _ _ _ _).1 hab
      simp only at h1 h2 h3
      have hb := (hσ b).2 h2
      have ha := (hσ a).2 (h1.trans h2)
      have hne : σ a ≠ σ b := fun h => h1.ne (σ.injective h)
      unfold oldPair at e
      simp only at e
      split_ifs at e with hlt
      · obtain ⟨rfl, rfl⟩ := Prod.mk.inj e
        exact ⟨hlt, hb, h3⟩
      · obtain ⟨rfl, rfl⟩ := Prod.mk.inj e
        exact ⟨by simp only; omega, ha, by rw [hsym]; exact h3⟩
    · rintro ⟨h1, h2, h3⟩
      simp only at h1 h2 h3
      rw [List.mem_map]
      have hne : σ.symm i ≠ σ.symm j := fun h => h1.ne (σ.symm.injective h)
      have hi := (hσ.symm i).2 (h1.trans h2)
      have hj := (hσ.symm j).2 h2
      rcases lt_or_gt_of_ne hne with hlt | hlt
      · refine ⟨(σ.symm i, σ.symm j), (mem_selectedPairs _ _ _ _).2 ⟨hlt, hj, ?_⟩, ?_⟩
        · simpa using h3
        · unfold oldPair
          simp only [Equiv.apply_symm_apply, if_pos h1]
      · refine ⟨(σ.symm j, σ.symm i), (mem_selectedPairs _ _ _ _).2 ⟨hlt, hi, ?_⟩, ?_⟩
        · simp only [Equiv.apply_symm_apply]
          rw [hsym]
          exact h3
        · unfold oldPair
          simp only [Equiv.apply_symm_apply, if_neg (not_lt.2 h1.le)]
  have hinj : ∀ p ∈ selectedPairs (fun i j => corr (σ i) (σ j)) thr n, ∀ q ∈ selectedPairs (fun i j => corr (σ i) (σ j)) thr n, oldPair σ p = oldPair σ q → p = q := by
    rintro ⟨a, b⟩ hp ⟨c, d⟩ hq e
    obtain ⟨h1, -, -⟩ := (mem_selectedPairs _ _ _ _).1 hp
    obtain ⟨h2, -, -⟩ := (mem_selectedPairs _ _ _ _).1 hq
    simp only at h1 h2
    unfold oldPair at e
    simp only at e
    split_ifs at e with c1 c2 c2 <;> obtain ⟨e1, e2⟩ := Prod.mk.inj e <;> have e1 := σ.injective e1 <;> have e2 := σ.injective e2 <;> subst e1 <;> subst e2
    · rfl
    · omega
    · omega
    · rfl
  refine List.Perm.eq_of_pairwise (le := fun p q => corr q.1 q.2 ≤ corr p.1 p.2) (fun p q hp hq h1 h2 => hd p hp q ((hmem q).1 hq) (le_antisymm h2 h1)) (selectedPairs_sorted corr thr n) ?_ ?_
  · rw [List.pairwise_map]
    refine (selectedPairs_sorted (fun i j => corr (σ i) (σ j)) thr n).imp fun {p q} h => ?_
    rw [corr_oldPair corr hsym, corr_oldPair corr hsym]
    exact h
  · rw [List.perm_ext_iff_of_nodup (nodup_selectedPairs corr thr n) ((nodup_selectedPairs _ thr n).map_on hinj)]
    exact fun p => (hmem p).symm

theorem dropStep_renumbered (mc : ℕ → K) (σ : Equiv.Perm ℕ) (R R' : List ℕ) (hR : ∀ i, i ∈ R' ↔ σ i ∈ R) (p : ℕ × ℕ) (hmc : mc (σ p.1) ≠ mc (σ p.2)) (i : ℕ) :
    i ∈ dropStep (fun i => mc (σ i)) R' p ↔ σ i ∈ dropStep mc R (oldPair σ p) := by
  obtain ⟨a, b⟩ := p
  simp only at hmc
  have key : ∀ x, (i = x ↔ σ i = σ x) := fun x => ⟨congrArg σ, fun h => σ.injective h⟩
  unfold dropStep oldPair
  simp only [hR]
  by_cases hlt : σ a < σ b
  · rw [if_pos hlt]
    simp only
    split_ifs with c1 c2
    · rw [List.mem_cons, List.mem_cons, hR, key a]
    · rw [List.mem_cons, List.mem_cons, hR, key b]
    · exact hR i
  · rw [if_neg hlt]
    simp only
    by_cases c1 : σ a ∉ R ∧ σ b ∉ R
    · have c2 : σ b ∉ R ∧ σ a ∉ R := ⟨c1.2, c1.1⟩
      rw [if_pos c1, if_pos c2]
      rcases lt_or_gt_of_ne hmc with h | h
      · rw [if_neg (not_lt.2 h.le), if_pos h, List.mem_cons, List.mem_cons, hR, key b]
      · rw [if_pos h, if_neg (not_lt.2 h.le), List.mem_cons, List.mem_cons, hR, key a]
    · have c2 : ¬ (σ b ∉ R ∧ σ a ∉ R) := fun h => c1 ⟨h.2, h.1⟩
      rw [if_neg c1, if_neg c2]
      exact hR i

theorem fold_renumbered (mc : ℕ → K) (σ : Equiv.Perm ℕ) (L : List (ℕ × ℕ)) (hmc : ∀ p ∈ L, mc (σ p.1) ≠ mc (σ p.2)) : ∀ R R' : List ℕ, (∀ i, i ∈ R' ↔ σ i ∈ R) → ∀ i,
    (i ∈ L.foldl (dropStep fun i => mc (σ i)) R' ↔ σ i ∈ (L.map (oldPair σ)).foldl (dropStep mc) R) := by
  induction L with
  | nil => exact fun R R' hR i => hR i
  | cons p L ih =>
    intro R R' hR i
    rw [List.map_cons, List.foldl_cons, List.foldl_cons]
    exact ih (fun q hq => hmc q (List.mem_cons_of_mem _ hq)) _ _ (fun j => dropStep_renumbered mc σ R R' hR p (hmc p List.mem_cons_self) j) i

/-- **C142.** `DropCorrelated`, if no two pairs above the threshold have the same correlation and the assets of no such pair have the same mean correlation. -/
theorem C142_drop_correlated [One K] [Neg K] (corr : ℕ → ℕ → K) (hsym : ∀ i j, corr i j = corr j i) (mc : ℕ → K) (thr : K) (abs : Bool) (n : ℕ) (σ : Equiv.Perm ℕ) (hσ : Renumbers σ n)
    (hd : ∀ i j k l, i < j → j < n → k < l → l < n → thr < corr i j → corr i j = corr k l → i = k ∧ j = l) (hmc : ∀ i j, i < j → j < n → thr < corr i j → mc i ≠ mc j) :
    (dropCorrelatedFit corr mc thr abs n = none ∧ dropCorrelatedFit (fun i j => corr (σ i) (σ j)) (fun i => mc (σ i)) thr abs n = none) ∨
      ∃ mask mask', dropCorrelatedFit corr mc thr abs n = some mask ∧ dropCorrelatedFit (fun i j => corr (σ i) (σ j)) (fun i => mc (σ i)) thr abs n = some mask' ∧ SameKept σ mask mask' := by
  unfold dropCorrelatedFit
  by_cases h1 : -1 ≤ thr ∧ thr ≤ 1
  swap
  · exact .inl ⟨if_pos h1, if_pos h1⟩
  rw [if_neg (not_not.2 h1), if_neg (not_not.2 h1)]
  by_cases h2 : n = 1
  · exact .inl ⟨if_pos h2, if_pos h2⟩
  rw [if_neg h2, if_neg h2]
  refine .inr ⟨_, _, rfl, rfl, fun i => ?_⟩
  rw [kept_iff, kept_iff, hσ i]
  have e := selectedPairs_renumbered corr hsym thr n σ hσ fun p hp q hq h => by
    obtain ⟨a1, a2, a3⟩ := (mem_selectedPairs _ _ _ _).1 hp
    obtain ⟨b1, b2, b3⟩ := (mem_selectedPairs _ _ _ _).1 hq
    obtain ⟨x, y⟩ := hd _ _ _ _ a1 a2 b1 b2 a3 h
    exact Prod.ext x y
  have hne : ∀ p ∈ selectedPairs (fun i j => corr (σ i) (σ j)) thr n, mc (σ p.1) ≠ mc (σ p.2) := by
    intro p hp
    obtain ⟨a1, a2, a3⟩ := (mem_selectedPairs _ _ _ _).1 hp
    have hne : σ p.1 ≠ σ p.2 := fun h => a1.ne (σ.injective h)
    rcases lt_or_gt_of_ne hne with h | h
    · exact hmc _ _ h ((hσ _).2 a2) a3
    · exact (hmc _ _ h ((hσ _).2 (a1.trans a2)) (by rw [hsym]; exact a3)).symm
  have := fold_renumbered mc σ _ hne [] [] (by simp) i
  rw [← e] at this
  rw [this]

/-- **C142.** Ties are not rare: two assets always have the same mean correlation, and of two assets correlated above the threshold it is the second that is dropped, whichever that is. -/
theorem C142_second_dropped (corr : ℕ → ℕ → ℚ) (hsym : ∀ i j, corr i j = corr j i) (hone : ∀ i, corr i i = 1) (thr : ℚ) (abs : Bool) (h : -1 ≤ thr ∧ thr ≤ 1) (h01 : thr < corr 0 1) :
    dropCorrelatedFit corr (fun j => (corr 0 j + corr 1 j) / 2) thr abs 2 = some [true, false] ∧
      dropCorrelatedFit (fun i j => corr (Equiv.swap 0 1 i) (Equiv.swap 0 1 j)) (fun j => (corr 0 (Equiv.swap 0 1 j) + corr 1 (Equiv.swap 0 1 j)) / 2) thr abs 2 = some [true, false] := by
  have hmc : (corr 0 0 + corr 1 0) / 2 = (corr 0 1 + corr 1 1) / 2 := by rw [hone, hone, hsym 1 0]; ring
  have key : ∀ (c : ℕ → ℕ → ℚ) (mc : ℕ → ℚ), thr < c 0 1 → mc 0 = mc 1 → dropCorrelatedFit c mc thr abs 2 = some [true, false] := by
    intro c mc hc hm
    have h3 : selectedPairs c thr 2 = [(0, 1)] := by
      have : triuIndices 2 = [(0, 1)] := by decide
      unfold selectedPairs
      rw [this, List.filter_cons, if_pos (by simpa using hc)]
      rfl
    unfold dropCorrelatedFit dropCorrelated
    rw [if_neg (not_not.2 h), if_neg (by norm_num), h3]
    simp [dropStep, hm, List.range_succ]
  refine ⟨key _ _ h01 hmc, key _ _ ?_ ?_⟩
  · simp only [Equiv.swap_apply_left, Equiv.swap_apply_right]
    rw [hsym]
    exact h01
  · simp only [Equiv.swap_apply_left, Equiv.swap_apply_right]
    exact hmc.symm

end Corr

/-! ### SelectNonDominated -/

section ND
variable {K : Type} [Field K] [LinearOrder K]

/-- The difference of the returns of no two assets of a pair has the variance zero (else the weight of the pair would be a division by zero). -/
def PairsDiffer (n : ℕ) (corr cov : ℕ → ℕ → K) (thr : K) : Prop := ∀ i < n, ∀ j < n, i ≠ j → corr i j < thr → cov i i + cov j j - 2 * cov i j ≠ 0

variable (n : ℕ) (corr cov : ℕ → ℕ → K) (hcorr : ∀ i j, corr i j = corr j i) (hcov : ∀ i j, cov i j = cov j i) (thr : K) (hd : PairsDiffer n corr cov thr)

include hcorr hcov hd in
theorem candidate_renumbered (σ : Equiv.Perm ℕ) (hσ : Renumbers σ n) (w : ℕ → K) (hw : w ∈ candidates n corr cov thr) :
    (fun i => w (σ i)) ∈ candidates n (fun i j => corr (σ i) (σ j)) (fun i j => cov (σ i) (σ j)) thr := by
  rw [C32_candidates] at hw ⊢
  rcases hw with ⟨i, hi, h1, h2⟩ | ⟨i, j, hij, hj, hc, h1, h2, h3⟩
  · left
    refine ⟨σ.symm i, (hσ.symm i).2 hi, by simpa using h1, fun k hk => h2 _ fun h => hk ?_⟩
    rw [← h, Equiv.symm_apply_apply]
  · right
    have hi := hij.trans hj
    have hne : σ.symm i ≠ σ.symm j := fun h => hij.ne (σ.symm.injective h)
    have hk : ∀ k x, k ≠ σ.symm x → σ k ≠ x := fun k x h e => h (by rw [← e, Equiv.symm_apply_apply])
    rcases lt_or_gt_of_ne hne with hlt | hlt
    · refine ⟨σ.symm i, σ.symm j, hlt, (hσ.symm j).2 hj, by simpa using hc, by simpa using h1, by simpa using h2, fun k k1 k2 => h3 _ (hk k i k1) (hk k j k2)⟩
    · refine ⟨σ.symm j, σ.symm i, hlt, (hσ.symm i).2 hi, ?_, ?_, ?_, fun k k1 k2 => h3 _ (hk k i k2) (hk k j k1)⟩
      · simp only [Equiv.apply_symm_apply]
        rw [hcorr]
        exact hc
      · simp only [Equiv.apply_symm_apply]
        have hden := hd i hi j hj hij.ne hc
        rw [h2, h1]
        unfold pairWeight
        rw [hcov j i, show cov j j + cov i i - 2 * cov i j = cov i i + cov j j - 2 * cov i j by ring]
        rw [eq_div_iff hden, sub_mul, div_mul_cancel₀ _ hden]
        ring
      · simp only [Equiv.apply_symm_apply]
        rw [h2]
        ring

include hd in
theorem pairsDiffer_renumbered (σ : Equiv.Perm ℕ) (hσ : Renumbers σ n) : PairsDiffer n (fun i j => corr (σ i) (σ j)) (fun i j => cov (σ i) (σ j)) thr :=
  fun i hi j hj hij hc => hd _ ((hσ i).2 hi) _ ((hσ j).2 hj) (fun h => hij (σ.injective h)) hc

include hcorr hcov hd in
theorem candidate_renumbered_iff (σ : Equiv.Perm ℕ) (hσ : Renumbers σ n) (w : ℕ → K) :
    w ∈ candidates n (fun i j => corr (σ i) (σ j)) (fun i j => cov (σ i) (σ j)) thr ↔ (fun i => w (σ.symm i)) ∈ candidates n corr cov thr := by
  constructor
  · intro h
    have := candidate_renumbered n _ _ (fun i j => hcorr _ _) (fun i j => hcov _ _) thr (pairsDiffer_renumbered n corr cov thr hd σ hσ) σ.symm hσ.symm w h
    simpa using this
  · intro h
    have := candidate_renumbered n corr cov hcorr hcov thr hd σ hσ _ h
    simpa using this

variable (fitness : (ℕ → K) → List K) (mm : ℕ) (hf : ∀ w, (fitness w).length = mm)

include hcorr hcov hd hf in
/-- **C142.** `SelectNonDominated` without a minimum number of assets. -/
theorem C142_non_dominated_first_front (hn : 0 < n) (σ : Equiv.Perm ℕ) (hσ : Renumbers σ n) :
    ∃ mask mask', selectNonDominated n none corr cov thr fitness = some mask ∧
      selectNonDominated n none (fun i j => corr (σ i) (σ j)) (fun i j => cov (σ i) (σ j)) thr (fun w => fitness fun i => w (σ.symm i)) = some mask' ∧ SameKept σ mask mask' := by
  obtain ⟨mask, e, -, k⟩ := C32_non_dominated_first_front n mm hn corr cov thr fitness hf
  obtain ⟨mask', e', -, k'⟩ := C32_non_dominated_first_front n mm hn (fun i j => corr (σ i) (σ j)) (fun i j => cov (σ i) (σ j)) thr (fun w => fitness fun i => w (σ.symm i)) fun w => hf _
  refine ⟨mask, mask', e, e', fun i => ?_⟩
  rw [k, k', hσ i]
  have iff := candidate_renumbered_iff n corr cov hcorr hcov thr hd σ hσ
  constructor
  · rintro ⟨hi, w, hw, hwi, hno⟩
    refine ⟨hi, _, (iff w).1 hw, by simpa using hwi, ?_⟩
    rintro ⟨w', hw', hdom⟩
    exact hno ⟨fun i => w' (σ i), (iff _).2 (by simpa using hw'), by simpa using hdom⟩
  · rintro ⟨hi, w, hw, hwi, hno⟩
    refine ⟨hi, fun i => w (σ i), (iff _).2 (by simpa using hw), hwi, ?_⟩
    rintro ⟨w', hw', hdom⟩
    exact hno ⟨_, (iff w').1 hw', by simpa using hdom⟩

include hcorr hcov hd hf in
/-- **C142.** `SelectNonDominated` with a minimum number of assets. -/
theorem C142_non_dominated_min [IsStrictOrderedRing K] (m : ℕ) (σ : Equiv.Perm ℕ) (hσ : Renumbers σ n) :
    ∃ mask mask', selectNonDominated n (some m) corr cov thr fitness = some mask ∧
      selectNonDominated n (some m) (fun i j => corr (σ i) (σ j)) (fun i j => cov (σ i) (σ j)) thr (fun w => fitness fun i => w (σ.symm i)) = some mask' ∧ SameKept σ mask mask' := by
  by_cases hm : n ≤ m
  · refine ⟨List.replicate n true, List.replicate n true, ?_, ?_, fun i => ?_⟩
    · unfold selectNonDominated
      exact if_pos (by simpa using hm)
    · unfold selectNonDominated
      exact if_pos (by simpa using hm)
    · unfold Kept
      simp only [List.getElem?_replicate]
      have := hσ i
      by_cases hi : i < n
      · simp [hi, this.2 hi]
      · simp [hi, mt this.1 hi]
  obtain ⟨mask, F, t, e0, l0, htF, hF, k0, c0, min0⟩ := C32_non_dominated_min n m mm (not_le.1 hm) corr cov thr fitness hf
  obtain ⟨mask', F', t', e1, l1, htF', hF', k1, c1, min1⟩ := C32_non_dominated_min n m mm (not_le.1 hm) (fun i j => corr (σ i) (σ j)) (fun i j => cov (σ i) (σ j)) thr (fun w => fitness fun i => w (σ.symm i)) fun w => hf _
  refine ⟨mask, mask', e0, e1, ?_⟩
  have iff := candidate_renumbered_iff n corr cov hcorr hcov thr hd σ hσ
  set C := candidates n corr cov thr with hC
  set C' := candidates n (fun i j => corr (σ i) (σ j)) (fun i j => cov (σ i) (σ j)) thr with hC'
  let E : ℕ → ℕ → Prop := fun p p' => ∃ (hp : p < C.length) (hp' : p' < C'.length), C[p] = fun i => C'[p'] (σ.symm i)
  have hdom : ∀ p p' q q', E p p' → E q q' → (RowDominates (C.map fitness) p q ↔ RowDominates (C'.map fun w => fitness fun i => w (σ.symm i)) p' q') := by
    rintro p p' q q' ⟨a, a', e⟩ ⟨b, b', f⟩
    unfold RowDominates
    simp only [List.length_map, List.getElem_map]
    constructor
    · rintro ⟨_, _, hd⟩
      exact ⟨a', b', by rw [← e, ← f]; exact hd⟩
    · rintro ⟨_, _, hd⟩
      exact ⟨a, b, by rw [e, f]; exact hd⟩
  have hE : ∀ p p', E p p' → p < C.length ∧ p' < C'.length := fun p p' ⟨a, b, _⟩ => ⟨a, b⟩
  have hup : ∀ p' < C'.length, ∃ p, E p p' := by
    intro p' hp'
    obtain ⟨p, hp, e⟩ := List.getElem_of_mem ((iff _).1 (List.getElem_mem hp'))
    exact ⟨p, hp, hp', e⟩
  have hdown0 : ∀ p < C.length, ∃ p', E p p' := by
    intro p hp
    have hw : (fun i => C[p] (σ i)) ∈ C' := (iff _).2 (by simp only [Equiv.apply_symm_apply]; exact List.getElem_mem hp)
    obtain ⟨p', hp', e⟩ := List.getElem_of_mem hw
    refine ⟨p', hp, hp', ?_⟩
    rw [e]
    simp
  have hdown : ∀ p ∈ (F.take F.length).flatten, ∃ p', E p p' := by
    intro p hp
    obtain ⟨s, -, hs, hps⟩ := (mem_take_layers F _ p).1 hp
    exact hdown0 p ((hF.layer s hs p).1 hps).1
  have htr := row_trans (C.map fitness) (rect_map mm fitness hf C)
  have htr' := row_trans (C'.map fun w => fitness fun i => w (σ.symm i)) (rect_map mm (fun w => fitness fun i => w (σ.symm i)) (fun _ => hf _) C')
  have hheld : ∀ p p', E p p' → ∀ i, (σ i ∈ assetsOfCandidate n corr cov thr p ↔ i ∈ assetsOfCandidate n (fun i j => corr (σ i) (σ j)) (fun i j => cov (σ i) (σ j)) thr p') := by
    rintro p p' ⟨a, a', e⟩ i
    rw [mem_assetsOf n corr cov thr p a, mem_assetsOf n _ _ thr p' a', e, hσ i]
    simp only [Equiv.symm_apply_apply]
    exact Iff.rfl
  have held : ∀ s ≤ F.length, ∀ i, (HeldBy (assetsOfCandidate n corr cov thr) (F.take s).flatten (σ i) ↔
      HeldBy (assetsOfCandidate n (fun i j => corr (σ i) (σ j)) (fun i j => cov (σ i) (σ j)) thr) (F'.take s).flatten i) := by
    intro s hs i
    constructor
    · rintro ⟨p, hp, hip⟩
      obtain ⟨r, hr, hrF, hpr⟩ := (mem_take_layers F s p).1 hp
      obtain ⟨p', hp'⟩ := hdown0 p ((hF.layer r hrF p).1 hpr).1
      obtain ⟨hr', hpr'⟩ := layers_agree hF hF' htr htr' E F.length hdom hE hup hdown r hrF hrF p p' hpr hp'
      exact ⟨p', (mem_take_layers F' s p').2 ⟨r, hr, hr', hpr'⟩, (hheld p p' hp' i).1 hip⟩
    · rintro ⟨p', hp', hip⟩
      obtain ⟨r, hr, hrF, hpr⟩ := (mem_take_layers F' s p').1 hp'
      obtain ⟨p, hp⟩ := hup p' ((hF'.layer r hrF p').1 hpr).1
      have := layers_agree_conv hF hF' htr htr' E F.length hdom hE hup hdown r (by omega) le_rfl hrF p p' hpr hp
      exact ⟨p, (mem_take_layers F s p).2 ⟨r, hr, by omega, this⟩, (hheld p p' hp i).2 hip⟩
  have hA : (keptAssets mask).Nodup := (keptAssets_sorted mask).imp fun h => h.ne
  have hB : (keptAssets mask').Nodup := (keptAssets_sorted mask').imp fun h => h.ne
  have ht : t = t' := by
    rcases Nat.lt_trichotomy t t' with hlt | heq | hgt
    · exfalso
      obtain ⟨L, -, hLm, hL⟩ := min1 t hlt
      have hsub : (keptAssets mask).map σ.symm ⊆ L := by
        intro a ha
        obtain ⟨b, hb, rfl⟩ := List.mem_map.1 ha
        rw [hL, ← held t htF, Equiv.apply_symm_apply, ← k0]
        exact (mem_keptAssets mask b).1 hb
      have := ((hA.map σ.symm.injective).subperm hsub).length_le
      rw [List.length_map, keptAssets_length] at this
      omega
    · exact heq
    · exfalso
      obtain ⟨L, -, hLm, hL⟩ := min0 t' hgt
      have hsub : (keptAssets mask').map σ ⊆ L := by
        intro a ha
        obtain ⟨b, hb, rfl⟩ := List.mem_map.1 ha
        rw [hL, held t' (by omega), ← k1]
        exact (mem_keptAssets mask' b).1 hb
      have := ((hB.map σ.injective).subperm hsub).length_le
      rw [List.length_map, keptAssets_length] at this
      omega
  subst ht
  intro i
  rw [k0, k1, held t htF]

end ND

/-! ### Examples -/

/-- Three assets, the last two exchanged. -/
example : Renumbers (Equiv.swap 1 2) 3 := by
  intro i
  by_cases h1 : i = 1
  · subst h1; simp
  · by_cases h2 : i = 2
    · subst h2; simp
    · rw [Equiv.swap_apply_of_ne_of_ne h1 h2]

example : PairsDiffer 3 hedgeCorr hedgeCorr (-1 / 2) ∧ (∀ i j, hedgeCorr i j = hedgeCorr j i) := by
  refine ⟨?_, fun i j => by unfold hedgeCorr; simp only [eq_comm, add_comm]⟩
  unfold PairsDiffer
  decide +kernel

/-- The best two of three assets, in two orders. -/
example : selectKExtremes (fun i => ([5, 1, 3] : List ℚ).getD i 0) 2 true 3 = some [true, false, true] ∧
    selectKExtremes (fun i => ([5, 1, 3] : List ℚ).getD (Equiv.swap 1 2 i) 0) 2 true 3 = some [true, true, false] := by
  decide +kernel

/-- Two assets of equal measure: the first in the order is kept. -/
example : selectKExtremes (fun _ => (1 : ℚ)) 1 true 2 = some [true, false] := by
  decide +kernel

/-- Correlations of three assets, of which two pairs are correlated above 0.7. -/
def triCorr (i j : ℕ) : ℚ := if i = j then 1 else if i + j = 1 then 9 / 10 else if i + j = 2 then 8 / 10 else 6 / 10

/-- Mean correlations of the three assets. -/
def triMean (j : ℕ) : ℚ := (triCorr 0 j + triCorr 1 j + triCorr 2 j) / 3

example : dropCorrelatedFit triCorr triMean (7 / 10) false 3 = some [false, true, true] ∧
    dropCorrelatedFit (fun i j => triCorr (Equiv.swap 0 2 i) (Equiv.swap 0 2 j)) (fun i => triMean (Equiv.swap 0 2 i)) (7 / 10) false 3 = some [true, true, false] := by
  decide +kernel

example : (∀ i j : Fin 3, i < j → (7 / 10 : ℚ) < triCorr i j → triMean i ≠ triMean j) ∧
    ∀ i j k l : Fin 3, i < j → k < l → (7 / 10 : ℚ) < triCorr i j → triCorr i j = triCorr k l → i = k ∧ j = l := by
  decide +kernel

end Skfolio.Selection
