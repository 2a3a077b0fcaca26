import Verif.Moments.SpectralModel
import Verif.Moments.CorrTheorems
import Mathlib.Order.Interval.Finset.Fin
import Mathlib.Algebra.BigOperators.Field

/-!
Claims C78 (`DenoiseCovariance`) and C79 (`DetoneCovariance`).
-/
set_option autoImplicit false

namespace Skfolio.Moments

open Matrix

variable {n : Nat}

/-! ### specification -/

/-- The cleaned spectrum: an eigenvalue is kept if it reaches the threshold; the others are all replaced by their mean. -/
noncomputable def cleaned (l : Fin n → ℝ) (thr : ℝ) (k : Fin n) : ℝ :=
  open Classical in
  if thr ≤ l k then l k
  else (∑ j ∈ Finset.univ.filter (fun j => l j < thr), l j) / (Finset.univ.filter fun j => l j < thr).card

/-- The spectrum without its `m` largest eigenvalues. -/
noncomputable def withoutFirst (l : Fin n → ℝ) (m : Nat) (k : Fin n) : ℝ := if (k : Nat) < m then 0 else l k

/-- Eigenvalues in decreasing order with their eigenvectors. -/
def IsSpectrum (s : Matrix (Fin n) (Fin n) ℝ) (l : Fin n → ℝ) (v : Matrix (Fin n) (Fin n) ℝ) : Prop := IsEigh s l v ∧ Antitone l

/-! ### linear algebra -/

theorem argsortDesc_antitone (l : Fin n → ℝ) : Antitone fun k => l (argsortDesc l k) := by
  intro a b h
  exact Tuple.monotone_sort l (Fin.rev_le_rev.2 h)

/-- Sorting keeps an eigendecomposition. -/
theorem sortEigh_spectrum {s : Matrix (Fin n) (Fin n) ℝ} {l : Fin n → ℝ} {v : Matrix (Fin n) (Fin n) ℝ} (h : IsEigh s l v) :
    IsSpectrum s (sortEigh (l, v)).1 (sortEigh (l, v)).2 := by
  have hsum : ∀ f : Fin n → ℝ, ∑ k, f (argsortDesc l k) = ∑ k, f k := fun f =>
    Equiv.sum_comp (Fin.revPerm.trans (Tuple.sort l)) f
  refine ⟨⟨?_, ?_⟩, argsortDesc_antitone l⟩
  · rw [← h.1]
    ext i j
    simp only [mul_apply, transpose_apply, sortEigh]
    exact hsum fun k => v i k * v j k
  · intro i j
    rw [h.2]
    exact (hsum fun k => v i k * l k * v j k).symm

theorem recompose_apply (l : Fin n → ℝ) (v : Matrix (Fin n) (Fin n) ℝ) (i j : Fin n) : recompose l v i j = ∑ k, v i k * l k * v j k := by
  rw [recompose, mul_apply]
  exact Finset.sum_congr rfl fun k _ => by rw [mul_diagonal, transpose_apply]

theorem IsEigh.quad {s : Matrix (Fin n) (Fin n) ℝ} {l : Fin n → ℝ} {v : Matrix (Fin n) (Fin n) ℝ} (h : IsEigh s l v) (x : Fin n → ℝ) :
    ∑ i, ∑ j, x i * s i j * x j = ∑ k, l k * (∑ i, v i k * x i) ^ 2 := by
  simp only [h.2, Finset.mul_sum, Finset.sum_mul, sq]
  rw [Finset.sum_comm]
  conv_rhs => rw [Finset.sum_comm]
  have : ∀ j, ∑ i, ∑ k, x i * (v i k * l k * v j k) * x j = ∑ k, ∑ i, x i * (v i k * l k * v j k) * x j := fun j => Finset.sum_comm
  simp only [this]
  exact Finset.sum_congr rfl fun j _ => Finset.sum_congr rfl fun k _ => Finset.sum_congr rfl fun i _ => by ring

theorem IsEigh.symm {s : Matrix (Fin n) (Fin n) ℝ} {l : Fin n → ℝ} {v : Matrix (Fin n) (Fin n) ℝ} (h : IsEigh s l v) (i j : Fin n) : s i j = s j i := by
  rw [h.2, h.2]
  exact Finset.sum_congr rfl fun k _ => by ring

theorem IsEigh.orth {s : Matrix (Fin n) (Fin n) ℝ} {l : Fin n → ℝ} {v : Matrix (Fin n) (Fin n) ℝ} (h : IsEigh s l v) (k k' : Fin n) :
    ∑ i, v i k * v i k' = if k = k' then 1 else 0 := by
  have e1 : vᵀ * v = 1 := mul_eq_one_comm.1 h.1
  have e := congrFun (congrFun e1 k) k'
  simpa [mul_apply, one_apply] using e

theorem IsEigh.psd {s : Matrix (Fin n) (Fin n) ℝ} {l : Fin n → ℝ} {v : Matrix (Fin n) (Fin n) ℝ} (h : IsEigh s l v) (hl : ∀ k, 0 ≤ l k) : PSD s := by
  refine ⟨h.symm, fun x => ?_⟩
  rw [h.quad]
  exact Finset.sum_nonneg fun k _ => mul_nonneg (hl k) (sq_nonneg _)

theorem IsEigh.pd {s : Matrix (Fin n) (Fin n) ℝ} {l : Fin n → ℝ} {v : Matrix (Fin n) (Fin n) ℝ} (h : IsEigh s l v) (hl : ∀ k, 0 < l k) : PD s := by
  refine ⟨h.symm, fun x hx => ?_⟩
  rw [h.quad]
  have hne : ∃ k, ∑ i, v i k * x i ≠ 0 := by
    by_contra hc
    push Not at hc
    apply hx
    have h1 : vᵀ *ᵥ x = 0 := by
      funext k
      simpa [mulVec, dotProduct] using hc k
    calc x = (v * vᵀ) *ᵥ x := by rw [h.1, one_mulVec]
      _ = v *ᵥ (vᵀ *ᵥ x) := by rw [Matrix.mulVec_mulVec]
      _ = 0 := by rw [h1, mulVec_zero]
  obtain ⟨k, hk⟩ := hne
  exact Finset.sum_pos' (fun k _ => mul_nonneg (hl k).le (sq_nonneg _)) ⟨k, Finset.mem_univ k, mul_pos (hl k) (by positivity)⟩

/-- The eigenvalues of a positive semidefinite matrix are not negative. -/
theorem IsEigh.nonneg {s : Matrix (Fin n) (Fin n) ℝ} {l : Fin n → ℝ} {v : Matrix (Fin n) (Fin n) ℝ} (h : IsEigh s l v) (hs : PSD s) (k : Fin n) : 0 ≤ l k := by
  have e := hs.2 fun i => v i k
  rw [h.quad] at e
  simp only [h.orth] at e
  simpa using e

/-! ### n_facts and the mean -/

theorem nFacts_le (l : Fin n → ℝ) (thr : ℝ) : nFacts l thr ≤ n := Nat.sub_le _ _

/-- `n_facts` counts the eigenvalues that reach the threshold, which are the first ones. -/
theorem lt_nFacts (l : Fin n → ℝ) (hl : Antitone l) (thr : ℝ) (k : Fin n) : (k : Nat) < nFacts l thr ↔ thr ≤ l k := by
  classical
  have hk := k.isLt
  unfold nFacts
  constructor
  · intro h
    by_contra hc
    push Not at hc
    have hsub : Finset.Ici k ⊆ Finset.univ.filter fun j => l j < thr := by
      intro j hj
      exact Finset.mem_filter.2 ⟨Finset.mem_univ j, lt_of_le_of_lt (hl (Finset.mem_Ici.1 hj)) hc⟩
    have hcard := Finset.card_le_card hsub
    rw [Fin.card_Ici] at hcard
    have : (Finset.univ.filter fun j => l j < thr).card = (Finset.univ.filter fun j => l j < thr).card := rfl
    have h' : (k : Nat) < n - (Finset.univ.filter fun j => l j < thr).card := by convert h
    omega
  · intro h
    have hsub : (Finset.univ.filter fun j => l j < thr) ⊆ Finset.Ioi k := by
      intro j hj
      rw [Finset.mem_Ioi]
      by_contra hc
      push Not at hc
      exact absurd (lt_of_le_of_lt (le_trans h (hl hc)) (Finset.mem_filter.1 hj).2) (lt_irrefl _)
    have hcard := Finset.card_le_card hsub
    rw [Fin.card_Ioi] at hcard
    have : (k : Nat) < n - (Finset.univ.filter fun j => l j < thr).card := by omega
    convert this

/-- The eigenvalues that the code computes are the cleaned ones. -/
theorem averageTail_eq (l : Fin n → ℝ) (hl : Antitone l) (thr : ℝ) : averageTail l (nFacts l thr) = cleaned l thr := by
  classical
  funext k
  unfold averageTail cleaned
  have hnum : (∑ j : Fin n, if (j : Nat) < nFacts l thr then 0 else l j) = ∑ j ∈ Finset.univ.filter (fun j => l j < thr), l j := by
    rw [Finset.sum_filter]
    refine Finset.sum_congr rfl fun j _ => ?_
    by_cases h : thr ≤ l j
    · rw [if_pos ((lt_nFacts l hl thr j).2 h), if_neg (not_lt.2 h)]
    · rw [if_neg (fun hc => h ((lt_nFacts l hl thr j).1 hc)), if_pos (not_le.1 h)]
  have hden : (n : ℝ) - nFacts l thr = ((Finset.univ.filter fun j => l j < thr).card : ℝ) := by
    have hle : (Finset.univ.filter fun j => l j < thr).card ≤ n := by
      simpa using Finset.card_le_univ (Finset.univ.filter fun j => l j < thr)
    have e : nFacts l thr = n - (Finset.univ.filter fun j => l j < thr).card := by unfold nFacts; congr
    rw [e, Nat.cast_sub hle]
    ring
  by_cases h : thr ≤ l k
  · rw [if_pos ((lt_nFacts l hl thr k).2 h), if_pos h]
  · rw [if_neg (fun hc => h ((lt_nFacts l hl thr k).1 hc)), if_neg h, hnum, hden]

/-- **C78.** The cleaned spectrum: eigenvalues at or above the threshold are kept and the others, which become equal, stay below it; the sum
(the trace) is kept; and the spectrum stays between the smallest and the largest eigenvalue, so that the condition number does not grow. -/
theorem C78_cleaned (l : Fin n → ℝ) (thr : ℝ) :
    (∀ k, thr ≤ l k → cleaned l thr k = l k) ∧ (∀ k, l k < thr → cleaned l thr k < thr) ∧
    (∀ k k', l k < thr → l k' < thr → cleaned l thr k = cleaned l thr k') ∧ ∑ k, cleaned l thr k = ∑ k, l k ∧
    (∀ lo, (∀ k, lo ≤ l k) → ∀ k, lo ≤ cleaned l thr k) ∧ ∀ hi, (∀ k, l k ≤ hi) → ∀ k, cleaned l thr k ≤ hi := by
  classical
  have hpos : ∀ k, l k < thr → 0 < ((Finset.univ.filter fun j => l j < thr).card : ℝ) := fun k hk => by
    exact_mod_cast Finset.card_pos.2 ⟨k, Finset.mem_filter.2 ⟨Finset.mem_univ k, hk⟩⟩
  refine ⟨fun k hk => by unfold cleaned; rw [if_pos hk], fun k hk => ?_, fun k k' hk hk' => ?_, ?_, fun lo hlo k => ?_, fun hi hhi k => ?_⟩
  · unfold cleaned
    rw [if_neg (not_le.2 hk), div_lt_iff₀ (by convert hpos k hk)]
    have := Finset.sum_lt_sum_of_nonempty (s := Finset.univ.filter fun j => l j < thr) (f := l) (g := fun _ => thr)
      ⟨k, Finset.mem_filter.2 ⟨Finset.mem_univ k, hk⟩⟩ (fun j hj => (Finset.mem_filter.1 hj).2)
    rw [Finset.sum_const, nsmul_eq_mul, mul_comm] at this
    convert this
  · unfold cleaned
    rw [if_neg (not_le.2 hk), if_neg (not_le.2 hk')]
  · by_cases hne : ∃ k, l k < thr
    · obtain ⟨k0, hk0⟩ := hne
      have hp := hpos k0 hk0
      obtain ⟨c, hc⟩ : ∃ c, c = (∑ j ∈ Finset.univ.filter (fun j => l j < thr), l j) / ((Finset.univ.filter fun j => l j < thr).card : ℝ) := ⟨_, rfl⟩
      have e : ∀ k, cleaned l thr k = if l k < thr then c else l k := by
        intro k
        unfold cleaned
        by_cases h : thr ≤ l k
        · rw [if_pos h, if_neg (not_lt.2 h)]
        · rw [if_neg h, if_pos (not_le.1 h), hc]
      rw [Finset.sum_congr rfl fun k _ => e k, Finset.sum_ite, Finset.sum_const, nsmul_eq_mul]
      have : ((Finset.univ.filter fun j => l j < thr).card : ℝ) * c = ∑ j ∈ Finset.univ.filter (fun j => l j < thr), l j := by
        rw [hc]
        field_simp
      rw [this, Finset.sum_filter_add_sum_filter_not]
    · push Not at hne
      exact Finset.sum_congr rfl fun k _ => by unfold cleaned; rw [if_pos (hne k)]
  · unfold cleaned
    by_cases h : thr ≤ l k
    · rw [if_pos h]; exact hlo k
    · rw [if_neg h, le_div_iff₀ (by convert hpos k (not_le.1 h)), mul_comm, ← nsmul_eq_mul]
      exact Finset.card_nsmul_le_sum _ _ _ fun j _ => hlo j
  · unfold cleaned
    by_cases h : thr ≤ l k
    · rw [if_pos h]; exact hhi k
    · rw [if_neg h, div_le_iff₀ (by convert hpos k (not_le.1 h)), mul_comm, ← nsmul_eq_mul]
      exact Finset.sum_le_card_nsmul _ _ _ fun j _ => hhi j

/-- Either nothing changes or every eigenvalue becomes positive. -/
theorem cleaned_cases (l : Fin n → ℝ) (thr : ℝ) (hthr : 0 < thr) (hl : ∀ k, 0 ≤ l k) :
    cleaned l thr = l ∨ ∀ k, 0 < cleaned l thr k := by
  classical
  by_cases hz : ∀ k, l k < thr → l k = 0
  · left
    funext k
    unfold cleaned
    by_cases h : thr ≤ l k
    · rw [if_pos h]
    · rw [if_neg h, hz k (not_le.1 h), Finset.sum_eq_zero (fun j hj => hz j (Finset.mem_filter.1 hj).2), zero_div]
  · right
    push Not at hz
    obtain ⟨k0, hk0, hne⟩ := hz
    intro k
    unfold cleaned
    by_cases h : thr ≤ l k
    · rw [if_pos h]; exact lt_of_lt_of_le hthr h
    · rw [if_neg h]
      apply div_pos
      · exact Finset.sum_pos' (fun j _ => hl j) ⟨k0, Finset.mem_filter.2 ⟨Finset.mem_univ _, hk0⟩, lt_of_le_of_ne (hl k0) (Ne.symm hne)⟩
      · exact_mod_cast Finset.card_pos.2 ⟨k0, Finset.mem_filter.2 ⟨Finset.mem_univ _, hk0⟩⟩

/-! ### finish -/

section fit
variable {isPD : Matrix (Fin n) (Fin n) ℝ → Bool} {eigh : Matrix (Fin n) (Fin n) ℝ → (Fin n → ℝ) × Matrix (Fin n) (Fin n) ℝ}

theorem finish_ok (hnum : Numerics isPD eigh) (nearest higham : Bool) (maxIter : Nat) (c : Matrix (Fin n) (Fin n) ℝ) (std : Fin n → ℝ)
    (hstd : ∀ i, 0 < std i) (r : Matrix (Fin n) (Fin n) ℝ) (h : finish isPD eigh nearest higham maxIter c std = .ok r) :
    (∀ i, 0 < c i i) ∧ (∀ i, r i i = std i ^ 2) ∧ (nearest = true → PD r) ∧
    (nearest = false → r = corrToCov (covToCorr c).1 std ∧ covToCorr r = ((covToCorr c).1, std)) := by
  unfold finish at h
  by_cases hd : ∃ i, c i i ≤ 0
  · rw [if_pos hd] at h; cases h
  rw [if_neg hd] at h
  push Not at hd
  cases hs : setCovariance isPD eigh nearest higham maxIter (corrToCov (covToCorr c).1 std) with
  | error e => rw [hs] at h; cases h
  | ok r' =>
    rw [hs] at h
    cases h
    have hC := C50_set_covariance hnum nearest higham maxIter _ _ hs
    have h1 := (C37_correlation c hd).1
    refine ⟨hd, fun i => ?_, hC.2.1, fun hn => ⟨hC.2.2 hn, ?_⟩⟩
    · rw [(hC.1 i).2, corrToCov, h1]
      ring
    · rw [hC.2.2 hn]
      exact C37_roundtrip_corr _ _ h1 hstd

theorem finish_total (hnum : Numerics isPD eigh) (nearest : Bool) (maxIter : Nat) (c : Matrix (Fin n) (Fin n) ℝ) (std : Fin n → ℝ)
    (hc : ∀ i, 0 < c i i) (hsym : ∀ i j, c i j = c j i) (hstd : ∀ i, 1 / 10 ^ 15 ≤ std i ^ 2) :
    ∃ r, finish isPD eigh nearest false maxIter c std = .ok r := by
  unfold finish
  rw [if_neg (by push Not; exact hc)]
  have h1 := (C37_correlation c hc).1
  have hdiag : ∀ i, corrToCov (covToCorr c).1 std i i = std i ^ 2 := fun i => by rw [corrToCov, h1]; ring
  have : ∃ r, setCovariance isPD eigh nearest false maxIter (corrToCov (covToCorr c).1 std) = .ok r := by
    unfold setCovariance
    rw [if_neg (by push Not; intro i; rw [hdiag]; exact hstd i)]
    cases nearest
    · exact ⟨_, rfl⟩
    · refine (C50_nearest hnum false maxIter _ fun i => ?_).2.2.2 ?_ rfl
      · rw [hdiag]; exact lt_of_lt_of_le (by norm_num) (hstd i)
      · intro i j
        simp only [corrToCov, covToCorr, hsym i j]
        ring
  obtain ⟨r, hr⟩ := this
  exact ⟨r, by rw [hr]⟩

/-- The spectrum of the prior correlation that `fit` computes. -/
theorem prior_spectrum (hnum : Numerics isPD eigh) (prior : Matrix (Fin n) (Fin n) ℝ) (hprior : PSD prior) :
    IsSpectrum (covToCorr prior).1 (sortEigh (eigh (covToCorr prior).1)).1 (sortEigh (eigh (covToCorr prior).1)).2 :=
  sortEigh_spectrum (hnum.eig _ fun i j => by simp only [covToCorr, hprior.1 i j]; ring)

/-! ### denoise -/

theorem marchenko_some (density : ℝ → ℝ) (q var : ℝ) : (marchenko density q var).isSome ↔ ∀ k, grid q var k ≠ 0 := by
  classical
  unfold marchenko
  have : (∀ k, (pdf0 q var (grid q var k)).isSome) ↔ ∀ k, grid q var k ≠ 0 := by
    refine forall_congr' fun k => ?_
    unfold pdf0
    by_cases h : grid q var k = 0
    · simp [h]
    · simp [h]
  by_cases h : ∀ k, (pdf0 q var (grid q var k)).isSome
  · rw [dif_pos h]; simpa using this.1 h
  · rw [dif_neg h]
    simp only [Option.isSome_none, Bool.false_eq_true, false_iff]
    exact fun hc => h (this.2 hc)

theorem grid_ne_zero (q var : ℝ) (hv : 0 < var) (hq : 0 < q) : (∀ k, grid q var k ≠ 0) ↔ q ≠ 1 := by
  have hs : 0 < Real.sqrt (1 / q) := Real.sqrt_pos.2 (by positivity)
  constructor
  · intro h hc
    apply h ⟨0, by norm_num⟩
    simp [grid, eMin, hc]
  · intro h k
    have h1 : Real.sqrt (1 / q) ≠ 1 := by
      intro hc
      rw [Real.sqrt_eq_one] at hc
      exact h (by field_simp at hc; linarith)
    have h2 : 0 < eMin q var := by
      unfold eMin
      have : (1 - Real.sqrt (1 / q)) ≠ 0 := fun hc => h1 (by linarith)
      positivity
    have h3 : eMin q var ≤ eMax q var := by
      unfold eMin eMax
      apply mul_le_mul_of_nonneg_left _ hv.le
      nlinarith
    unfold grid
    have : 0 ≤ (k : ℝ) * ((eMax q var - eMin q var) / 999) := mul_nonneg (Nat.cast_nonneg _) (div_nonneg (by linarith) (by norm_num))
    linarith

/-- The threshold of `fit`: the upper edge of the Marchenko-Pastur distribution with the fitted variance. -/
noncomputable def denoiseThreshold (minimize : (ℝ → Option ℝ) → ℝ) (kde : (Fin n → ℝ) → ℝ → ℝ) (T : Nat) (l : Fin n → ℝ) : ℝ :=
  eMax ((T : ℝ) / n) (minimize (marchenko (kde l) ((T : ℝ) / n)))

/-- **C78.** What a successful fit returns: the variances of the prior; a positive definite matrix unless `nearest=False`; and without
that adjustment the correlations are those of the prior correlation matrix with its spectrum cleaned and its eigenvectors kept,
normalised. -/
theorem C78_fit (hnum : Numerics isPD eigh) (kde : (Fin n → ℝ) → ℝ → ℝ) (minimize : (ℝ → Option ℝ) → ℝ) (nearest higham : Bool)
    (maxIter T : Nat) (prior : Matrix (Fin n) (Fin n) ℝ) (hprior : PSD prior) (hd : ∀ i, 0 < prior i i) (r : Matrix (Fin n) (Fin n) ℝ)
    (h : denoiseFit isPD eigh kde minimize nearest higham maxIter T prior = .ok r) :
    (∀ i, r i i = prior i i) ∧ (nearest = true → PD r) ∧
    ∃ l v, IsSpectrum (covToCorr prior).1 l v ∧ (∀ k, 0 ≤ l k) ∧
      (nearest = false → ∃ c, IsEigh c (cleaned l (denoiseThreshold minimize kde T l)) v ∧ (∀ i, 0 < c i i) ∧
        covToCorr r = ((covToCorr c).1, (covToCorr prior).2) ∧ r = corrToCov (covToCorr c).1 (covToCorr prior).2) := by
  have hstd := (C37_correlation prior hd).2.1
  have hsp := prior_spectrum hnum prior hprior
  unfold denoiseFit at h
  simp only at h
  split at h
  · cases h
  obtain ⟨h1, h2, h3, h4⟩ := finish_ok hnum nearest higham maxIter _ _ (fun i => (hstd i).1) r h
  have hl := hsp.1.nonneg ((C37_correlation prior hd).2.2 hprior).1.1
  refine ⟨fun i => by rw [h2, (hstd i).2], h3, _, _, hsp, hl, fun hn => ⟨_, ⟨hsp.1.1, fun i j => ?_⟩, h1, (h4 hn).2, (h4 hn).1⟩⟩
  rw [recompose_apply, averageTail_eq _ hsp.2]
  rfl

/-- **C78.** Denoising succeeds for every positive semidefinite prior covariance whose variances are not tiny, as long as the numbers of
observations and of assets differ: the cleaned correlation can always be normalised. -/
theorem C78_succeeds (hnum : Numerics isPD eigh) (kde : (Fin n → ℝ) → ℝ → ℝ) (minimize : (ℝ → Option ℝ) → ℝ)
    (hmin : ∀ f, 0 < minimize f) (nearest : Bool) (maxIter T : Nat) (prior : Matrix (Fin n) (Fin n) ℝ) (hprior : PSD prior)
    (hd : ∀ i, 1 / 10 ^ 15 ≤ prior i i) (hT : 0 < T) (hn : 0 < n) (hTn : T ≠ n) :
    ∃ r, denoiseFit isPD eigh kde minimize nearest false maxIter T prior = .ok r := by
  have hd' : ∀ i, 0 < prior i i := fun i => lt_of_lt_of_le (by norm_num) (hd i)
  have hstd := (C37_correlation prior hd').2.1
  have hcorr := ((C37_correlation prior hd').2.2 hprior).1
  have hsp := prior_spectrum hnum prior hprior
  have hq : (0 : ℝ) < (T : ℝ) / n := by positivity
  have hq1 : (T : ℝ) / n ≠ 1 := by
    intro hc
    rw [div_eq_one_iff_eq (by positivity)] at hc
    exact hTn (by exact_mod_cast hc)
  unfold denoiseFit
  simp only
  have hsome := (marchenko_some (kde (sortEigh (eigh (covToCorr prior).1)).1) ((T : ℝ) / n) (1 / 2)).2 ((grid_ne_zero _ _ (by norm_num) hq).2 hq1)
  rw [if_neg (by rw [Option.isNone_iff_eq_none]; exact Option.isSome_iff_ne_none.1 hsome)]
  generalize sortEigh (eigh (covToCorr prior).1) = lv at hsp ⊢
  obtain ⟨l, v⟩ := lv
  simp only at hsp ⊢
  obtain ⟨thr, hthr⟩ : ∃ thr, thr = minimize (marchenko (kde l) ((T : ℝ) / n)) * (1 + Real.sqrt (1 / ((T : ℝ) / n))) ^ 2 := ⟨_, rfl⟩
  have hpos : 0 < thr := by
    rw [hthr]
    have := hmin (marchenko (kde l) ((T : ℝ) / n))
    have h2 := Real.sqrt_nonneg (1 / ((T : ℝ) / n))
    positivity
  rw [← hthr, averageTail_eq l hsp.2]
  have he : IsEigh (recompose (cleaned l thr) v) (cleaned l thr) v := ⟨hsp.1.1, fun i j => recompose_apply _ _ _ _⟩
  refine finish_total hnum nearest maxIter _ _ (fun i => ?_) he.symm fun i => by rw [(hstd i).2]; exact hd i
  rcases cleaned_cases l thr hpos (hsp.1.nonneg hcorr.1) with hc | hc
  · rw [hc, recompose_apply, ← hsp.1.2, hcorr.2]
    exact one_pos
  · exact (he.pd hc).diag i

/-- **C78.** Noise that is not all zero makes a singular covariance positive definite, without the adjustment of `nearest`. -/
theorem C78_positive_definite (hnum : Numerics isPD eigh) (kde : (Fin n → ℝ) → ℝ → ℝ) (minimize : (ℝ → Option ℝ) → ℝ)
    (hmin : ∀ f, 0 < minimize f) (higham : Bool) (maxIter T : Nat) (hT : 0 < T) (hn : 0 < n) (prior : Matrix (Fin n) (Fin n) ℝ)
    (hprior : PSD prior) (hd : ∀ i, 0 < prior i i) (r : Matrix (Fin n) (Fin n) ℝ)
    (h : denoiseFit isPD eigh kde minimize false higham maxIter T prior = .ok r) :
    PSD r ∧ ∃ l v, IsSpectrum (covToCorr prior).1 l v ∧
      ((∀ k, denoiseThreshold minimize kde T l ≤ l k) → r = prior) ∧
      ((∃ k, 0 < l k ∧ l k < denoiseThreshold minimize kde T l) → PD r) := by
  obtain ⟨_, _, l, v, hsp, hl, hc⟩ := C78_fit hnum kde minimize false higham maxIter T prior hprior hd r h
  obtain ⟨c, he, hcd, _, hr⟩ := hc rfl
  have hstd := (C37_correlation prior hd).2.1
  have hpos : 0 < denoiseThreshold minimize kde T l := by
    unfold denoiseThreshold eMax
    have := hmin (marchenko (kde l) ((T : ℝ) / n))
    have h2 := Real.sqrt_nonneg (1 / ((T : ℝ) / n))
    positivity
  have hpsd : PSD c := he.psd fun k => (C78_cleaned l _).2.2.2.2.1 0 hl k
  refine ⟨?_, l, v, hsp, fun hk => ?_, fun hk => ?_⟩
  · rw [hr]
    exact (C37_covariance _ _ ((C37_correlation c hcd).2.2 hpsd).1).1
  · have hcl : cleaned l (denoiseThreshold minimize kde T l) = l := funext fun k => (C78_cleaned l _).1 k (hk k)
    have e : c = (covToCorr prior).1 := by
      ext i j
      rw [he.2, hcl, hsp.1.2]
    have h1 : ∀ i, c i i = 1 := fun i => by rw [e]; exact (C37_correlation prior hd).1 i
    have h2 : (covToCorr c).1 = c := by
      ext i j
      simp [covToCorr, h1]
    rw [hr, h2, e, C37_roundtrip prior hd]
  · obtain ⟨k, h0, h1⟩ := hk
    have hcp : ∀ k, 0 < cleaned l (denoiseThreshold minimize kde T l) k := by
      rcases cleaned_cases l _ hpos hl with hcl | hcl
      · intro k'
        by_cases hlt : l k' < denoiseThreshold minimize kde T l
        · rw [(C78_cleaned l _).2.2.1 k' k hlt h1, hcl]
          exact h0
        · rw [(C78_cleaned l _).1 k' (not_lt.1 hlt)]
          exact lt_of_lt_of_le hpos (not_lt.1 hlt)
      · exact hcl
    rw [hr, covToCorr_eq]
    exact ((he.pd hcp).scale _ fun i => inv_ne_zero (Real.sqrt_pos.2 (hcd i)).ne').scale _ fun i => (hstd i).1.ne'

/-- **C78, negated.** With as many observations as assets the fit always fails: the lower edge of the distribution is 0 and its density
NaN there. -/
theorem C78_square_fails (kde : (Fin n → ℝ) → ℝ → ℝ) (minimize : (ℝ → Option ℝ) → ℝ) (nearest higham : Bool)
    (maxIter : Nat) (hn : 0 < n) (prior : Matrix (Fin n) (Fin n) ℝ) :
    denoiseFit isPD eigh kde minimize nearest higham maxIter n prior = .error .nan := by
  unfold denoiseFit
  have hq : (n : ℝ) / n = 1 := div_self (by positivity)
  simp only [hq]
  rw [if_pos]
  rw [Option.isNone_iff_eq_none, ← Option.not_isSome_iff_eq_none]
  intro hc
  exact (grid_ne_zero 1 (1 / 2) (by norm_num) one_pos).1 ((marchenko_some _ _ _).1 hc) rfl

end fit

/-- The objective that the fit is meant to have: squared distance of the two densities at the points of the grid. -/
noncomputable def densityDistance (density : ℝ → ℝ) (q var : ℝ) : ℝ :=
  ∑ k, (density (grid q var k) - q / (2 * Real.pi * var * grid q var k) * Real.sqrt ((eMax q var - grid q var k) * (grid q var k - eMin q var))) ^ 2

/-- The Marchenko-Pastur density, 0 outside its support. -/
noncomputable def mpDensity (q var x : ℝ) : ℝ :=
  open Classical in
  if eMin q var ≤ x ∧ x ≤ eMax q var then q / (2 * Real.pi * var * x) * Real.sqrt ((eMax q var - x) * (x - eMin q var)) else 0

theorem mpDensity_distance (q var : ℝ) (hv : 0 < var) : densityDistance (mpDensity q var) q var = 0 := by
  unfold densityDistance
  refine Finset.sum_eq_zero fun k _ => ?_
  have h3 : eMin q var ≤ eMax q var := by
    unfold eMin eMax
    apply mul_le_mul_of_nonneg_left _ hv.le
    nlinarith [Real.sqrt_nonneg (1 / q)]
  have hk : (k : ℝ) ≤ 999 := by
    have := k.isLt
    exact_mod_cast Nat.le_of_lt_succ this
  have h1 : eMin q var ≤ grid q var k := by
    unfold grid
    have : 0 ≤ (k : ℝ) * ((eMax q var - eMin q var) / 999) := mul_nonneg (Nat.cast_nonneg _) (div_nonneg (by linarith) (by norm_num))
    linarith
  have h2 : grid q var k ≤ eMax q var := by
    unfold grid
    have : (k : ℝ) * ((eMax q var - eMin q var) / 999) ≤ 999 * ((eMax q var - eMin q var) / 999) :=
      mul_le_mul_of_nonneg_right hk (div_nonneg (by linarith) (by norm_num))
    linarith
  rw [mpDensity, if_pos ⟨h1, h2⟩]
  ring

/-- **C78, negated.** The objective compares the density of the eigenvalues at the *values* of the Marchenko-Pastur density (and not at the
points of the grid): when the eigenvalues follow the Marchenko-Pastur law of variance 1/10 exactly (four observations per asset), the
distance of the densities at that variance is 0, but the code's objective is more than 1. -/
theorem C78_objective_wrong : densityDistance (mpDensity 4 (1 / 10)) 4 (1 / 10) = 0 ∧
    ∃ y, marchenko (mpDensity 4 (1 / 10)) 4 (1 / 10) = some y ∧ 1 < y := by
  classical
  refine ⟨mpDensity_distance _ _ (by norm_num), ?_⟩
  have hsome := (marchenko_some (mpDensity 4 (1 / 10)) 4 (1 / 10)).2 ((grid_ne_zero 4 (1 / 10) (by norm_num) (by norm_num)).2 (by norm_num))
  have hall : ∀ k, (pdf0 4 (1 / 10) (grid 4 (1 / 10) k)).isSome := by
    intro k
    unfold pdf0
    rw [if_neg ((marchenko_some _ _ _).1 hsome k)]
    rfl
  have hs : Real.sqrt (1 / 4) = 1 / 2 := by
    rw [show (1 / 4 : ℝ) = (1 / 2) ^ 2 by norm_num]
    exact Real.sqrt_sq (by norm_num)
  have e1 : eMin 4 (1 / 10) = 1 / 40 := by rw [eMin, hs]; norm_num
  have e2 : eMax 4 (1 / 10) = 9 / 40 := by rw [eMax, hs]; norm_num
  refine ⟨_, by unfold marchenko; rw [dif_pos hall], ?_⟩
  have hk : ∀ k : Fin 1000, 0 ≤ (mpDensity 4 (1 / 10) ((pdf0 4 (1 / 10) (grid 4 (1 / 10) k)).get (hall k)) - (pdf0 4 (1 / 10) (grid 4 (1 / 10) k)).get (hall k)) ^ 2 :=
    fun k => sq_nonneg _
  refine lt_of_lt_of_le ?_ (Finset.single_le_sum (fun k _ => hk k) (Finset.mem_univ (⟨500, by norm_num⟩ : Fin 1000)))
  obtain ⟨y, hy⟩ : ∃ y, y = (pdf0 4 (1 / 10) (grid 4 (1 / 10) ⟨500, by norm_num⟩)).get (hall ⟨500, by norm_num⟩) := ⟨_, rfl⟩
  have eg : grid 4 (1 / 10) ⟨500, by norm_num⟩ = 1 / 40 + 100 / 999 := by
    unfold grid
    rw [e1, e2]
    norm_num
  have hy2 : y = 4 / (2 * Real.pi * (1 / 10) * (1 / 40 + 100 / 999)) * Real.sqrt ((9 / 40 - (1 / 40 + 100 / 999)) * (1 / 40 + 100 / 999 - 1 / 40)) := by
    rw [hy]
    simp only [eg, pdf0, e1, e2]
    rw [Option.get_of_eq_some _ (if_neg (by norm_num))]
  have hsq : 9 / 100 ≤ Real.sqrt ((9 / 40 - (1 / 40 + 100 / 999)) * (1 / 40 + 100 / 999 - 1 / 40)) := by
    apply Real.le_sqrt_of_sq_le
    norm_num
  have hpi := Real.pi_lt_four
  have hpi0 := Real.pi_pos
  have hfac : 4 / (2 * 4 * (1 / 10) * (1 / 40 + 100 / 999)) ≤ 4 / (2 * Real.pi * (1 / 10) * (1 / 40 + 100 / 999)) := by
    apply div_le_div_of_nonneg_left (by norm_num) (by positivity)
    nlinarith
  have hbig : 2 < y := by
    rw [hy2]
    calc (2 : ℝ) < 4 / (2 * 4 * (1 / 10) * (1 / 40 + 100 / 999)) * (9 / 100) := by norm_num
      _ ≤ _ := mul_le_mul hfac hsq (by norm_num) (by positivity)
  rw [← hy, mpDensity, e1, e2, if_neg (by intro hc; linarith [hc.2])]
  nlinarith

/-! ### detone -/

section detone
variable {isPD : Matrix (Fin n) (Fin n) ℝ → Bool} {eigh : Matrix (Fin n) (Fin n) ℝ → (Fin n → ℝ) × Matrix (Fin n) (Fin n) ℝ}

theorem detone_eigh {s : Matrix (Fin n) (Fin n) ℝ} {lv : (Fin n → ℝ) × Matrix (Fin n) (Fin n) ℝ} (h : IsEigh s lv.1 lv.2) (m : Nat) :
    IsEigh (detone s lv m) (withoutFirst lv.1 m) lv.2 := by
  refine ⟨h.1, fun i j => ?_⟩
  rw [detone, h.2, ← Finset.sum_sub_distrib]
  refine Finset.sum_congr rfl fun k _ => ?_
  unfold withoutFirst
  by_cases hk : (k : Nat) < m
  · rw [if_pos hk, if_pos hk]; ring
  · rw [if_neg hk, if_neg hk]; ring

/-- **C79.** What a successful fit returns: the variances of the prior; a positive definite matrix unless `nearest=False`; without that
adjustment, the correlations of the prior correlation without its largest eigenvalues, normalised, and each removed component gives a
portfolio without risk that is uncorrelated with every asset. -/
theorem C79_fit (hnum : Numerics isPD eigh) (nearest higham : Bool) (maxIter m : Nat) (prior : Matrix (Fin n) (Fin n) ℝ)
    (hprior : PSD prior) (hd : ∀ i, 0 < prior i i) (r : Matrix (Fin n) (Fin n) ℝ)
    (h : detoneFit isPD eigh nearest higham maxIter m prior = .ok r) :
    (∀ i, r i i = prior i i) ∧ (nearest = true → PD r) ∧
    (nearest = false → PSD r ∧ ∃ l v c, IsSpectrum (covToCorr prior).1 l v ∧ IsEigh c (withoutFirst l m) v ∧
      covToCorr r = ((covToCorr c).1, (covToCorr prior).2) ∧
      ∀ k : Fin n, (k : Nat) < m → ∃ w : Fin n → ℝ, w ≠ 0 ∧ (∀ i, w i * Real.sqrt (prior i i) = v i k * Real.sqrt (c i i)) ∧
        (∀ i, ∑ j, r i j * w j = 0) ∧ ∑ i, ∑ j, w i * r i j * w j = 0) := by
  have hstd := (C37_correlation prior hd).2.1
  have hcorr := ((C37_correlation prior hd).2.2 hprior).1
  have hsp := prior_spectrum hnum prior hprior
  have hm : sliceEnd n (m : Int) = m := by simp [sliceEnd]
  unfold detoneFit at h
  simp only [hm] at h
  obtain ⟨h1, h2, h3, h4⟩ := finish_ok hnum nearest higham maxIter _ _ (fun i => (hstd i).1) r h
  have he := detone_eigh hsp.1 m
  generalize detone (covToCorr prior).1 (sortEigh (eigh (covToCorr prior).1)) m = c at he h1 h4
  generalize sortEigh (eigh (covToCorr prior).1) = lv at hsp he
  obtain ⟨l, v⟩ := lv
  simp only at hsp he
  refine ⟨fun i => by rw [h2, (hstd i).2], h3, fun hn => ?_⟩
  obtain ⟨hr, hcr⟩ := h4 hn
  have hl0 := hsp.1.nonneg hcorr.1
  have hpsd : PSD c := he.psd fun k => by
    unfold withoutFirst
    split
    · exact le_refl 0
    · exact hl0 k
  refine ⟨by rw [hr]; exact (C37_covariance _ _ ((C37_correlation c h1).2.2 hpsd).1).1, l, v, c, hsp, he, hcr, fun k hk => ?_⟩
  have hs : ∀ i, 0 < Real.sqrt (prior i i) := fun i => Real.sqrt_pos.2 (hd i)
  have hcs : ∀ i, 0 < Real.sqrt (c i i) := fun i => Real.sqrt_pos.2 (h1 i)
  have hz : ∀ i, ∑ j, r i j * (v j k * Real.sqrt (c j j) / Real.sqrt (prior j j)) = 0 := by
    intro i
    have e : ∀ j, r i j * (v j k * Real.sqrt (c j j) / Real.sqrt (prior j j)) = Real.sqrt (prior i i) / Real.sqrt (c i i) * (c i j * v j k) := by
      intro j
      have a1 := (hs j).ne'
      have a2 := (hcs j).ne'
      have a3 := (hcs i).ne'
      rw [hr]
      simp only [corrToCov, covToCorr]
      field_simp
    rw [Finset.sum_congr rfl fun j _ => e j, ← Finset.mul_sum]
    have : ∑ j, c i j * v j k = 0 := by
      simp only [he.2, Finset.sum_mul]
      rw [Finset.sum_comm]
      refine Finset.sum_eq_zero fun k' _ => ?_
      have : ∑ j, v i k' * withoutFirst l m k' * v j k' * v j k = v i k' * withoutFirst l m k' * ∑ j, v j k' * v j k := by
        rw [Finset.mul_sum]
        exact Finset.sum_congr rfl fun j _ => by ring
      rw [this, he.orth]
      by_cases hkk : k' = k
      · rw [hkk, withoutFirst, if_pos hk]; ring
      · rw [if_neg hkk, mul_zero]
    rw [this, mul_zero]
  refine ⟨fun i => v i k * Real.sqrt (c i i) / Real.sqrt (prior i i), fun hc0 => ?_, fun i => div_mul_cancel₀ _ (hs i).ne', hz, ?_⟩
  · have ho := he.orth k k
    rw [if_pos rfl] at ho
    have : ∀ i, v i k = 0 := fun i => by
      have e := congrFun hc0 i
      simp only [Pi.zero_apply, div_eq_zero_iff, mul_eq_zero] at e
      rcases e with (e | e) | e
      · exact e
      · exact absurd e (hcs i).ne'
      · exact absurd e (hs i).ne'
    simp [this] at ho
  · refine Finset.sum_eq_zero fun i _ => ?_
    have := hz i
    simp only [mul_assoc, ← Finset.mul_sum]
    rw [this, mul_zero]

/-- **C79.** Removing no component changes nothing. -/
theorem C79_none_removed (hnum : Numerics isPD eigh) (higham : Bool) (maxIter : Nat) (prior : Matrix (Fin n) (Fin n) ℝ)
    (hprior : PSD prior) (hd : ∀ i, 1 / 10 ^ 15 ≤ prior i i) : detoneFit isPD eigh false higham maxIter 0 prior = .ok prior := by
  have hd' : ∀ i, 0 < prior i i := fun i => lt_of_lt_of_le (by norm_num) (hd i)
  have h1 := (C37_correlation prior hd').1
  have e : detone (covToCorr prior).1 (sortEigh (eigh (covToCorr prior).1)) (sliceEnd n 0) = (covToCorr prior).1 := by
    ext i j
    simp [detone, sliceEnd]
  have h2 : (covToCorr (covToCorr prior).1).1 = (covToCorr prior).1 := by
    have : ∀ i j, (covToCorr (covToCorr prior).1).1 i j = (covToCorr prior).1 i j / Real.sqrt ((covToCorr prior).1 j j) / Real.sqrt ((covToCorr prior).1 i i) :=
      fun i j => rfl
    ext i j
    rw [this, h1, h1]
    simp
  unfold detoneFit finish
  simp only [e]
  rw [if_neg (by push Not; intro i; rw [h1]; exact one_pos), h2, C37_roundtrip prior hd']
  unfold setCovariance
  rw [if_neg (by push Not; exact hd)]
  rfl

/-- **C79, negated.** If the components that are kept carry nothing, the correlation becomes 0 / 0: this is so when `n_markets` is at least
the number of assets, and when it is at least the rank of the correlation (with `n_markets=1`, all assets perfectly correlated). -/
theorem C79_all_removed (hnum : Numerics isPD eigh) (nearest higham : Bool) (maxIter m : Nat) (hn : 0 < n) (prior : Matrix (Fin n) (Fin n) ℝ)
    (hprior : PSD prior) (hm : ∀ l v, IsSpectrum (covToCorr prior).1 l v → ∀ k : Fin n, m ≤ (k : Nat) → l k = 0) :
    detoneFit isPD eigh nearest higham maxIter m prior = .error .nan := by
  have hsp := prior_spectrum hnum prior hprior
  have he := detone_eigh hsp.1 m
  have hm' : sliceEnd n (m : Int) = m := by simp [sliceEnd]
  unfold detoneFit finish
  simp only [hm']
  rw [if_pos]
  refine ⟨⟨0, hn⟩, ?_⟩
  rw [he.2]
  refine le_of_eq (Finset.sum_eq_zero fun k _ => ?_)
  have : withoutFirst (sortEigh (eigh (covToCorr prior).1)).1 m k = 0 := by
    unfold withoutFirst
    by_cases hk : (k : Nat) < m
    · rw [if_pos hk]
    · rw [if_neg hk]; exact hm _ _ hsp k (not_lt.1 hk)
  rw [this]
  ring

/-- `n_markets` of at least the number of assets. -/
theorem C79_too_many (hnum : Numerics isPD eigh) (nearest higham : Bool) (maxIter m : Nat) (hn : 0 < n) (hm : n ≤ m) (prior : Matrix (Fin n) (Fin n) ℝ)
    (hprior : PSD prior) : detoneFit isPD eigh nearest higham maxIter m prior = .error .nan :=
  C79_all_removed hnum nearest higham maxIter m hn prior hprior fun _ _ _ k hk => absurd (lt_of_lt_of_le k.isLt (le_trans hm hk)) (lt_irrefl _)

/-- **C79, negated.** Perfectly correlated assets: nothing is left without the market. -/
theorem C79_perfectly_correlated (hnum : Numerics isPD eigh) (nearest higham : Bool) (maxIter : Nat) (hn : 0 < n) (std : Fin n → ℝ) (hstd : ∀ i, 0 < std i)
    (prior : Matrix (Fin n) (Fin n) ℝ) (hp : ∀ i j, prior i j = std i * std j) : detoneFit isPD eigh nearest higham maxIter 1 prior = .error .nan := by
  have hone : ∀ i j, (covToCorr prior).1 i j = 1 := by
    intro i j
    have h1 := (hstd i).ne'
    have h2 := (hstd j).ne'
    simp only [covToCorr, hp, Real.sqrt_mul_self (hstd _).le]
    field_simp
  have hsq : ∀ x : Fin n → ℝ, ∑ i, ∑ j, x i * prior i j * x j = (∑ i, x i * std i) ^ 2 := by
    intro x
    rw [sq, Finset.sum_mul_sum]
    exact Finset.sum_congr rfl fun i _ => Finset.sum_congr rfl fun j _ => by rw [hp]; ring
  have hprior : PSD prior := ⟨fun i j => by rw [hp, hp]; ring, fun x => by rw [hsq]; exact sq_nonneg _⟩
  have hcorr := ((C37_correlation prior fun i => by rw [hp]; exact mul_pos (hstd i) (hstd i)).2.2 hprior).1
  refine C79_all_removed hnum nearest higham maxIter 1 hn prior hprior fun l v hsp k hk => ?_
  have hl := hsp.1.nonneg hcorr.1
  -- an eigenvector of an eigenvalue that is not 0 is constant
  have hconst : ∀ k, l k ≠ 0 → ∀ i j, v i k = v j k := by
    intro k hk i j
    have e : ∀ i, ∑ j, (covToCorr prior).1 i j * v j k = l k * v i k := by
      intro i
      simp only [hsp.1.2 i, Finset.sum_mul]
      rw [Finset.sum_comm, Finset.sum_eq_single k]
      · have : ∑ j, v i k * l k * v j k * v j k = v i k * l k * ∑ j, v j k * v j k := by
          rw [Finset.mul_sum]
          exact Finset.sum_congr rfl fun j _ => by ring
        rw [this, hsp.1.orth, if_pos rfl]
        ring
      · intro k' _ hne
        have : ∑ j, v i k' * l k' * v j k' * v j k = v i k' * l k' * ∑ j, v j k' * v j k := by
          rw [Finset.mul_sum]
          exact Finset.sum_congr rfl fun j _ => by ring
        rw [this, hsp.1.orth, if_neg hne, mul_zero]
      · intro hc
        exact absurd (Finset.mem_univ k) hc
    have e1 := e i
    have e2 := e j
    simp only [hone, one_mul] at e1 e2
    exact mul_left_cancel₀ hk (by rw [← e1, ← e2])
  by_contra hne
  have h0 : l ⟨0, hn⟩ ≠ 0 := by
    intro hc
    exact hne (le_antisymm (by rw [← hc]; exact hsp.2 (Fin.mk_le_of_le_val (Nat.zero_le _))) (hl k))
  have ho := hsp.1.orth ⟨0, hn⟩ k
  rw [if_neg (by intro hc; rw [← hc] at hk; simp at hk)] at ho
  have hc0 := hconst _ h0
  have hck := hconst _ hne
  have e : ∑ i, v i ⟨0, hn⟩ * v i k = n * (v ⟨0, hn⟩ ⟨0, hn⟩ * v ⟨0, hn⟩ k) := by
    rw [Finset.sum_congr rfl fun i _ => by rw [hc0 i ⟨0, hn⟩, hck i ⟨0, hn⟩], Finset.sum_const, nsmul_eq_mul, Finset.card_univ, Fintype.card_fin]
  rw [e] at ho
  have hunit : ∀ k, (∀ i j, v i k = v j k) → v ⟨0, hn⟩ k ≠ 0 := by
    intro k hk hz
    have := hsp.1.orth k k
    rw [if_pos rfl] at this
    simp [hk _ ⟨0, hn⟩, hz] at this
  exact mul_ne_zero (by positivity) (mul_ne_zero (hunit _ hc0) (hunit _ hck)) ho

/-- **C79, negated.** `n_markets` is not checked: a negative number is taken from the end, so that -1 removes all components but the
smallest. -/
theorem C79_negative (nearest higham : Bool) (maxIter m : Nat) (h0 : 0 < m) (hm : m ≤ n) (prior : Matrix (Fin n) (Fin n) ℝ) :
    detoneFit isPD eigh nearest higham maxIter (-(m : Int)) prior = detoneFit isPD eigh nearest higham maxIter ((n - m : Nat) : Int) prior := by
  have : sliceEnd n (-(m : Int)) = sliceEnd n ((n - m : Nat) : Int) := by
    unfold sliceEnd
    rw [if_neg (by omega), if_pos (by omega)]
    omega
  unfold detoneFit
  rw [this]

end detone

/-- A prior covariance that meets the hypotheses of C78 and C79: three assets. -/
example : PSD (!![4, 1, 1; 1, 4, 1; 1, 1, 4] : Matrix (Fin 3) (Fin 3) ℝ) ∧ (∀ i, 1 / 10 ^ 15 ≤ (!![4, 1, 1; 1, 4, 1; 1, 1, 4] : Matrix (Fin 3) (Fin 3) ℝ) i i) ∧
    ∃ isPD eigh, Numerics (n := 3) isPD eigh := by
  refine ⟨⟨fun i j => ?_, fun x => ?_⟩, fun i => ?_, numerics_exist⟩
  · fin_cases i <;> fin_cases j <;> simp
  · simp [Fin.sum_univ_three]
    nlinarith [sq_nonneg (x 0 + x 1 + x 2), sq_nonneg (x 0), sq_nonneg (x 1), sq_nonneg (x 2)]
  · fin_cases i <;> norm_num

/-- The fit of this covariance succeeds for ten observations. -/
example : ∃ isPD eigh r, Numerics (n := 3) isPD eigh ∧
    denoiseFit isPD eigh (fun _ _ => 1) (fun _ => 1 / 2) true false 100 10 !![4, 1, 1; 1, 4, 1; 1, 1, 4] = .ok r := by
  obtain ⟨isPD, eigh, h⟩ := numerics_exist (n := 3)
  obtain ⟨r, hr⟩ := C78_succeeds h (fun _ _ => 1) (fun _ => 1 / 2) (fun _ => by norm_num) true 100 10 !![4, 1, 1; 1, 4, 1; 1, 1, 4]
    ⟨fun i j => by fin_cases i <;> fin_cases j <;> simp, fun x => by
      simp [Fin.sum_univ_three]
      nlinarith [sq_nonneg (x 0 + x 1 + x 2), sq_nonneg (x 0), sq_nonneg (x 1), sq_nonneg (x 2)]⟩
    (fun i => by fin_cases i <;> norm_num) (by norm_num) (by norm_num) (by norm_num)
  exact ⟨isPD, eigh, r, h, hr⟩

end Skfolio.Moments
