import Verif.Moments.CorrModel
import Verif.Moments.Spec
import Mathlib.Tactic.FieldSimp
import Mathlib.Tactic.Ring
import Mathlib.Tactic.Linarith
import Mathlib.Tactic.Positivity
import Mathlib.Tactic.NormNum
import Mathlib.Tactic.SplitIfs
import Mathlib.Tactic.FinCases
import Mathlib.Analysis.Matrix.Spectrum

/-! C37 and C50. -/
set_option autoImplicit false

namespace Skfolio.Moments

open Matrix

variable {n : Nat}

theorem PD.psd {s : Matrix (Fin n) (Fin n) ℝ} (h : PD s) : PSD s := by
  refine ⟨h.1, fun x => ?_⟩
  by_cases hx : x = 0
  · simp [hx]
  · exact (h.2 x hx).le

/-- The quadratic form on two coordinates. -/
theorem PSD.two {s : Matrix (Fin n) (Fin n) ℝ} (h : PSD s) (i j : Fin n) (a b : ℝ) : 0 ≤ a ^ 2 * s i i + 2 * a * b * s i j + b ^ 2 * s j j := by
  have := h.2 (fun k => (if k = i then a else 0) + if k = j then b else 0)
  simp only [add_mul, mul_add, Finset.sum_add_distrib, ite_mul, zero_mul, mul_ite, mul_zero, Finset.sum_ite_eq', Finset.mem_univ, if_true] at this
  rw [h.1 j i] at this
  linarith

theorem PD.diag {s : Matrix (Fin n) (Fin n) ℝ} (h : PD s) (i : Fin n) : 0 < s i i := by
  have := h.2 (fun k => if k = i then 1 else 0) (fun hc => by simpa using congrFun hc i)
  simpa [ite_mul, mul_ite] using this

theorem PSD.diag {s : Matrix (Fin n) (Fin n) ℝ} (h : PSD s) (i : Fin n) : 0 ≤ s i i := by
  have := h.two i i 1 0
  simpa using this

/-- Cauchy-Schwarz. -/
theorem PSD.sq_le {s : Matrix (Fin n) (Fin n) ℝ} (h : PSD s) (i j : Fin n) : s i j ^ 2 ≤ s i i * s j j := by
  have h1 := h.diag i
  have h2 := h.diag j
  have h3 := h.two i j (s j j) (-s i j)
  have h4 := h.two i j (-s i j) (s i i)
  have h5 := h.two i j 1 1
  have h6 := h.two i j 1 (-1)
  by_contra hc
  push Not at hc
  rcases lt_or_eq_of_le h2 with hj | hj
  · nlinarith
  · rcases lt_or_eq_of_le h1 with hi | hi
    · nlinarith
    · rw [← hi, ← hj] at h5 h6
      have : s i j = 0 := by linarith
      rw [this, ← hi, ← hj] at hc
      norm_num at hc

/-- Scaling rows and columns. -/
theorem PSD.scale {s : Matrix (Fin n) (Fin n) ℝ} (h : PSD s) (d : Fin n → ℝ) : PSD (fun i j => s i j * d j * d i) := by
  refine ⟨fun i j => by simp only; rw [h.1 i j]; ring, fun x => ?_⟩
  have := h.2 fun i => x i * d i
  refine le_of_le_of_eq this (Finset.sum_congr rfl fun i _ => Finset.sum_congr rfl fun j _ => by ring)

theorem PD.scale {s : Matrix (Fin n) (Fin n) ℝ} (h : PD s) (d : Fin n → ℝ) (hd : ∀ i, d i ≠ 0) : PD (fun i j => s i j * d j * d i) := by
  refine ⟨fun i j => by simp only; rw [h.1 i j]; ring, fun x hx => ?_⟩
  have := h.2 (fun i => x i * d i) (fun hc => hx (by
    funext i
    exact (mul_eq_zero.1 (congrFun hc i)).resolve_right (hd i)))
  refine lt_of_lt_of_eq this (Finset.sum_congr rfl fun i _ => Finset.sum_congr rfl fun j _ => by ring)

theorem covToCorr_eq (s : Matrix (Fin n) (Fin n) ℝ) : (covToCorr s).1 = fun i j => s i j * (Real.sqrt (s j j))⁻¹ * (Real.sqrt (s i i))⁻¹ := by
  funext i j
  simp [covToCorr, div_eq_mul_inv]

/-- **C37.** Converting a matrix with positive diagonal to correlations and back gives the matrix. -/
theorem C37_roundtrip (s : Matrix (Fin n) (Fin n) ℝ) (h : ∀ i, 0 < s i i) : corrToCov (covToCorr s).1 (covToCorr s).2 = s := by
  funext i j
  have h1 := (Real.sqrt_pos.2 (h i)).ne'
  have h2 := (Real.sqrt_pos.2 (h j)).ne'
  simp only [corrToCov, covToCorr]
  field_simp

/-- **C37.** Converting correlations and volatilities to a covariance and back gives them. -/
theorem C37_roundtrip_corr (c : Matrix (Fin n) (Fin n) ℝ) (std : Fin n → ℝ) (hc : ∀ i, c i i = 1) (h : ∀ i, 0 < std i) : covToCorr (corrToCov c std) = (c, std) := by
  have e : ∀ i, Real.sqrt (corrToCov c std i i) = std i := by
    intro i
    rw [corrToCov, hc, one_mul, Real.sqrt_mul_self (h i).le]
  refine Prod.ext ?_ (funext e)
  funext i j
  have h1 := (h i).ne'
  have h2 := (h j).ne'
  simp only [covToCorr]
  rw [e, e, corrToCov]
  field_simp

/-- **C37.** The correlation of a positive semidefinite matrix with positive diagonal is a correlation matrix with entries between -1 and 1; the volatilities are the square roots of the variances. -/
theorem C37_correlation (s : Matrix (Fin n) (Fin n) ℝ) (hp : ∀ i, 0 < s i i) :
    (∀ i, (covToCorr s).1 i i = 1) ∧ (∀ i, 0 < (covToCorr s).2 i ∧ (covToCorr s).2 i ^ 2 = s i i) ∧
      (PSD s → IsCorrelation (covToCorr s).1 ∧ ∀ i j, -1 ≤ (covToCorr s).1 i j ∧ (covToCorr s).1 i j ≤ 1) := by
  have hd : ∀ i, (covToCorr s).1 i i = 1 := by
    intro i
    have h1 := (Real.sqrt_pos.2 (hp i)).ne'
    simp only [covToCorr]
    rw [div_div, Real.mul_self_sqrt (hp i).le, div_self (hp i).ne']
  refine ⟨hd, fun i => ⟨Real.sqrt_pos.2 (hp i), Real.sq_sqrt (hp i).le⟩, fun h => ?_⟩
  have hpsd : PSD (covToCorr s).1 := by
    rw [covToCorr_eq]
    exact h.scale fun i => (Real.sqrt (s i i))⁻¹
  refine ⟨⟨hpsd, hd⟩, fun i j => ?_⟩
  have := hpsd.sq_le i j
  rw [hd, hd] at this
  exact abs_le.1 ((sq_le_one_iff_abs_le_one _).1 (by linarith))

/-- **C37.** A correlation matrix and positive volatilities give a positive semidefinite covariance with these variances. -/
theorem C37_covariance (c : Matrix (Fin n) (Fin n) ℝ) (std : Fin n → ℝ) (hc : IsCorrelation c) : PSD (corrToCov c std) ∧ ∀ i, corrToCov c std i i = std i ^ 2 := by
  refine ⟨hc.1.scale std, fun i => ?_⟩
  rw [corrToCov, hc.2]
  ring

/-! ### cov_nearest -/

theorem clipEigen_apply (l : Fin n → ℝ) (v : Matrix (Fin n) (Fin n) ℝ) (eps : ℝ) (i j : Fin n) : clipEigen (l, v) eps i j = ∑ k, v i k * max (l k) eps * v j k := by
  simp [clipEigen, Matrix.mul_apply]

/-- Clipped eigenvalues give a positive definite matrix. -/
theorem clipEigen_pd (l : Fin n → ℝ) (v : Matrix (Fin n) (Fin n) ℝ) (eps : ℝ) (heps : 0 < eps) (hv : v * vᵀ = 1) : PD (clipEigen (l, v) eps) := by
  refine ⟨fun i j => ?_, fun x hx => ?_⟩
  · rw [clipEigen_apply, clipEigen_apply]
    exact Finset.sum_congr rfl fun k _ => by ring
  · have e : ∑ i, ∑ j, x i * clipEigen (l, v) eps i j * x j = ∑ k, max (l k) eps * (∑ i, v i k * x i) ^ 2 := by
      simp only [clipEigen_apply, Finset.mul_sum, Finset.sum_mul, sq]
      rw [Finset.sum_comm]
      conv_rhs => rw [Finset.sum_comm]
      have : ∀ j, ∑ i, ∑ k, x i * (v i k * max (l k) eps * v j k) * x j = ∑ k, ∑ i, x i * (v i k * max (l k) eps * v j k) * x j := fun j => Finset.sum_comm
      simp only [this]
      exact Finset.sum_congr rfl fun j _ => Finset.sum_congr rfl fun k _ => Finset.sum_congr rfl fun i _ => by ring
    rw [e]
    have hne : ∃ k, ∑ i, v i k * x i ≠ 0 := by
      by_contra hc
      push Not at hc
      apply hx
      have h1 : vᵀ *ᵥ x = 0 := by
        funext k
        simpa [mulVec, dotProduct] using hc k
      calc x = (v * vᵀ) *ᵥ x := by rw [hv, one_mulVec]
        _ = v *ᵥ (vᵀ *ᵥ x) := by rw [Matrix.mulVec_mulVec]
        _ = 0 := by rw [h1, mulVec_zero]
    obtain ⟨k, hk⟩ := hne
    have hm : ∀ k, 0 < max (l k) eps := fun k => lt_of_lt_of_le heps (le_max_right _ _)
    exact Finset.sum_pos' (fun k _ => mul_nonneg (hm k).le (sq_nonneg _)) ⟨k, Finset.mem_univ k, mul_pos (hm k) (by positivity)⟩

/-- The contracts of the numerical routines: `isPD` decides positive definiteness and `eigh` diagonalises every symmetric matrix. -/
structure Numerics (isPD : Matrix (Fin n) (Fin n) ℝ → Bool) (eigh : Matrix (Fin n) (Fin n) ℝ → (Fin n → ℝ) × Matrix (Fin n) (Fin n) ℝ) : Prop where
  pd : ∀ s, (∀ i j, s i j = s j i) → (isPD s = true ↔ PD s)
  eig : ∀ s, (∀ i j, s i j = s j i) → IsEigh s (eigh s).1 (eigh s).2

theorem highamLoop_ok {isPD : Matrix (Fin n) (Fin n) ℝ → Bool} {eigh : Matrix (Fin n) (Fin n) ℝ → (Fin n → ℝ) × Matrix (Fin n) (Fin n) ℝ} (hnum : Numerics isPD eigh) (std : Fin n → ℝ) :
    ∀ (k : Nat) (x diff r : Matrix (Fin n) (Fin n) ℝ), highamLoop isPD eigh std k x diff = .ok r → PD r ∧ ∀ i, r i i = std i ^ 2
  | 0, _, _, _, h => by cases h
  | k + 1, x, diff, r, h => by
    simp only [highamLoop] at h
    split_ifs at h with hpd
    · cases h
      have hs : ∀ i j, corrToCov (fillDiagonal (clipEigen (eigh (x - diff)) (5 / 2 ^ 52))) std i j = corrToCov (fillDiagonal (clipEigen (eigh (x - diff)) (5 / 2 ^ 52))) std j i := by
        intro i j
        have : clipEigen (eigh (x - diff)) (5 / 2 ^ 52) i j = clipEigen (eigh (x - diff)) (5 / 2 ^ 52) j i := by
          rw [show eigh (x - diff) = ((eigh (x - diff)).1, (eigh (x - diff)).2) from rfl, clipEigen_apply, clipEigen_apply]
          exact Finset.sum_congr rfl fun k _ => by ring
        simp only [corrToCov, fillDiagonal]
        split_ifs with h1 h2 h2
        · ring
        · exact absurd h1.symm h2
        · exact absurd h2.symm h1
        · rw [this]; ring
      refine ⟨(hnum.pd _ hs).1 hpd, fun i => ?_⟩
      simp only [corrToCov, fillDiagonal, if_true]
      ring
    · exact highamLoop_ok hnum std k _ _ r h

/-- **C50.** `cov_nearest` returns a positive definite matrix with the variances of its argument, by either method; a positive definite matrix is returned unchanged, a matrix that is not symmetric
is rejected. The clipping method always succeeds. -/
theorem C50_nearest {isPD : Matrix (Fin n) (Fin n) ℝ → Bool} {eigh : Matrix (Fin n) (Fin n) ℝ → (Fin n → ℝ) × Matrix (Fin n) (Fin n) ℝ} (hnum : Numerics isPD eigh) (higham : Bool) (maxIter : Nat)
    (s : Matrix (Fin n) (Fin n) ℝ) (hd : ∀ i, 0 < s i i) :
    (∀ r, covNearest isPD eigh higham maxIter s = .ok r → PD r ∧ ∀ i, r i i = s i i) ∧
    (PD s → covNearest isPD eigh higham maxIter s = .ok s) ∧
    (¬ (∀ i j, s i j = s j i) → covNearest isPD eigh higham maxIter s = .error .notSymmetric) ∧
    ((∀ i j, s i j = s j i) → higham = false → ∃ r, covNearest isPD eigh higham maxIter s = .ok r) := by
  have hT : sᵀ = s ↔ ∀ i j, s i j = s j i := by
    constructor
    · intro h i j
      exact (congrFun (congrFun h j) i)
    · intro h
      funext i j
      exact h j i
  refine ⟨fun r hr => ?_, fun hp => ?_, fun hns => ?_, fun hs hh => ?_⟩
  · unfold covNearest at hr
    split_ifs at hr with h1 h2 h3
    · cases hr
      exact ⟨(hnum.pd _ (hT.1 (not_not.1 h1))).1 h2, fun _ => rfl⟩
    · have h1' := hT.1 (not_not.1 h1)
      obtain ⟨a, b⟩ := highamLoop_ok hnum _ _ _ _ _ hr
      exact ⟨a, fun i => by rw [b i]; exact Real.sq_sqrt (hd i).le⟩
    · have h1' := hT.1 (not_not.1 h1)
      cases hr
      have hcs : ∀ i j, (covToCorr s).1 i j = (covToCorr s).1 j i := by
        intro i j
        rw [covToCorr_eq]
        simp only
        rw [h1' i j]
        ring
      have hx := clipEigen_pd (eigh (covToCorr s).1).1 (eigh (covToCorr s).1).2 (1 / 10 ^ 13) (by norm_num) (hnum.eig _ hcs).1
      have hc : PD (covToCorr (clipEigen (eigh (covToCorr s).1) (1 / 10 ^ 13))).1 := by
        rw [covToCorr_eq]
        exact hx.scale _ fun i => inv_ne_zero (Real.sqrt_pos.2 (hx.diag i)).ne'
      have hone := (C37_correlation _ hx.diag).1
      refine ⟨hc.scale _ fun i => (Real.sqrt_pos.2 (hd i)).ne', fun i => ?_⟩
      refine (congrArg (· * Real.sqrt (s i i) * Real.sqrt (s i i)) (hone i)).trans ?_
      rw [one_mul]
      exact Real.mul_self_sqrt (hd i).le
  · unfold covNearest
    rw [if_neg (not_not.2 (hT.2 hp.1)), if_pos ((hnum.pd s hp.1).2 hp)]
  · unfold covNearest
    rw [if_pos (fun h => hns (hT.1 h))]
  · unfold covNearest
    rw [if_neg (not_not.2 (hT.2 hs)), hh]
    split_ifs with h1 h2
    · exact ⟨_, rfl⟩
    · exact absurd h2 (by simp)
    · exact ⟨corrToCov (covToCorr (clipEigen (eigh (covToCorr s).1) (1 / 10 ^ 13))).1 (covToCorr s).2, rfl⟩

/-- **C50.** What a covariance estimator stores has positive variances, those it estimated, and is positive definite unless `nearest=False`. -/
theorem C50_set_covariance {isPD : Matrix (Fin n) (Fin n) ℝ → Bool} {eigh : Matrix (Fin n) (Fin n) ℝ → (Fin n → ℝ) × Matrix (Fin n) (Fin n) ℝ} (hnum : Numerics isPD eigh) (nearest higham : Bool)
    (maxIter : Nat) (s r : Matrix (Fin n) (Fin n) ℝ) (h : setCovariance isPD eigh nearest higham maxIter s = .ok r) :
    (∀ i, 0 < r i i ∧ r i i = s i i) ∧ (nearest = true → PD r) ∧ (nearest = false → r = s) := by
  unfold setCovariance at h
  split_ifs at h with h1 h2
  · push Not at h1
    have hd : ∀ i, 0 < s i i := fun i => lt_of_lt_of_le (by norm_num) (h1 i)
    obtain ⟨a, b⟩ := (C50_nearest hnum higham maxIter s hd).1 r h
    exact ⟨fun i => ⟨a.diag i, b i⟩, fun _ => a, fun hf => by rw [h2] at hf; cases hf⟩
  · push Not at h1
    cases h
    exact ⟨fun i => ⟨lt_of_lt_of_le (by norm_num) (h1 i), rfl⟩, fun ht => absurd ht h2, fun _ => rfl⟩

/-- The contracts can be met. -/
theorem numerics_exist : ∃ isPD eigh, Numerics (n := n) isPD eigh := by
  classical
  have hH : ∀ s : Matrix (Fin n) (Fin n) ℝ, (∀ i j, s i j = s j i) → s.IsHermitian := by
    intro s hs
    ext i j
    simp [Matrix.conjTranspose_apply, hs i j]
  refine ⟨fun s => decide (PD s), fun s => if h : s.IsHermitian then (h.eigenvalues, (h.eigenvectorUnitary : Matrix (Fin n) (Fin n) ℝ)) else (0, 0), ⟨fun s _ => by simp, fun s hs => ?_⟩⟩
  have h := hH s hs
  rw [dif_pos h]
  constructor
  · exact (Unitary.mem_iff.1 h.eigenvectorUnitary.2).2
  · intro i j
    have e := h.spectral_theorem
    have e2 := congrFun (congrFun e i) j
    rw [Unitary.conjStarAlgAut_apply, Matrix.mul_apply] at e2
    rw [e2]
    refine Finset.sum_congr rfl fun k _ => ?_
    rw [Matrix.mul_diagonal]
    simp [Matrix.star_apply]

/-- A symmetric matrix that is not positive semidefinite: its nearest covariance is. -/
example : ∃ isPD eigh r, Numerics (n := 2) isPD eigh ∧ covNearest isPD eigh false 100 !![4, 10; 10, 9] = .ok r ∧ PD r ∧ r 0 0 = 4 ∧ r 1 1 = 9 := by
  obtain ⟨isPD, eigh, h⟩ := numerics_exist (n := 2)
  have hd : ∀ i, 0 < (!![4, 10; 10, 9] : Matrix (Fin 2) (Fin 2) ℝ) i i := by
    intro i
    fin_cases i <;> simp
  have hs : ∀ i j, (!![4, 10; 10, 9] : Matrix (Fin 2) (Fin 2) ℝ) i j = (!![4, 10; 10, 9] : Matrix (Fin 2) (Fin 2) ℝ) j i := by
    intro i j
    fin_cases i <;> fin_cases j <;> simp
  obtain ⟨r, hr⟩ := (C50_nearest h false 100 _ hd).2.2.2 hs rfl
  have := (C50_nearest h false 100 _ hd).1 r hr
  exact ⟨isPD, eigh, r, h, hr, this.1, by simpa using this.2 0, by simpa using this.2 1⟩

/-- The hypotheses of C37 hold for a concrete covariance matrix. -/
example : PSD (!![4, 3; 3, 9] : Matrix (Fin 2) (Fin 2) ℝ) ∧ ∀ i, 0 < (!![4, 3; 3, 9] : Matrix (Fin 2) (Fin 2) ℝ) i i := by
  refine ⟨⟨fun i j => ?_, fun x => ?_⟩, fun i => ?_⟩
  · fin_cases i <;> fin_cases j <;> simp
  · simp [Fin.sum_univ_two]
    nlinarith [sq_nonneg (x 0 + x 1), sq_nonneg (x 0), sq_nonneg (x 1)]
  · fin_cases i <;> simp

end Skfolio.Moments
