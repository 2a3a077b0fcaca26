import Verif.Prior.BlackLittermanModel
import Verif.Prior.BlackLittermanSpec
import Mathlib.LinearAlgebra.Matrix.ToLinearEquiv
import Mathlib.Tactic.FieldSimp
import Mathlib.Tactic.Ring
import Mathlib.Tactic.LinearCombination
import Mathlib.Tactic.NoncommRing
import Mathlib.Tactic.Linarith
import Mathlib.Tactic.Positivity
import Mathlib.Tactic.NormNum
import Mathlib.Tactic.SplitIfs

/-! C34. -/
set_option autoImplicit false

namespace Skfolio.Prior

open Matrix

section
variable {K : Type} [Field K] [LinearOrder K] {n m : Nat}

/-- What it means for `fit` to succeed. -/
theorem posterior_eq {b : BL K n m} {r : (Fin n → K) × Matrix (Fin n) (Fin n) K} (h : posterior b = .ok r) :
    ∃ om, omega b = .ok om ∧ (aMat b om).det ≠ 0 ∧
      (r.1 = fun i => b.mu i + (vMat b *ᵥ ((aMat b om)⁻¹ *ᵥ (b.views - b.picking *ᵥ b.mu))) i + b.riskFreeRate) ∧
      r.2 = b.covariance + b.tau • b.covariance - vMat b * ((aMat b om)⁻¹ * (vMat b)ᵀ) := by
  unfold posterior at h
  cases ho : omega b with
  | error e => rw [ho] at h; cases h
  | ok om =>
    rw [ho] at h
    by_cases hd : (aMat b om).det = 0
    · simp [solve, hd, bind, Except.bind] at h
    · simp only [solve, hd, if_false, bind, Except.bind, pure, Except.pure] at h
      cases h
      refine ⟨om, rfl, hd, ?_, rfl⟩
      funext i
      simp only
      congr 2

variable [IsStrictOrderedRing K]

omit [LinearOrder K] [IsStrictOrderedRing K] in
theorem diag_quad (s : Matrix (Fin n) (Fin n) K) (p : Matrix (Fin m) (Fin n) K) (i : Fin m) : (p * s * pᵀ) i i = viewVariance s p i := by
  unfold viewVariance
  rw [Matrix.mul_assoc]
  rfl

theorem omega_eq {b : BL K n m} {om : Matrix (Fin m) (Fin m) K} (h : omega b = .ok om) :
    om = diagonal (viewUncertainty b.covariance b.picking b.tau (degree b.confidences)) ∧ (∀ i, 0 < degree b.confidences i ∧ degree b.confidences i ≤ 1) := by
  unfold omega at h
  unfold degree
  cases hc : b.confidences with
  | none =>
    rw [hc] at h
    cases h
    refine ⟨?_, fun i => ⟨by simp only; positivity, by simp only; norm_num⟩⟩
    congr 1
    funext i
    rw [Matrix.smul_mul, Matrix.smul_mul, Matrix.smul_apply, diag_quad, viewUncertainty, smul_eq_mul]
    norm_num
  | some c =>
    rw [hc] at h
    simp only at h
    by_cases hcc : (∃ i, c i < 0) ∨ ∃ i, c i > 1
    · rw [if_pos hcc] at h; cases h
    · rw [if_neg hcc] at h
      push Not at hcc
      cases h
      constructor
      · congr 1
        funext i
        have : (of fun i j => b.tau * (1 / effectiveConfidence (c i) - 1) * b.picking i j) = diagonal (fun i => b.tau * (1 / effectiveConfidence (c i) - 1)) * b.picking := by
          funext i j
          rw [Matrix.diagonal_mul]
          rfl
        rw [this, Matrix.mul_assoc, Matrix.mul_assoc, Matrix.diagonal_mul, ← Matrix.mul_assoc, diag_quad, viewUncertainty]
        rfl
      · intro i
        simp only
        split_ifs with h0
        · exact ⟨by positivity, by norm_num⟩
        · exact ⟨lt_of_le_of_ne (hcc.1 i) (Ne.symm h0), hcc.2 i⟩

omit [IsStrictOrderedRing K] in
/-- **C34.** Confidences outside [0, 1] are rejected. -/
theorem C34_confidences_checked (b : BL K n m) (c : Fin m → K) (hc : b.confidences = some c) (i : Fin m) (h : c i < 0 ∨ 1 < c i) : posterior b = .error .confidences := by
  have : omega b = .error .confidences := by
    unfold omega
    rw [hc]
    exact if_pos (h.imp (fun h => ⟨i, h⟩) (fun h => ⟨i, h⟩))
  unfold posterior
  rw [this]
  rfl

omit [LinearOrder K] [IsStrictOrderedRing K] in
theorem mulVec_add_const (p : Matrix (Fin m) (Fin n) K) (x y : Fin n → K) (f : K) :
    p *ᵥ (fun i => x i + y i + f) = p *ᵥ x + p *ᵥ y + f • (p *ᵥ fun _ => 1) := by
  have : (fun i => x i + y i + f) = x + y + f • (fun _ : Fin n => (1 : K)) := by
    funext i
    simp
  rw [this, mulVec_add, mulVec_add, mulVec_smul]

omit [LinearOrder K] [IsStrictOrderedRing K] in
/-- What the posterior says on the views: the prior mean plus `PτΣPᵀ A⁻¹ (q - P mu)`. -/
theorem views_posterior {b : BL K n m} {r : (Fin n → K) × Matrix (Fin n) (Fin n) K} {om : Matrix (Fin m) (Fin m) K}
    (hr : r.1 = fun i => b.mu i + (vMat b *ᵥ ((aMat b om)⁻¹ *ᵥ (b.views - b.picking *ᵥ b.mu))) i + b.riskFreeRate) :
    b.picking *ᵥ r.1 = b.picking *ᵥ b.mu + (b.picking * vMat b) *ᵥ ((aMat b om)⁻¹ *ᵥ (b.views - b.picking *ᵥ b.mu)) + b.riskFreeRate • (b.picking *ᵥ fun _ => 1) := by
  rw [hr, mulVec_add_const, Matrix.mulVec_mulVec]

omit [LinearOrder K] [IsStrictOrderedRing K] in
theorem a_inv {b : BL K n m} {om : Matrix (Fin m) (Fin m) K} (h : (aMat b om).det ≠ 0) : aMat b om * (aMat b om)⁻¹ = 1 ∧ (aMat b om)⁻¹ * aMat b om = 1 :=
  ⟨Matrix.mul_nonsing_inv _ (isUnit_iff_ne_zero.2 h), Matrix.nonsing_inv_mul _ (isUnit_iff_ne_zero.2 h)⟩

/-- **C34.** Views held with full confidence are satisfied exactly by the posterior expected returns (in excess of the risk-free rate, which is added to every asset at the end), and the
posterior uncertainty of the expected returns of the view portfolios is zero. -/
theorem C34_certain_views (b : BL K n m) (hs : b.covarianceᵀ = b.covariance) (hc : b.confidences = some fun _ => 1) (r : (Fin n → K) × Matrix (Fin n) (Fin n) K) (h : posterior b = .ok r) :
    (∀ i, b.picking i ⬝ᵥ r.1 = b.views i + b.riskFreeRate * ∑ j, b.picking i j) ∧ b.picking * (r.2 - b.covariance) = 0 := by
  obtain ⟨om, ho, hd, h1, h2⟩ := posterior_eq h
  have hom : om = 0 := by
    rw [(omega_eq ho).1]
    funext i j
    rw [Matrix.diagonal_apply]
    simp [viewUncertainty, degree, hc]
  subst hom
  obtain ⟨e1, -⟩ := a_inv hd
  have ha : b.picking * vMat b = aMat b 0 := by simp [aMat]
  constructor
  · intro i
    have := congrFun (views_posterior h1) i
    rw [ha, Matrix.mulVec_mulVec, e1, one_mulVec] at this
    rw [show b.picking i ⬝ᵥ r.1 = (b.picking *ᵥ r.1) i from rfl, this]
    simp only [Pi.add_apply, Pi.sub_apply, Pi.smul_apply, smul_eq_mul, mulVec, dotProduct, mul_one]
    ring
  · rw [h2, show b.covariance + b.tau • b.covariance - vMat b * ((aMat b 0)⁻¹ * (vMat b)ᵀ) - b.covariance = b.tau • b.covariance - vMat b * ((aMat b 0)⁻¹ * (vMat b)ᵀ) by abel,
      Matrix.mul_sub, ← Matrix.mul_assoc, ha, ← Matrix.mul_assoc, e1, Matrix.one_mul]
    rw [vMat, Matrix.transpose_mul, Matrix.transpose_transpose, Matrix.transpose_smul, hs, sub_self]

/-- **C34.** If the view portfolios are uncorrelated under the prior, each view moves the posterior expected return of its portfolio from the prior to the view by the fraction given by its confidence.
(The risk-free rate is added to every asset at the end.) -/
theorem C34_uncorrelated_views (b : BL K n m) (htau : 0 < b.tau) (hv : ∀ i, 0 < viewVariance b.covariance b.picking i)
    (hu : ∀ i j, i ≠ j → b.picking i ⬝ᵥ b.covariance *ᵥ b.picking j = 0)
    (r : (Fin n → K) × Matrix (Fin n) (Fin n) K) (h : posterior b = .ok r) (i : Fin m) :
    b.picking i ⬝ᵥ r.1 - b.riskFreeRate * ∑ j, b.picking i j =
      b.picking i ⬝ᵥ b.mu + degree b.confidences i * (b.views i - b.picking i ⬝ᵥ b.mu) := by
  obtain ⟨om, ho, hd, h1, h2⟩ := posterior_eq h
  obtain ⟨hom, hc⟩ := omega_eq ho
  have hpv : b.picking * vMat b = diagonal fun i => b.tau * viewVariance b.covariance b.picking i := by
    rw [vMat, Matrix.smul_mul, Matrix.mul_smul, ← Matrix.mul_assoc]
    funext i j
    rw [Matrix.smul_apply, Matrix.diagonal_apply]
    split_ifs with hij
    · rw [hij, diag_quad, smul_eq_mul]
    · have : (b.picking * b.covariance * b.pickingᵀ) i j = b.picking i ⬝ᵥ b.covariance *ᵥ b.picking j := by
        rw [Matrix.mul_assoc]; rfl
      rw [this, hu i j hij, smul_zero]
  have ha : aMat b om = diagonal fun i => b.tau * viewVariance b.covariance b.picking i / degree b.confidences i := by
    rw [aMat, hpv, hom, Matrix.diagonal_add]
    congr 1
    funext i
    have := (hc i).1.ne'
    rw [viewUncertainty]
    field_simp
    ring
  have hinv : (aMat b om)⁻¹ = diagonal fun i => degree b.confidences i / (b.tau * viewVariance b.covariance b.picking i) := by
    apply Matrix.inv_eq_left_inv
    rw [ha, Matrix.diagonal_mul_diagonal, ← Matrix.diagonal_one]
    congr 1
    funext i
    have := (hc i).1.ne'
    have := (hv i).ne'
    have := htau.ne'
    field_simp
  have := congrFun (views_posterior h1) i
  rw [hpv, hinv, Matrix.mulVec_mulVec, Matrix.diagonal_mul_diagonal] at this
  simp only [Pi.add_apply, Matrix.mulVec_diagonal, Pi.sub_apply, Pi.smul_apply, smul_eq_mul] at this
  rw [show b.picking i ⬝ᵥ r.1 = (b.picking *ᵥ r.1) i from rfl, this]
  have e1 := (hv i).ne'
  have e2 := htau.ne'
  simp only [mulVec, dotProduct, mul_one]
  field_simp
  ring

/-- **C34.** A single view held with confidence `c` moves the posterior expected return of its portfolio the fraction `c` of the way from the prior to the view. -/
theorem C34_single_view (b : BL K n 1) (c : K) (hb : b.confidences = some fun _ => c) (hc : c ≠ 0) (hrf : b.riskFreeRate = 0) (htau : 0 < b.tau)
    (hv : 0 < viewVariance b.covariance b.picking 0) (r : (Fin n → K) × Matrix (Fin n) (Fin n) K) (h : posterior b = .ok r) :
    b.picking 0 ⬝ᵥ r.1 = (1 - c) * (b.picking 0 ⬝ᵥ b.mu) + c * b.views 0 := by
  have := C34_uncorrelated_views b htau (fun i => by rw [Subsingleton.elim i 0]; exact hv) (fun i j hij => absurd (Subsingleton.elim i j) hij) r h 0
  rw [hrf, hb] at this
  simp only [degree, hc, if_false] at this
  linear_combination this

omit [LinearOrder K] [IsStrictOrderedRing K] in
theorem dot_symm {s : Matrix (Fin n) (Fin n) K} (hs : sᵀ = s) (x y : Fin n → K) : x ⬝ᵥ s *ᵥ y = y ⬝ᵥ s *ᵥ x := by
  rw [dotProduct_mulVec, ← mulVec_transpose, hs, dotProduct_comm]

/-- Key identity: with `y = A⁻¹ Vᵀ x`, `x τΣ x - x V A⁻¹ Vᵀ x = (x - Pᵀy) τΣ (x - Pᵀy) + Σ w y²`. -/
theorem schur {b : BL K n m} {w : Fin m → K} (hs : b.covarianceᵀ = b.covariance) (hd : (aMat b (diagonal w)).det ≠ 0) (x : Fin n → K) :
    ∃ y : Fin m → K, x ⬝ᵥ (vMat b * ((aMat b (diagonal w))⁻¹ * (vMat b)ᵀ)) *ᵥ x = y ⬝ᵥ (aMat b (diagonal w)) *ᵥ y ∧
      x ⬝ᵥ (b.tau • b.covariance) *ᵥ x - y ⬝ᵥ (aMat b (diagonal w)) *ᵥ y =
        b.tau * ((x - b.pickingᵀ *ᵥ y) ⬝ᵥ b.covariance *ᵥ (x - b.pickingᵀ *ᵥ y)) + ∑ i, w i * y i ^ 2 := by
  obtain ⟨e1, e2⟩ := a_inv hd
  obtain ⟨A, hA⟩ : ∃ A, A = aMat b (diagonal w) := ⟨_, rfl⟩
  rw [← hA] at e1 e2 ⊢
  refine ⟨A⁻¹ *ᵥ ((vMat b)ᵀ *ᵥ x), ?_, ?_⟩
  · have : A *ᵥ (A⁻¹ *ᵥ ((vMat b)ᵀ *ᵥ x)) = (vMat b)ᵀ *ᵥ x := by rw [Matrix.mulVec_mulVec, e1, one_mulVec]
    rw [this, ← Matrix.mulVec_mulVec, ← Matrix.mulVec_mulVec, dotProduct_mulVec, ← mulVec_transpose, dotProduct_comm]
  · obtain ⟨y, hy⟩ : ∃ y, y = A⁻¹ *ᵥ ((vMat b)ᵀ *ᵥ x) := ⟨_, rfl⟩
    rw [← hy]
    have hAy : A *ᵥ y = (vMat b)ᵀ *ᵥ x := by rw [hy, Matrix.mulVec_mulVec, e1, one_mulVec]
    have k1 : y ⬝ᵥ A *ᵥ y = b.tau * (x ⬝ᵥ b.covariance *ᵥ (b.pickingᵀ *ᵥ y)) := by
      rw [hAy, vMat, Matrix.transpose_mul, Matrix.transpose_transpose, Matrix.transpose_smul, hs, ← Matrix.mulVec_mulVec, smul_mulVec, mulVec_smul, dotProduct_smul, smul_eq_mul,
        dotProduct_mulVec, ← mulVec_transpose, dot_symm hs x]
    have k2 : y ⬝ᵥ A *ᵥ y = b.tau * ((b.pickingᵀ *ᵥ y) ⬝ᵥ b.covariance *ᵥ (b.pickingᵀ *ᵥ y)) + ∑ i, w i * y i ^ 2 := by
      rw [hA, aMat, add_mulVec, dotProduct_add, vMat, Matrix.smul_mul, Matrix.mul_smul, smul_mulVec, dotProduct_smul, smul_eq_mul, ← Matrix.mulVec_mulVec, ← Matrix.mulVec_mulVec,
        dotProduct_mulVec, ← mulVec_transpose]
      congr 1
      simp only [dotProduct, mulVec_diagonal]
      exact Finset.sum_congr rfl fun i _ => by ring
    rw [smul_mulVec, dotProduct_smul, smul_eq_mul, mulVec_sub, sub_dotProduct, dotProduct_sub, dotProduct_sub, dot_symm hs (b.pickingᵀ *ᵥ y) x]
    linear_combination k2 - 2 * k1

theorem uncertainty_nonneg {b : BL K n m} {om : Matrix (Fin m) (Fin m) K} (ho : omega b = .ok om) (htau : 0 ≤ b.tau) (hs : SymPSD b.covariance) (i : Fin m) :
    0 ≤ viewUncertainty b.covariance b.picking b.tau (degree b.confidences) i := by
  obtain ⟨c0, c1⟩ := (omega_eq ho).2 i
  unfold viewUncertainty
  have : 1 ≤ 1 / degree b.confidences i := (one_le_div c0).2 c1
  exact mul_nonneg (mul_nonneg htau (by linarith)) (hs.2 _)

/-- **C34.** The posterior covariance is symmetric positive semidefinite; it is at least the prior covariance, and at most the covariance before the views, `(1 + tau)` times the prior covariance. -/
theorem C34_posterior_covariance (b : BL K n m) (htau : 0 ≤ b.tau) (hs : SymPSD b.covariance) (r : (Fin n → K) × Matrix (Fin n) (Fin n) K) (h : posterior b = .ok r) :
    SymPSD r.2 ∧ SymPSD (r.2 - b.covariance) ∧ SymPSD ((1 + b.tau) • b.covariance - r.2) := by
  obtain ⟨om, ho, hd, h1, h2⟩ := posterior_eq h
  have hom := (omega_eq ho).1
  have hw := uncertainty_nonneg ho htau hs
  rw [hom] at hd h2
  clear h1 hom
  obtain ⟨w, hwe⟩ : ∃ w, w = viewUncertainty b.covariance b.picking b.tau (degree b.confidences) := ⟨_, rfl⟩
  rw [← hwe] at hd h2 hw
  have hAT : (aMat b (diagonal w))ᵀ = aMat b (diagonal w) := by
    rw [aMat, vMat, Matrix.transpose_add, Matrix.diagonal_transpose, Matrix.transpose_mul, Matrix.transpose_mul, Matrix.transpose_smul, hs.1, Matrix.transpose_transpose, Matrix.mul_assoc]
  have hT : (vMat b * ((aMat b (diagonal w))⁻¹ * (vMat b)ᵀ))ᵀ = vMat b * ((aMat b (diagonal w))⁻¹ * (vMat b)ᵀ) := by
    rw [Matrix.transpose_mul, Matrix.transpose_mul, Matrix.transpose_transpose, Matrix.transpose_nonsing_inv, hAT, Matrix.mul_assoc]
  have hpos : ∀ x, 0 ≤ x ⬝ᵥ (b.tau • b.covariance - vMat b * ((aMat b (diagonal w))⁻¹ * (vMat b)ᵀ)) *ᵥ x := by
    intro x
    obtain ⟨y, e1, e2⟩ := schur hs.1 hd x
    rw [sub_mulVec, dotProduct_sub, e1, e2]
    have := hs.2 (x - b.pickingᵀ *ᵥ y)
    have h2 : 0 ≤ ∑ i, w i * y i ^ 2 := Finset.sum_nonneg fun i _ => mul_nonneg (hw i) (sq_nonneg _)
    nlinarith [mul_nonneg htau this]
  have hpos2 : ∀ x, 0 ≤ x ⬝ᵥ (vMat b * ((aMat b (diagonal w))⁻¹ * (vMat b)ᵀ)) *ᵥ x := by
    intro x
    obtain ⟨y, e1, e2⟩ := schur hs.1 hd x
    rw [e1, aMat, add_mulVec, dotProduct_add, vMat, Matrix.smul_mul, Matrix.mul_smul, smul_mulVec, dotProduct_smul, smul_eq_mul, ← Matrix.mulVec_mulVec, ← Matrix.mulVec_mulVec,
        dotProduct_mulVec, ← mulVec_transpose]
    refine add_nonneg (mul_nonneg htau (hs.2 _)) ?_
    simp only [dotProduct, mulVec_diagonal]
    exact Finset.sum_nonneg fun i _ => by nlinarith [mul_nonneg (hw i) (sq_nonneg (y i))]
  have d1 : r.2 - b.covariance = b.tau • b.covariance - vMat b * ((aMat b (diagonal w))⁻¹ * (vMat b)ᵀ) := by rw [h2]; abel
  have d2 : (1 + b.tau) • b.covariance - r.2 = vMat b * ((aMat b (diagonal w))⁻¹ * (vMat b)ᵀ) := by rw [h2, add_smul, one_smul]; abel
  have p1 : SymPSD (r.2 - b.covariance) := by
    rw [d1]
    exact ⟨by rw [Matrix.transpose_sub, hT, Matrix.transpose_smul, hs.1], hpos⟩
  refine ⟨?_, p1, ?_⟩
  · have : r.2 = b.covariance + (r.2 - b.covariance) := by abel
    rw [this]
    refine ⟨by rw [Matrix.transpose_add, hs.1, p1.1], fun x => ?_⟩
    rw [add_mulVec, dotProduct_add]
    exact add_nonneg (hs.2 x) (p1.2 x)
  · rw [d2]
    exact ⟨hT, hpos2⟩

/-- **C34.** `fit` cannot fail on the linear system if no view is held with full confidence and every view portfolio has positive variance. -/
theorem C34_defined (b : BL K n m) (htau : 0 < b.tau) (hs : SymPSD b.covariance) (hv : ∀ i, 0 < viewVariance b.covariance b.picking i)
    (hc : ∀ c, b.confidences = some c → ∀ i, 0 ≤ c i ∧ c i < 1) : ∃ r, posterior b = .ok r := by
  obtain ⟨om, ho⟩ : ∃ om, omega b = .ok om := by
    unfold omega
    cases hb : b.confidences with
    | none => exact ⟨_, rfl⟩
    | some c =>
      refine ⟨_, if_neg ?_⟩
      push Not
      exact ⟨fun i => (hc c hb i).1, fun i => (hc c hb i).2.le⟩
  have hlt : ∀ i, degree b.confidences i < 1 := by
    intro i
    unfold degree
    cases hb : b.confidences with
    | none => simp only; norm_num
    | some c =>
      simp only
      split_ifs
      · norm_num
      · exact (hc c hb i).2
  obtain ⟨hom, hc⟩ := omega_eq ho
  have hd : (aMat b om).det ≠ 0 := by
    intro h0
    obtain ⟨y, hy, hy0⟩ := Matrix.exists_mulVec_eq_zero_iff.2 h0
    have : y ⬝ᵥ aMat b om *ᵥ y = 0 := by rw [hy0, dotProduct_zero]
    rw [aMat, add_mulVec, dotProduct_add, vMat, Matrix.smul_mul, Matrix.mul_smul, smul_mulVec, dotProduct_smul, smul_eq_mul, ← Matrix.mulVec_mulVec, ← Matrix.mulVec_mulVec,
        dotProduct_mulVec, ← mulVec_transpose, hom] at this
    have h1 := mul_nonneg htau.le (hs.2 (b.pickingᵀ *ᵥ y))
    simp only [dotProduct, mulVec_diagonal] at this h1
    have hpos : ∀ i, 0 < viewUncertainty b.covariance b.picking b.tau (degree b.confidences) i := by
      intro i
      have : 1 < 1 / degree b.confidences i := (one_lt_div (hc i).1).2 (hlt i)
      exact mul_pos (mul_pos htau (by linarith)) (hv i)
    have h2 : ∀ i ∈ Finset.univ, 0 ≤ y i * (viewUncertainty b.covariance b.picking b.tau (degree b.confidences) i * y i) :=
      fun i _ => by nlinarith [mul_nonneg (hpos i).le (sq_nonneg (y i))]
    have h3 := Finset.sum_nonneg h2
    have h4 := (Finset.sum_eq_zero_iff_of_nonneg h2).1 (by linarith)
    apply hy
    funext i
    have := h4 i (Finset.mem_univ i)
    rcases mul_eq_zero.1 this with h | h
    · exact h
    · exact (mul_eq_zero.1 h).resolve_left (hpos i).ne'
  unfold posterior
  rw [ho]
  simp only [solve, hd, if_false, bind, Except.bind, pure, Except.pure]
  exact ⟨_, rfl⟩

/-- **C34.** For an invertible prior covariance and no fully certain view, the posterior is that of Bayes: the precision of the expected returns is the sum of that of the prior, `(τΣ)⁻¹`, and that of
the views, the mean is the precision-weighted mean (plus the risk-free rate), and the posterior covariance is the prior covariance plus the remaining uncertainty of the expected returns. -/
theorem C34_bayes (b : BL K n m) (htau : 0 < b.tau) (hdet : b.covariance.det ≠ 0) (hsym : b.covarianceᵀ = b.covariance) (hv : ∀ i, 0 < viewVariance b.covariance b.picking i)
    (hc : ∀ i, degree b.confidences i < 1) (r : (Fin n → K) × Matrix (Fin n) (Fin n) K) (h : posterior b = .ok r) :
    BayesUpdate b.mu (b.tau • b.covariance) b.picking b.views (viewUncertainty b.covariance b.picking b.tau (degree b.confidences))
      (fun i => r.1 i - b.riskFreeRate) (r.2 - b.covariance) := by
  obtain ⟨om, ho, hd, h1, h2⟩ := posterior_eq h
  obtain ⟨hom, hc0⟩ := omega_eq ho
  have hpos : ∀ i, 0 < viewUncertainty b.covariance b.picking b.tau (degree b.confidences) i := by
    intro i
    have : 1 < 1 / degree b.confidences i := (one_lt_div (hc0 i).1).2 (hc i)
    exact mul_pos (mul_pos htau (by linarith)) (hv i)
  have hO : om * om⁻¹ = 1 ∧ om⁻¹ * om = 1 := by
    have : IsUnit om.det := by
      rw [hom, Matrix.det_diagonal]
      exact isUnit_iff_ne_zero.2 (Finset.prod_ne_zero_iff.2 fun i _ => (hpos i).ne')
    exact ⟨Matrix.mul_nonsing_inv _ this, Matrix.nonsing_inv_mul _ this⟩
  obtain ⟨S, hS⟩ : ∃ S, S = b.tau • b.covariance := ⟨_, rfl⟩
  have hSS : S * S⁻¹ = 1 ∧ S⁻¹ * S = 1 := by
    have : IsUnit S.det := by
      rw [hS, Matrix.det_smul]
      exact isUnit_iff_ne_zero.2 (mul_ne_zero (pow_ne_zero _ htau.ne') hdet)
    exact ⟨Matrix.mul_nonsing_inv _ this, Matrix.nonsing_inv_mul _ this⟩
  have hST : Sᵀ = S := by rw [hS, Matrix.transpose_smul, hsym]
  have hvm : vMat b = S * b.pickingᵀ := by rw [vMat, hS]
  have hvT : (vMat b)ᵀ = b.picking * S := by rw [hvm, Matrix.transpose_mul, Matrix.transpose_transpose, hST]
  obtain ⟨A, hA⟩ : ∃ A, A = aMat b om := ⟨_, rfl⟩
  obtain ⟨a1, a2⟩ := a_inv hd
  rw [← hA] at a1 a2 h1 h2
  have hPSP : b.picking * S * b.pickingᵀ = A - om := by rw [hA, aMat, hvm, Matrix.mul_assoc]; abel
  unfold BayesUpdate
  rw [← hom, ← hS]
  have d1 : r.2 - b.covariance = S - S * b.pickingᵀ * A⁻¹ * b.picking * S := by
    rw [h2, hvT, hvm, ← hS]
    simp only [Matrix.mul_assoc]
    abel
  constructor
  · rw [d1, Matrix.sub_mul, Matrix.mul_add, Matrix.mul_add, hSS.1]
    have k1 : S * b.pickingᵀ * A⁻¹ * b.picking * S * S⁻¹ = S * b.pickingᵀ * A⁻¹ * b.picking := by rw [Matrix.mul_assoc, hSS.1, Matrix.mul_one]
    have k2 : S * b.pickingᵀ * A⁻¹ * b.picking * S * (b.pickingᵀ * om⁻¹ * b.picking) = S * b.pickingᵀ * om⁻¹ * b.picking - S * b.pickingᵀ * A⁻¹ * b.picking := by
      calc _ = S * b.pickingᵀ * A⁻¹ * (b.picking * S * b.pickingᵀ) * om⁻¹ * b.picking := by simp only [Matrix.mul_assoc]
        _ = S * b.pickingᵀ * (A⁻¹ * A) * om⁻¹ * b.picking - S * b.pickingᵀ * A⁻¹ * (om * om⁻¹) * b.picking := by
          rw [hPSP, Matrix.mul_sub, Matrix.sub_mul, Matrix.sub_mul]
          simp only [Matrix.mul_assoc]
        _ = _ := by rw [a2, hO.1, Matrix.mul_one, Matrix.mul_one]
    rw [k1, k2]
    simp only [Matrix.mul_assoc]
    abel
  · have e : (fun i => r.1 i - b.riskFreeRate) = b.mu + (S * b.pickingᵀ * A⁻¹) *ᵥ (b.views - b.picking *ᵥ b.mu) := by
      rw [h1]
      funext i
      rw [hvm, Matrix.mulVec_mulVec]
      simp
    have k : (S⁻¹ + b.pickingᵀ * om⁻¹ * b.picking) * (S * b.pickingᵀ * A⁻¹) = b.pickingᵀ * om⁻¹ := by
      have e1 : S⁻¹ * (S * b.pickingᵀ * A⁻¹) = b.pickingᵀ * A⁻¹ := by
        rw [← Matrix.mul_assoc, ← Matrix.mul_assoc, hSS.2, Matrix.one_mul]
      have e2 : b.pickingᵀ * om⁻¹ * b.picking * (S * b.pickingᵀ * A⁻¹) = b.pickingᵀ * om⁻¹ - b.pickingᵀ * A⁻¹ := by
        calc _ = b.pickingᵀ * om⁻¹ * (b.picking * S * b.pickingᵀ) * A⁻¹ := by simp only [Matrix.mul_assoc]
          _ = b.pickingᵀ * om⁻¹ * (A * A⁻¹) - b.pickingᵀ * (om⁻¹ * om) * A⁻¹ := by
            rw [hPSP, Matrix.mul_sub, Matrix.sub_mul]
            simp only [Matrix.mul_assoc]
          _ = _ := by rw [a1, hO.2, Matrix.mul_one, Matrix.mul_one]
      rw [Matrix.add_mul, e1, e2]
      abel
    rw [e, mulVec_add, Matrix.mulVec_mulVec, k, add_mulVec, mulVec_sub, Matrix.mulVec_mulVec, Matrix.mulVec_mulVec]
    abel

end

/-! A concrete case: two assets with prior covariance `!![2, 1; 1, 2]` and the view that the first one returns 3, held with confidence 1/4. -/
def sample : BL ℚ 2 1 :=
  { mu := ![1, 2], covariance := !![2, 1; 1, 2], picking := !![1, 0], views := ![3], tau := 1 / 2, riskFreeRate := 0, confidences := some fun _ => 1 / 4 }

theorem sample_psd : SymPSD sample.covariance := by
  refine ⟨by decide +kernel, fun x => ?_⟩
  have : x ⬝ᵥ sample.covariance *ᵥ x = x 0 ^ 2 + x 1 ^ 2 + (x 0 + x 1) ^ 2 := by
    simp [sample, dotProduct, mulVec, Fin.sum_univ_two]
    ring
  rw [this]
  positivity

theorem sample_variance : ∀ i, 0 < viewVariance sample.covariance sample.picking i := by decide +kernel

/-- The hypotheses of `C34_defined`, `C34_uncorrelated_views`, `C34_single_view`, `C34_posterior_covariance` and `C34_bayes` hold; the expected return of the first asset moves from 1 to 3/2. -/
example : ∃ r, posterior sample = .ok r ∧ r.1 0 = 3 / 2 ∧ SymPSD r.2 ∧
    BayesUpdate sample.mu (sample.tau • sample.covariance) sample.picking sample.views (viewUncertainty sample.covariance sample.picking sample.tau fun _ => 1 / 4)
      (fun i => r.1 i - 0) (r.2 - sample.covariance) := by
  obtain ⟨r, hr⟩ := C34_defined sample (by norm_num [sample]) sample_psd sample_variance
    (by intro c hc i; cases Option.some.inj hc; norm_num)
  refine ⟨r, hr, ?_, (C34_posterior_covariance sample (by norm_num [sample]) sample_psd r hr).1, ?_⟩
  · have := C34_single_view sample (1 / 4) rfl (by norm_num) rfl (by norm_num [sample]) (sample_variance 0) r hr
    simp [sample, dotProduct, Fin.sum_univ_two] at this
    rw [this]
    norm_num
  · have := C34_bayes sample (by norm_num [sample]) (by rw [show sample.covariance = !![2, 1; 1, 2] from rfl, Matrix.det_fin_two]; norm_num) sample_psd.1 sample_variance
      (fun i => by simp [degree, sample]; norm_num) r hr
    have hdeg : degree sample.confidences = fun _ => 1 / 4 := by funext i; simp [degree, sample]
    rw [hdeg] at this
    exact this

/-- A view held with certainty (`C34_certain_views`): `fit` succeeds. -/
example : ∃ r, posterior { sample with confidences := some fun _ => 1 } = .ok r := by
  have hd : (aMat { sample with confidences := some fun _ => 1 } (0 : Matrix (Fin 1) (Fin 1) ℚ)).det ≠ 0 := by
    rw [Matrix.det_fin_one]
    decide +kernel
  have ho : omega { sample with confidences := some fun _ => 1 } = .ok (0 : Matrix (Fin 1) (Fin 1) ℚ) := by
    unfold omega
    simp only
    rw [if_neg (by simp)]
    congr 1
    funext i j
    rw [Matrix.diagonal_apply]
    simp [effectiveConfidence, Matrix.mul_apply]
  unfold posterior
  rw [ho]
  simp only [solve, hd, if_false, bind, Except.bind, pure, Except.pure]
  exact ⟨_, rfl⟩

/-- Finding: the array passed by the user as `view_confidences` is changed by `fit` when a confidence is zero. -/
theorem C34_confidences_overwritten : confidencesAfterFit { sample with confidences := some fun _ => 0 } ≠ some fun _ => 0 := by
  intro h
  have := congrFun (Option.some.inj h) 0
  simp [effectiveConfidence] at this

/-- Finding: the risk-free rate is added to the posterior expected returns, so an absolute view held with certainty is missed by the risk-free rate. -/
theorem C34_risk_free_shift {n : Nat} (b : BL ℚ n 1) (hs : b.covarianceᵀ = b.covariance) (hc : b.confidences = some fun _ => 1) (j : Fin n) (hp : ∀ k, b.picking 0 k = if k = j then 1 else 0)
    (hrf : b.riskFreeRate ≠ 0) (r : (Fin n → ℚ) × Matrix (Fin n) (Fin n) ℚ) (h : posterior b = .ok r) : r.1 j = b.views 0 + b.riskFreeRate ∧ r.1 j ≠ b.views 0 := by
  have := (C34_certain_views b hs hc r h).1 0
  simp only [dotProduct, hp, ite_mul, one_mul, zero_mul, Finset.sum_ite_eq', Finset.mem_univ, if_true, mul_one] at this
  exact ⟨this, by rw [this]; simpa using hrf⟩

end Skfolio.Prior
