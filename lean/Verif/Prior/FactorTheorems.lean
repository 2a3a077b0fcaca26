import Verif.Prior.FactorModel
import Verif.Moments.CorrTheorems

/-! C36. -/
set_option autoImplicit false

namespace Skfolio.Prior

open Matrix Skfolio.Moments

variable {n k T S : Nat}

/-- The covariance of the returns explained by the factors, plus the variance of the residuals for each asset: the specification. -/
noncomputable def explained (residual : Bool) (f : FactorInput n k T S) (i j : Fin n) : ℝ :=
  (∑ a, ∑ b, f.loading i a * f.factorCov a b * f.loading j b) +
    if residual = true ∧ i = j then
      (∑ t, ((f.x t i - (∑ a, f.loading i a * f.y t a + f.intercepts i)) - (∑ s, (f.x s i - (∑ a, f.loading i a * f.y s a + f.intercepts i))) / T) ^ 2) / (T - 1)
    else 0

theorem residualVar_eq (f : FactorInput n k T S) (i : Fin n) :
    residualVar f i = (∑ t, ((f.x t i - (∑ a, f.loading i a * f.y t a + f.intercepts i)) - (∑ s, (f.x s i - (∑ a, f.loading i a * f.y s a + f.intercepts i))) / T) ^ 2) / (T - 1) := by
  have : ∀ t, (f.y * f.loadingᵀ) t i = ∑ a, f.loading i a * f.y t a := by
    intro t
    rw [Matrix.mul_apply]
    exact Finset.sum_congr rfl fun a _ => by rw [Matrix.transpose_apply]; ring
  simp only [residualVar, this]

theorem rawCovariance_eq (residual : Bool) (f : FactorInput n k T S) (i j : Fin n) : rawCovariance residual f i j = explained residual f i j := by
  have e : (f.loading * f.factorCov * f.loadingᵀ) i j = ∑ a, ∑ b, f.loading i a * f.factorCov a b * f.loading j b := by
    simp only [Matrix.mul_apply, Matrix.transpose_apply, Finset.sum_mul]
    rw [Finset.sum_comm]
  cases residual with
  | false => simp [rawCovariance, explained, e]
  | true =>
    simp only [rawCovariance, explained, if_true, Matrix.add_apply, e, Matrix.diagonal_apply, true_and]
    by_cases h : i = j
    · rw [if_pos h, if_pos h, residualVar_eq]
    · rw [if_neg h, if_neg h]

theorem residualVar_nonneg (hT : 2 ≤ T) (f : FactorInput n k T S) (i : Fin n) : 0 ≤ residualVar f i := by
  have : (2 : ℝ) ≤ T := by exact_mod_cast hT
  unfold residualVar
  exact div_nonneg (Finset.sum_nonneg fun t _ => sq_nonneg _) (by linarith)

/-- **C36.** The estimated covariance is positive semidefinite whenever the factor covariance is. -/
theorem C36_psd (residual : Bool) (f : FactorInput n k T S) (hT : 2 ≤ T) (hF : PSD f.factorCov) : PSD (explained residual f) := by
  have e : explained residual f = rawCovariance residual f := funext fun i => funext fun j => (rawCovariance_eq residual f i j).symm
  rw [e]
  have h0 : PSD (f.loading * f.factorCov * f.loadingᵀ) := by
    have hT : (f.loading * f.factorCov * f.loadingᵀ)ᵀ = f.loading * f.factorCov * f.loadingᵀ := by
      have : f.factorCovᵀ = f.factorCov := by
        funext i j
        exact hF.1 j i
      rw [Matrix.transpose_mul, Matrix.transpose_mul, Matrix.transpose_transpose, this, Matrix.mul_assoc]
    refine ⟨fun i j => (congrFun (congrFun hT j) i), fun x => ?_⟩
    have q : ∀ {m : Nat} (s : Matrix (Fin m) (Fin m) ℝ) (x : Fin m → ℝ), ∑ i, ∑ j, x i * s i j * x j = x ⬝ᵥ s *ᵥ x := by
      intro m s x
      simp only [dotProduct, mulVec, Finset.mul_sum, mul_assoc]
    have := hF.2 (f.loadingᵀ *ᵥ x)
    rw [q] at this ⊢
    rw [← Matrix.mulVec_mulVec, ← Matrix.mulVec_mulVec, dotProduct_mulVec, ← mulVec_transpose]
    exact this
  cases residual with
  | false => simpa [rawCovariance] using h0
  | true =>
    refine ⟨fun i j => ?_, fun x => ?_⟩
    · simp only [rawCovariance, if_true, Matrix.add_apply]
      rw [h0.1 i j, Matrix.diagonal_apply, Matrix.diagonal_apply]
      by_cases h : i = j
      · rw [h]
      · rw [if_neg h, if_neg (Ne.symm h)]
    · simp only [rawCovariance, if_true, Matrix.add_apply, mul_add, add_mul, Finset.sum_add_distrib]
      refine add_nonneg (h0.2 x) (Finset.sum_nonneg fun i _ => Finset.sum_nonneg fun j _ => ?_)
      rw [Matrix.diagonal_apply]
      by_cases h : i = j
      · rw [if_pos h, ← h]
        nlinarith [mul_nonneg (residualVar_nonneg hT f i) (sq_nonneg (x i))]
      · rw [if_neg h]
        simp

/-- **C36.** The returned factor `cholesky` times its transpose is the explained covariance plus the residual variances; if that is positive definite it is also the returned covariance.
In any case the returned covariance is positive definite with these variances. -/
theorem C36_covariance {isPD : Matrix (Fin n) (Fin n) ℝ → Bool} {eigh : Matrix (Fin n) (Fin n) ℝ → (Fin n → ℝ) × Matrix (Fin n) (Fin n) ℝ} (hnum : Numerics isPD eigh) (higham : Bool) (maxIter : Nat)
    (chol : Matrix (Fin k) (Fin k) ℝ → Option (Matrix (Fin k) (Fin k) ℝ)) (hchol : ∀ s l, chol s = some l → l * lᵀ = s)
    (residual : Bool) (f : FactorInput n k T S) (hT : 2 ≤ T) (hpos : ∀ i, 0 < explained residual f i i)
    (p : FactorPrior n k S) (h : factorFit chol (covNearest isPD eigh higham maxIter) residual f = .ok p) :
    (∀ i j, ∑ c, p.cholesky i c * p.cholesky j c = explained residual f i j) ∧
    (PD (explained residual f) → p.covariance = explained residual f) ∧
    PD p.covariance ∧ ∀ i, p.covariance i i = explained residual f i i := by
  have e : explained residual f = rawCovariance residual f := funext fun i => funext fun j => (rawCovariance_eq residual f i j).symm
  unfold factorFit at h
  cases hc : chol f.factorCov with
  | none => rw [hc] at h; cases h
  | some l =>
    rw [hc] at h
    simp only at h
    cases hn : covNearest isPD eigh higham maxIter (rawCovariance residual f) with
    | error x => rw [hn] at h; cases h
    | ok cov =>
      rw [hn] at h
      simp only at h
      cases h
      have hpos' : ∀ i, 0 < rawCovariance residual f i i := fun i => by rw [rawCovariance_eq]; exact hpos i
      obtain ⟨n1, n2, -, -⟩ := C50_nearest hnum higham maxIter (rawCovariance residual f) hpos'
      refine ⟨fun i j => ?_, fun hpd => ?_, (n1 cov hn).1, fun i => ?_⟩
      · rw [Fintype.sum_sum_type, ← rawCovariance_eq]
        simp only
        have h1 : ∑ a, (f.loading * l) i a * (f.loading * l) j a = (f.loading * f.factorCov * f.loadingᵀ) i j := by
          rw [← hchol _ _ hc, show f.loading * (l * lᵀ) * f.loadingᵀ = (f.loading * l) * (f.loading * l)ᵀ by rw [Matrix.transpose_mul]; simp only [Matrix.mul_assoc]]
          rw [Matrix.mul_apply]
          rfl
        rw [h1]
        cases residual with
        | false => simp [rawCovariance]
        | true =>
          simp only [if_true, rawCovariance, Matrix.add_apply]
          congr 1
          simp only [Matrix.diagonal_apply]
          by_cases hij : i = j
          · subst hij
            rw [if_pos rfl, Finset.sum_eq_single i]
            · rw [if_pos rfl, Real.mul_self_sqrt (residualVar_nonneg hT f i)]
            · intro b _ hb
              rw [if_neg (Ne.symm hb), Real.sqrt_zero, zero_mul]
            · intro hb
              exact absurd (Finset.mem_univ i) hb
          · rw [if_neg hij]
            apply Finset.sum_eq_zero
            intro b _
            by_cases h1 : i = b
            · rw [if_neg (show ¬ j = b from fun h2 => hij (h1.trans h2.symm)), Real.sqrt_zero, mul_zero]
            · rw [if_neg h1, Real.sqrt_zero, zero_mul]
      · rw [e] at hpd ⊢
        have := n2 hpd
        rw [hn] at this
        exact Except.ok.inj this
      · exact ((n1 cov hn).2 i).trans (rawCovariance_eq residual f i i)

/-- **C36.** The reported means and the reconstructed returns are those implied by the factors; if the factor mean is the mean of the factor returns, the reported mean is the mean of the reconstructed returns. -/
theorem C36_mean (chol : Matrix (Fin k) (Fin k) ℝ → Option (Matrix (Fin k) (Fin k) ℝ)) (nearest : Matrix (Fin n) (Fin n) ℝ → Except MomentErr (Matrix (Fin n) (Fin n) ℝ))
    (residual : Bool) (f : FactorInput n k T S) (hS : 0 < S) (p : FactorPrior n k S) (h : factorFit chol nearest residual f = .ok p) :
    (∀ i, p.mu i = ∑ a, f.loading i a * f.factorMu a + f.intercepts i) ∧
    (∀ t i, p.returns t i = ∑ a, f.loading i a * f.factorReturns t a + f.intercepts i) ∧
    ((∀ a, f.factorMu a = (∑ t, f.factorReturns t a) / S) → ∀ i, p.mu i = (∑ t, p.returns t i) / S) := by
  unfold factorFit at h
  cases hc : chol f.factorCov with
  | none => rw [hc] at h; cases h
  | some l =>
    rw [hc] at h
    simp only at h
    cases hn : nearest (rawCovariance residual f) with
    | error x => rw [hn] at h; cases h
    | ok cov =>
      rw [hn] at h
      simp only at h
      cases h
      have h1 : ∀ i, (f.loading *ᵥ f.factorMu + f.intercepts) i = ∑ a, f.loading i a * f.factorMu a + f.intercepts i := fun i => rfl
      have h2 : ∀ t i, (f.factorReturns * f.loadingᵀ) t i + f.intercepts i = ∑ a, f.loading i a * f.factorReturns t a + f.intercepts i := by
        intro t i
        rw [Matrix.mul_apply]
        congr 1
        exact Finset.sum_congr rfl fun a _ => by rw [Matrix.transpose_apply]; ring
      refine ⟨h1, h2, fun hm i => ?_⟩
      have hS' : (S : ℝ) ≠ 0 := by exact_mod_cast hS.ne'
      simp only [h1, h2, hm]
      rw [Finset.sum_add_distrib, Finset.sum_comm, add_div, Finset.sum_const, Finset.card_univ, Fintype.card_fin, nsmul_eq_mul, mul_div_cancel_left₀ _ hS', Finset.sum_div]
      congr 1
      exact Finset.sum_congr rfl fun a _ => by rw [← Finset.mul_sum, mul_div_assoc]

/-- Two assets driven by one factor, without residual variances. -/
def oneFactor : FactorInput 2 1 2 2 :=
  { loading := !![1; 1], intercepts := ![0, 0], factorMu := ![0], factorCov := !![1], factorReturns := !![1; -1], x := !![1, 1; -1, -1], y := !![1; -1] }

theorem oneFactor_explained (i j : Fin 2) : explained false oneFactor i j = 1 := by
  fin_cases i <;> fin_cases j <;> simp [explained, oneFactor]

/-- Finding: when the explained covariance is singular — as with fewer factors than assets and `residual_variance=False` — the returned covariance is not the product of the returned Cholesky
factor with its transpose, because only the covariance is made positive definite. -/
theorem C36_cholesky_mismatch {isPD : Matrix (Fin 2) (Fin 2) ℝ → Bool} {eigh : Matrix (Fin 2) (Fin 2) ℝ → (Fin 2 → ℝ) × Matrix (Fin 2) (Fin 2) ℝ} (hnum : Numerics isPD eigh) (higham : Bool) (maxIter : Nat)
    (chol : Matrix (Fin 1) (Fin 1) ℝ → Option (Matrix (Fin 1) (Fin 1) ℝ)) (hchol : ∀ s l, chol s = some l → l * lᵀ = s)
    (p : FactorPrior 2 1 2) (h : factorFit chol (covNearest isPD eigh higham maxIter) false oneFactor = .ok p) :
    ¬ ∀ i j, ∑ c, p.cholesky i c * p.cholesky j c = p.covariance i j := by
  obtain ⟨h1, -, h3, -⟩ := C36_covariance hnum higham maxIter chol hchol false oneFactor (le_refl 2) (fun i => by rw [oneFactor_explained]; norm_num) p h
  intro hc
  have h4 : ∀ i j, p.covariance i j = 1 := fun i j => by rw [← hc, h1, oneFactor_explained]
  have := h3.2 ![1, -1] (fun h => by simpa using congrFun h 0)
  simp [Fin.sum_univ_two, h4] at this

/-- `fit` succeeds on this input. -/
example : ∃ isPD eigh chol p, Numerics (n := 2) isPD eigh ∧ (∀ (s l : Matrix (Fin 1) (Fin 1) ℝ), chol s = some l → l * lᵀ = s) ∧
    factorFit chol (covNearest isPD eigh false 100) false oneFactor = .ok p := by
  classical
  obtain ⟨isPD, eigh, hnum⟩ := numerics_exist (n := 2)
  obtain ⟨r, hr⟩ := (C50_nearest hnum false 100 (rawCovariance false oneFactor) (fun i => by rw [rawCovariance_eq, oneFactor_explained]; norm_num)).2.2.2
    (fun i j => by rw [rawCovariance_eq, rawCovariance_eq, oneFactor_explained, oneFactor_explained]) rfl
  have hm : ∃ p, factorFit (fun s => if s = 1 then some 1 else none) (covNearest isPD eigh false 100) false oneFactor = .ok p := by
    unfold factorFit
    rw [show oneFactor.factorCov = 1 by ext i j; fin_cases i; fin_cases j; rfl]
    simp only [if_true, hr]
    exact ⟨_, rfl⟩
  obtain ⟨p, hp⟩ := hm
  refine ⟨isPD, eigh, _, p, hnum, ?_, hp⟩
  intro s l hl
  split_ifs at hl with h
  cases hl
  rw [h]
  simp

end Skfolio.Prior
