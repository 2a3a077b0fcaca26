import Verif.Moments.CorrModel

/-! Model of the computations of `FactorModel.fit`, `src/skfolio/prior/_factor_model.py` L297-321. The shapes (L283-295) are those of the types. -/
set_option autoImplicit false

namespace Skfolio.Prior

open Matrix Skfolio.Moments

/-- `n` assets, `k` factors, `T` observations of assets and factors, `S` observations of the fitted factor prior. -/
structure FactorInput (n k T S : Nat) where
  loading : Matrix (Fin n) (Fin k) ℝ
  intercepts : Fin n → ℝ
  factorMu : Fin k → ℝ
  factorCov : Matrix (Fin k) (Fin k) ℝ
  factorReturns : Matrix (Fin S) (Fin k) ℝ
  x : Matrix (Fin T) (Fin n) ℝ
  y : Matrix (Fin T) (Fin k) ℝ

structure FactorPrior (n k S : Nat) where
  mu : Fin n → ℝ
  covariance : Matrix (Fin n) (Fin n) ℝ
  returns : Matrix (Fin S) (Fin n) ℝ
  /-- The columns of `np.hstack`; without residual variances the second block is absent in the code, here zero. -/
  cholesky : Matrix (Fin n) (Fin k ⊕ Fin n) ℝ

inductive FactorErr where
  /-- `LinAlgError` of `np.linalg.cholesky` -/
  | cholesky
  | moment (e : MomentErr)

variable {n k T S : Nat}

/-- `np.var(err, ddof=1, axis=0)`, L304-306. -/
noncomputable def residualVar (f : FactorInput n k T S) (i : Fin n) : ℝ :=
  let yPred : Matrix (Fin T) (Fin n) ℝ := fun t i => (f.y * f.loadingᵀ) t i + f.intercepts i
  let err : Fin T → ℝ := fun t => f.x t i - yPred t i
  (∑ t, (err t - (∑ t, err t) / T) ^ 2) / (T - 1)

/-- The covariance before `cov_nearest`, L298 and L307. -/
noncomputable def rawCovariance (residual : Bool) (f : FactorInput n k T S) : Matrix (Fin n) (Fin n) ℝ :=
  let cov := f.loading * f.factorCov * f.loadingᵀ
  if residual then cov + diagonal (residualVar f) else cov

/-- L297-321. `chol` is `np.linalg.cholesky`, with `none` for `LinAlgError`; `nearest` is `cov_nearest`. -/
noncomputable def factorFit (chol : Matrix (Fin k) (Fin k) ℝ → Option (Matrix (Fin k) (Fin k) ℝ)) (nearest : Matrix (Fin n) (Fin n) ℝ → Except MomentErr (Matrix (Fin n) (Fin n) ℝ))
    (residual : Bool) (f : FactorInput n k T S) : Except FactorErr (FactorPrior n k S) :=
  match chol f.factorCov with
  | none => .error .cholesky
  | some l =>
    match nearest (rawCovariance residual f) with
    | .error e => .error (.moment e)
    | .ok cov => .ok
      { mu := f.loading *ᵥ f.factorMu + f.intercepts
        covariance := cov
        returns := fun t i => (f.factorReturns * f.loadingᵀ) t i + f.intercepts i
        cholesky := fun i c => match c with
          | .inl a => (f.loading * l) i a
          | .inr j => if residual then Real.sqrt (diagonal (residualVar f) i j) else 0 }

end Skfolio.Prior
