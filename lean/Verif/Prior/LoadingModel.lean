import Verif.Prior.FactorModel

/-!
Model of `LoadingMatrixRegression.fit`, `src/skfolio/prior/_factor_model.py` L97-142, and of how `FactorModel.fit` L252-276 puts the fitted loadings and the
fitted prior of the factors together; the computations that follow are `factorFit` in `Verif.Prior.FactorModel`.
-/
set_option autoImplicit false

namespace Skfolio.Prior

open Matrix

variable {n k T S : Nat}

/-- A fitted linear regressor of scikit-learn: `coef_` and `intercept_`. -/
structure Fitted (k : Nat) where
  coef : Fin k → ℝ
  intercept : ℝ

/-- `MultiOutputRegressor(linear_regressor).fit(X=y, y=X).estimators_`, L122-125: a clone of the regressor for each column of the target. -/
def estimators (regress : Matrix (Fin T) (Fin k) ℝ → (Fin T → ℝ) → Fitted k) (features : Matrix (Fin T) (Fin k) ℝ) (target : Matrix (Fin T) (Fin n) ℝ) : List (Fitted k) :=
  List.ofFn fun i => regress features fun t => target t i

/-- `LoadingMatrixRegression.fit`, L97-142: `X` are the assets, `y` the factors. -/
def loadingFit (regress : Matrix (Fin T) (Fin k) ℝ → (Fin T → ℝ) → Fitted k) (x : Matrix (Fin T) (Fin n) ℝ) (y : Matrix (Fin T) (Fin k) ℝ) : Matrix (Fin n) (Fin k) ℝ × (Fin n → ℝ) :=
  let es := estimators regress y x
  (fun i => (es.getD i ⟨0, 0⟩).coef, fun i => (es.getD i ⟨0, 0⟩).intercept)

/-- The fitted prior of the factors. -/
structure FactorMoments (k S : Nat) where
  mu : Fin k → ℝ
  covariance : Matrix (Fin k) (Fin k) ℝ
  returns : Matrix (Fin S) (Fin k) ℝ

/-- `FactorModel.fit`, L265-276: the prior is fitted to the factors, the loadings to the assets and the factors. -/
def factorInput (regress : Matrix (Fin T) (Fin k) ℝ → (Fin T → ℝ) → Fitted k) (prior : Matrix (Fin T) (Fin k) ℝ → FactorMoments k S) (x : Matrix (Fin T) (Fin n) ℝ) (y : Matrix (Fin T) (Fin k) ℝ) :
    FactorInput n k T S :=
  { loading := (loadingFit regress x y).1, intercepts := (loadingFit regress x y).2
    factorMu := (prior y).mu, factorCov := (prior y).covariance, factorReturns := (prior y).returns, x := x, y := y }

end Skfolio.Prior
