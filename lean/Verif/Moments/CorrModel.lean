import Mathlib.Analysis.Real.Sqrt
import Mathlib.LinearAlgebra.Matrix.Notation

/-! Model of `cov_to_corr`, `corr_to_cov` and `cov_nearest`, `src/skfolio/utils/stats.py` L260-400, and of `_set_covariance`, `src/skfolio/moments/covariance/_base.py` L76-109. -/
set_option autoImplicit false

namespace Skfolio.Moments

open Matrix

variable {n : Nat}

/-- `cov_to_corr`, L260-277. `cov / std` divides columns, `/ std[:, None]` rows. The check of the number of dimensions is left to the type. -/
noncomputable def covToCorr (cov : Matrix (Fin n) (Fin n) ℝ) : Matrix (Fin n) (Fin n) ℝ × (Fin n → ℝ) :=
  let std := fun i => Real.sqrt (cov i i)
  (fun i j => cov i j / std j / std i, std)

/-- `corr_to_cov`, L280-302. -/
def corrToCov (corr : Matrix (Fin n) (Fin n) ℝ) (std : Fin n → ℝ) : Matrix (Fin n) (Fin n) ℝ := fun i j => corr i j * std j * std i

inductive MomentErr where
  /-- "The matrix must be symmetric" -/
  | notSymmetric
  /-- "Unable to find the nearest positive definite matrix" -/
  | unableToFind
  /-- `NonPositiveVarianceError` -/
  | nonPositiveVariance

/-- `eig_vecs * np.maximum(eig_vals, eps) @ eig_vecs.T`, L380 and L393. -/
noncomputable def clipEigen (lv : (Fin n → ℝ) × Matrix (Fin n) (Fin n) ℝ) (eps : ℝ) : Matrix (Fin n) (Fin n) ℝ :=
  (of fun i k => lv.2 i k * max (lv.1 k) eps) * lv.2ᵀ

/-- `np.fill_diagonal(x, 1)`. -/
def fillDiagonal (x : Matrix (Fin n) (Fin n) ℝ) : Matrix (Fin n) (Fin n) ℝ := fun i j => if i = j then 1 else x i j

/-- The loop of Higham's method, L374-387. `isPD` is `is_cholesky_dec(cov) and is_positive_definite(cov)`. -/
noncomputable def highamLoop (isPD : Matrix (Fin n) (Fin n) ℝ → Bool) (eigh : Matrix (Fin n) (Fin n) ℝ → (Fin n → ℝ) × Matrix (Fin n) (Fin n) ℝ) (std : Fin n → ℝ) :
    Nat → Matrix (Fin n) (Fin n) ℝ → Matrix (Fin n) (Fin n) ℝ → Except MomentErr (Matrix (Fin n) (Fin n) ℝ)
  | 0, _, _ => .error .unableToFind
  | k + 1, x, diff =>
    let xAdj := x - diff
    let x1 := clipEigen (eigh xAdj) (5 / 2 ^ 52)
    let x2 := fillDiagonal x1
    let cov := corrToCov x2 std
    if isPD cov then .ok cov else highamLoop isPD eigh std k x2 (x1 - xAdj)

/-- `cov_nearest`, L308-400. `assert_is_symmetric` compares up to a tolerance; here exactly. -/
noncomputable def covNearest (isPD : Matrix (Fin n) (Fin n) ℝ → Bool) (eigh : Matrix (Fin n) (Fin n) ℝ → (Fin n → ℝ) × Matrix (Fin n) (Fin n) ℝ) (higham : Bool) (maxIter : Nat)
    (cov : Matrix (Fin n) (Fin n) ℝ) : Except MomentErr (Matrix (Fin n) (Fin n) ℝ) :=
  open Classical in
  if covᵀ ≠ cov then .error .notSymmetric
  else if isPD cov then .ok cov
  else
    let (corr, std) := covToCorr cov
    if higham then highamLoop isPD eigh std maxIter corr 0
    else .ok (corrToCov (covToCorr (clipEigen (eigh corr) (1 / 10 ^ 13))).1 std)

/-- `_sanity_check` and `_set_covariance`, `moments/covariance/_base.py` L76-109. -/
noncomputable def setCovariance (isPD : Matrix (Fin n) (Fin n) ℝ → Bool) (eigh : Matrix (Fin n) (Fin n) ℝ → (Fin n → ℝ) × Matrix (Fin n) (Fin n) ℝ) (nearest higham : Bool) (maxIter : Nat)
    (cov : Matrix (Fin n) (Fin n) ℝ) : Except MomentErr (Matrix (Fin n) (Fin n) ℝ) :=
  open Classical in
  if ∃ i, cov i i < 1 / 10 ^ 15 then .error .nonPositiveVariance
  else if nearest then covNearest isPD eigh higham maxIter cov
  else .ok cov

end Skfolio.Moments
