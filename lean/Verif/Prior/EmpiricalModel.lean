import Mathlib.Analysis.SpecialFunctions.Exp
import Mathlib.LinearAlgebra.Matrix.Defs

/-! Model of `EmpiricalPrior.fit`, `src/skfolio/prior/_empirical.py` L144-202. -/
set_option autoImplicit false

namespace Skfolio.Prior

variable {n : Nat}

inductive EmpiricalErr where
  /-- "`investment_horizon` must be `None` when `is_log_normal` is `False`" -/
  | horizonGiven
  /-- "`investment_horizon` must be provided when `is_log_normal` is `True`" -/
  | horizonMissing

/-- The attributes after `fit`: the prior model and the attributes of the fitted moment estimators. -/
structure EmpiricalFit (n : Nat) where
  mu : Fin n → ℝ
  covariance : Matrix (Fin n) (Fin n) ℝ
  estimatorMu : Fin n → ℝ
  estimatorCovariance : Matrix (Fin n) (Fin n) ℝ

/-- `fit`. `muOf` and `covOf` are the moment estimators, as functions of the returns `x` (rows are observations). `mu *= horizon` and `covariance *= horizon` change the arrays of the
estimators, which are assumed to be float arrays. -/
noncomputable def empiricalFit {T : Nat} (muOf : (Fin T → Fin n → ℝ) → Fin n → ℝ) (covOf : (Fin T → Fin n → ℝ) → Matrix (Fin n) (Fin n) ℝ) (log1p : ℝ → ℝ) (isLogNormal : Bool) (horizon : Option ℝ)
    (x : Fin T → Fin n → ℝ) : Except EmpiricalErr (EmpiricalFit n) :=
  if isLogNormal = false then
    match horizon with
    | some _ => .error .horizonGiven
    | none => .ok ⟨muOf x, covOf x, muOf x, covOf x⟩
  else
    match horizon with
    | none => .error .horizonMissing
    | some h =>
      let xLog := fun t i => log1p (x t i)
      let mu := fun i => muOf xLog i * h
      let cov : Matrix (Fin n) (Fin n) ℝ := fun i j => covOf xLog i j * h
      let mu1 := fun i => Real.exp (mu i + 0.5 * cov i i)
      .ok ⟨mu1, fun i j => mu1 i * mu1 j * (Real.exp (cov i j) - 1), mu, cov⟩

end Skfolio.Prior
