import Mathlib.LinearAlgebra.Matrix.NonsingularInverse
import Mathlib.Data.Real.Basic

/-! Vocabulary for the properties of moment estimators (C35, C37, C38, C50): covariance and correlation matrices. -/
set_option autoImplicit false

namespace Skfolio.Moments

open Matrix

variable {n : Nat}

/-- Symmetric positive semidefinite. -/
def PSD (s : Matrix (Fin n) (Fin n) ℝ) : Prop := (∀ i j, s i j = s j i) ∧ ∀ x : Fin n → ℝ, 0 ≤ ∑ i, ∑ j, x i * s i j * x j

/-- Symmetric positive definite. -/
def PD (s : Matrix (Fin n) (Fin n) ℝ) : Prop := (∀ i j, s i j = s j i) ∧ ∀ x : Fin n → ℝ, x ≠ 0 → 0 < ∑ i, ∑ j, x i * s i j * x j

/-- A correlation matrix: positive semidefinite with unit diagonal. -/
def IsCorrelation (c : Matrix (Fin n) (Fin n) ℝ) : Prop := PSD c ∧ ∀ i, c i i = 1

/-- Eigendecomposition of a symmetric matrix, the contract of `np.linalg.eigh`: eigenvalues and an orthogonal matrix of eigenvectors (columns). -/
def IsEigh (s : Matrix (Fin n) (Fin n) ℝ) (l : Fin n → ℝ) (v : Matrix (Fin n) (Fin n) ℝ) : Prop :=
  v * vᵀ = 1 ∧ ∀ i j, s i j = ∑ k, v i k * l k * v j k

end Skfolio.Moments
