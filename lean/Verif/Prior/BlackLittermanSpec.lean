import Mathlib.LinearAlgebra.Matrix.NonsingularInverse
import Mathlib.Algebra.Order.Field.Basic

/-! Vocabulary for C34: symmetric positive semidefinite matrices, and Bayesian updating of a normal prior on the expected returns by independent normal views. -/
set_option autoImplicit false

namespace Skfolio.Prior

open Matrix

section
variable {K : Type} [Field K] [LinearOrder K] {n m : Nat}

/-- Symmetric positive semidefinite. -/
def SymPSD {ι : Type} [Fintype ι] (s : Matrix ι ι K) : Prop := sᵀ = s ∧ ∀ x, 0 ≤ x ⬝ᵥ s *ᵥ x

/-- Variance of the portfolio of one view. -/
def viewVariance (s : Matrix (Fin n) (Fin n) K) (p : Matrix (Fin m) (Fin n) K) (i : Fin m) : K := p i ⬝ᵥ s *ᵥ p i

/-- Idzorek's uncertainty of a view of which one is confident to the degree `c`. -/
def viewUncertainty (s : Matrix (Fin n) (Fin n) K) (p : Matrix (Fin m) (Fin n) K) (tau : K) (c : Fin m → K) (i : Fin m) : K :=
  tau * (1 / c i - 1) * viewVariance s p i

/-- The degree of confidence in each view: as given, one half by default, and 10⁻¹⁶ in place of 0. -/
def degree (c : Option (Fin m → K)) (i : Fin m) : K := match c with
  | none => 1 / 2
  | some c => if c i = 0 then 1 / 10 ^ 16 else c i

/-- `post` and `unc` are mean and covariance of the posterior distribution of the expected returns, for the prior N(mu, s0) and the views N(p·expected returns, diag w) observed at `q`:
the precisions add and the posterior mean is the precision-weighted mean. -/
def BayesUpdate (mu : Fin n → K) (s0 : Matrix (Fin n) (Fin n) K) (p : Matrix (Fin m) (Fin n) K) (q w : Fin m → K) (post : Fin n → K) (unc : Matrix (Fin n) (Fin n) K) : Prop :=
  unc * (s0⁻¹ + pᵀ * (diagonal w)⁻¹ * p) = 1 ∧
  (s0⁻¹ + pᵀ * (diagonal w)⁻¹ * p) *ᵥ post = s0⁻¹ *ᵥ mu + pᵀ *ᵥ ((diagonal w)⁻¹ *ᵥ q)

end

end Skfolio.Prior
