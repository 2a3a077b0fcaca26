import Verif.Uncertainty.Spec

/-! Specification for **C64**: the worst variance over an uncertainty set of covariances. -/
set_option autoImplicit false

namespace Skfolio.Uncertainty

section
variable {n : Nat}

/-- Variance of the portfolio `w` under the covariance `C`. -/
def varianceUnder (C : Fin n → Fin n → ℝ) (w : Fin n → ℝ) : ℝ := ∑ i, ∑ j, w i * C i j * w j

/-- The entries of a matrix, column by column. -/
def columns (C : Fin n → Fin n → ℝ) : Fin (n * n) → ℝ := fun p => C p.modNat p.divNat

/-- Covariances in the uncertainty set around `cov`: within the image of the ball and with no negative variances. -/
structure PlausibleCov (cov : Fin n → Fin n → ℝ) (kappa : ℝ) (R : Matrix (Fin (n * n)) (Fin (n * n)) ℝ) (C : Fin n → Fin n → ℝ) : Prop where
  near : columns C ∈ BallImage kappa R (columns cov)
  nonneg : ∀ x, 0 ≤ varianceUnder C x

end

end Skfolio.Uncertainty
