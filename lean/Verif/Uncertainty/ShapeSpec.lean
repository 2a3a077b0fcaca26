import Mathlib.Algebra.Field.Basic
import Mathlib.Algebra.BigOperators.Group.Finset.Basic

/-! Specification for **C65**: the shapes of the uncertainty sets. -/
set_option autoImplicit false

namespace Skfolio.Uncertainty

section
variable {n : Nat} {F : Type} [Field F]

/-- Covariance of the entries `(i, j)` and `(k, l)` of the sample covariance of `T` normal observations (Wishart): `(Σ_ik Σ_jl + Σ_il Σ_jk) / (T - 1)`. -/
def wishart (cov : Fin n → Fin n → F) (T : Nat) (i j k l : Fin n) : F := (cov i k * cov j l + cov i l * cov j k) / ((T : F) - 1)

end

end Skfolio.Uncertainty
