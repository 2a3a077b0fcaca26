import Mathlib.LinearAlgebra.Matrix.NonsingularInverse
import Mathlib.Analysis.Real.Sqrt

/-!
Specification for **C63** and **C64**: ellipsoidal uncertainty sets.
-/
set_option autoImplicit false

namespace Skfolio.Uncertainty

section
variable {ι : Type} [Fintype ι]

/-- The uncertainty set of the documentation: `(x - c) S⁻¹ (x - c)ᵀ ≤ κ²`. -/
def Ellipsoid [DecidableEq ι] (kappa : ℝ) (S : Matrix ι ι ℝ) (c : ι → ℝ) : Set (ι → ℝ) := {x | (x - c) ⬝ᵥ (S⁻¹.mulVec (x - c)) ≤ kappa ^ 2}

/-- The same set for a shape that may be singular: the image of a ball under a root `R` of the shape. -/
def BallImage (kappa : ℝ) (R : Matrix ι ι ℝ) (c : ι → ℝ) : Set (ι → ℝ) := {x | ∃ z : ι → ℝ, ∑ i, z i ^ 2 ≤ kappa ^ 2 ∧ ∀ i, x i = c i + ∑ j, R i j * z j}

/-- `R` is the square root that `scipy.linalg.sqrtm` returns for a symmetric positive semidefinite `S`. -/
structure IsRoot (R S : Matrix ι ι ℝ) : Prop where
  symmetric : R.transpose = R
  square : R * R = S

end

end Skfolio.Uncertainty
