import Verif.Copula.Spec
import Mathlib.Analysis.SpecialFunctions.Gamma.Basic
import Mathlib.Analysis.SpecialFunctions.Pow.Real

/-! The densities of the normal and of Student's t distribution, and what it means to be their distribution function and quantile function. -/
set_option autoImplicit false

namespace Skfolio.Copula

/-- `F` is the distribution function with density `f`, and `Q` is its inverse. -/
structure IsQuantile (F Q f : ℝ → ℝ) : Prop where
  inside : ∀ x, Inside (F x)
  density : ∀ x, HasDerivAt F (f x) x
  positive : ∀ x, 0 < f x
  right : ∀ p, Inside p → F (Q p) = p
  left : ∀ x, Q (F x) = x

/-- The standard normal density. -/
noncomputable def normalPdf (x : ℝ) : ℝ := Real.exp (-x ^ 2 / 2) / Real.sqrt (2 * Real.pi)

/-- The density of Student's t distribution with `ν` degrees of freedom. -/
noncomputable def studentPdf (ν x : ℝ) : ℝ :=
  Real.Gamma ((ν + 1) / 2) / (Real.sqrt (ν * Real.pi) * Real.Gamma (ν / 2)) * (1 + x ^ 2 / ν) ^ (-((ν + 1) / 2))

end Skfolio.Copula
