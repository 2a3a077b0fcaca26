import Verif.Copula.Spec
import Mathlib.MeasureTheory.Integral.IntervalIntegral.Basic

/-! Kendall's tau of a copula, independently of the code. -/
set_option autoImplicit false

namespace Skfolio.Copula

open MeasureTheory

/-- `τ` is Kendall's tau of the copula `C` with the density `c`: with two independent pairs from `C`, the probability that they are concordant less the probability that they are discordant.
This is `4 E C(U, V) - 1`; the integrals exist. -/
structure IsKendall (C c : ℝ × ℝ → ℝ) (τ : ℝ) : Prop where
  inner : ∀ u, Inside u → IntervalIntegrable (fun v => C (u, v) * c (u, v)) volume 0 1
  outer : IntervalIntegrable (fun u => ∫ v in (0 : ℝ)..1, C (u, v) * c (u, v)) volume 0 1
  value : τ = 4 * (∫ u in (0 : ℝ)..1, ∫ v in (0 : ℝ)..1, C (u, v) * c (u, v)) - 1

end Skfolio.Copula
