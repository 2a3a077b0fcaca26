import Mathlib.MeasureTheory.Integral.Bochner.Basic
import Mathlib.MeasureTheory.Measure.Dirac
import Mathlib.MeasureTheory.Constructions.BorelSpace.Order
import Mathlib.MeasureTheory.Constructions.BorelSpace.Metric

/-!
Specification for **C62**: the Wasserstein ball of a sample and the utility under a distribution of returns.
-/
set_option autoImplicit false

namespace Skfolio.Convex

open MeasureTheory

section
variable {n T : Nat}

/-- Finitely many points with weights. -/
noncomputable def atoms {α E : Type} [Fintype α] [MeasurableSpace E] (q : α → ℝ) (x : α → E) : Measure E := ∑ a, ENNReal.ofReal (q a) • Measure.dirac (x a)

/-- The uniform distribution on the observations. -/
noncomputable def empirical (returns : Fin T → Fin n → ℝ) : Measure (Fin n → ℝ) := atoms (fun _ => 1 / (T : ℝ)) returns

/-- Distance of two points, the sum of the absolute differences. -/
def distance (x : (Fin n → ℝ) × (Fin n → ℝ)) : ℝ := ∑ j, |x.1 j - x.2 j|

/-- `P` is in the Wasserstein ball of radius `ε` around the sample: the sample can be transported to `P` at a mean distance of at most `ε`; and no asset loses more than 100 % under `P`. -/
structure InBall (returns : Fin T → Fin n → ℝ) (ε : ℝ) (P : Measure (Fin n → ℝ)) : Prop where
  transport : ∃ π : Measure ((Fin n → ℝ) × (Fin n → ℝ)), π.map Prod.fst = P ∧ π.map Prod.snd = empirical returns ∧ Integrable distance π ∧ ∫ x, distance x ∂π ≤ ε
  support : ∀ᵐ ξ ∂P, ∀ j, -1 ≤ ξ j

/-- The loss of a portfolio. -/
def lossOf (w ξ : Fin n → ℝ) : ℝ := -∑ j, ξ j * w j

/-- The function of Rockafellar and Uryasev. -/
noncomputable def tailBound (P : Measure (Fin n → ℝ)) (beta : ℝ) (w : Fin n → ℝ) (tau : ℝ) : ℝ := tau + (∫ ξ, max 0 (lossOf w ξ - tau) ∂P) / (1 - beta)

/-- CVaR of the loss under `P`. -/
noncomputable def cvarUnder (P : Measure (Fin n → ℝ)) (beta : ℝ) (w : Fin n → ℝ) : ℝ := ⨅ tau, tailBound P beta w tau

/-- Minus the utility under `P`: the mean loss plus risk aversion times CVaR. -/
noncomputable def disutility (P : Measure (Fin n → ℝ)) (beta rho : ℝ) (w : Fin n → ℝ) : ℝ := (∫ ξ, lossOf w ξ ∂P) + rho * cvarUnder P beta w

end

end Skfolio.Convex
