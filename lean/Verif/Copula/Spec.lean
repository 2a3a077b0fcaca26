import Mathlib.Analysis.Calculus.Deriv.Basic
import Mathlib.Order.Filter.AtTopBot.Defs

/-! What a bivariate copula is, independently of the code. -/
set_option autoImplicit false

namespace Skfolio.Copula

/-- The unit interval without and with its ends. -/
def Inside (t : ℝ) : Prop := 0 < t ∧ t < 1
def Unit (t : ℝ) : Prop := 0 ≤ t ∧ t ≤ 1

/-- The mass that a distribution function gives to the rectangle (a, b] × (c, d]. -/
def mass (C : ℝ × ℝ → ℝ) (a b c d : ℝ) : ℝ := C (b, d) - C (a, d) - C (b, c) + C (a, c)

/-- A copula: a distribution function on the unit square with uniform margins. -/
structure IsCopula (C : ℝ × ℝ → ℝ) : Prop where
  grounded : ∀ t, Unit t → C (0, t) = 0 ∧ C (t, 0) = 0
  margins : ∀ t, Unit t → C (1, t) = t ∧ C (t, 1) = t
  mass_nonneg : ∀ a b c d, 0 ≤ a → a ≤ b → b ≤ 1 → 0 ≤ c → c ≤ d → d ≤ 1 → 0 ≤ mass C a b c d

/-- `h true` and `h false` are the partial derivatives of `C` in the first and in the second argument: the conditional distribution functions of the second given the first, and of the first given the second. -/
def IsPartial (C : ℝ × ℝ → ℝ) (h : Bool → ℝ × ℝ → ℝ) : Prop :=
  ∀ u v, Inside u → Inside v → HasDerivAt (fun t => C (t, v)) (h true (u, v)) u ∧ HasDerivAt (fun t => C (u, t)) (h false (u, v)) v

/-- `g` inverts the conditional distribution functions `h`: `g false (p, v)` is the `u` with `h false (u, v) = p`, and `g true (u, p)` is the `v` with `h true (u, v) = p`; the probability replaces the argument it is solved for. -/
def IsInverse (h g : Bool → ℝ × ℝ → ℝ) : Prop :=
  (∀ p v, Inside p → Inside v → Inside (g false (p, v)) ∧ h false (g false (p, v), v) = p) ∧
  (∀ u p, Inside u → Inside p → Inside (g true (u, p)) ∧ h true (u, g true (u, p)) = p) ∧
  (∀ u v, Inside u → Inside v → Inside (h false (u, v)) ∧ g false (h false (u, v), v) = u) ∧
  (∀ u v, Inside u → Inside v → Inside (h true (u, v)) ∧ g true (u, h true (u, v)) = v)

/-- The values `g k` of an iteration with `k` steps tend to the one and only solution of `h = p`. -/
def ConvergesToInverse (h : Bool → ℝ × ℝ → ℝ) (g : ℕ → Bool → ℝ × ℝ → ℝ) : Prop :=
  (∀ p v, Inside p → Inside v → ∃ u, Inside u ∧ h false (u, v) = p ∧ (∀ u', Inside u' → h false (u', v) = p → u' = u) ∧ Filter.Tendsto (fun k => g k false (p, v)) Filter.atTop (nhds u)) ∧
  (∀ u p, Inside u → Inside p → ∃ v, Inside v ∧ h true (u, v) = p ∧ (∀ v', Inside v' → h true (u, v') = p → v' = v) ∧ Filter.Tendsto (fun k => g k true (u, p)) Filter.atTop (nhds v))

/-- `c` is the density: the derivative, in the first argument, of the derivative in the second. -/
def IsDensity (h : Bool → ℝ × ℝ → ℝ) (c : ℝ × ℝ → ℝ) : Prop :=
  ∀ u v, Inside u → Inside v → HasDerivAt (fun t => h false (t, v)) (c (u, v)) u ∧ HasDerivAt (fun t => h true (u, t)) (c (u, v)) v

end Skfolio.Copula
