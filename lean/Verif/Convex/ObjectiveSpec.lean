import Verif.Convex.MeanRiskSpec

/-! Specification for **C67** and **C68**: portfolios within all limits, and the risk measure as a function of the weights. -/
set_option autoImplicit false

namespace Skfolio.Convex

open Skfolio.Measures

section
variable {n T : Nat}

/-- The portfolio is within all limits the user set. -/
structure Within (P : Partition ℝ) (m : MeanRisk n T) (w : Fin n → ℝ) : Prop where
  limits : RespectsLimits m.weights w
  cardinality : RespectsCardinality m.weights w
  returns : RespectsReturnLimits m w
  tracking : ∀ x, m.maxTrackingError = some x → activeRisk m w ≤ x
  risks : ∀ r x, m.riskLimits r = some x → RiskAtMost P m r w x

/-- The portfolios with which the returned one is compared: within all limits, strictly for EVaR and EDaR (which are infima), and of positions up to 1000 if there are cardinality or threshold limits (the
big M of the mixed-integer constraints). -/
structure Comparable (P : Partition ℝ) (m : MeanRisk n T) (w : Fin n → ℝ) : Prop where
  within : Within P m w
  entropic : ∀ r, r = .evar ∨ r = .edar → ∀ x, m.riskLimits r = some x → ∃ y, y < x ∧ RiskAtMost P m r w y
  bigM : isMip m.weights = true → ∀ i, |w i| ≤ 1000

/-- The penalty `l1_coef * sum |w| + l2_coef * sum w²`. -/
noncomputable def penalty (m : MeanRisk n T) (w : Fin n → ℝ) : ℝ := m.l1Coef * (∑ i, |w i|) + m.l2Coef * ∑ i, w i ^ 2

end

end Skfolio.Convex
