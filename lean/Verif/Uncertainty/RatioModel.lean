import Verif.Uncertainty.Model
import Verif.Convex.MeanRiskModel

/-!
Model of `MeanRisk.fit` with the variance as risk measure and a `covariance_uncertainty_set_estimator`, `src/skfolio/optimization/convex/_mean_risk.py` L962-1012: the worst-case variance replaces the variance, in the
objective and in the limit `max_variance`, which share the program. The other parts are those of `Verif.Convex.MeanRiskModel`.
-/
set_option autoImplicit false

namespace Skfolio.Uncertainty

open Skfolio.Convex

section
variable {n T : Nat}

/-- The uncertainty set: centre (the covariance of the prior), radius and square root of the shape. -/
structure CovSet (n : Nat) where
  cov : Fin n → Fin n → ℝ
  kappa : ℝ
  R : Matrix (Fin (n * n)) (Fin (n * n)) ℝ

/-- The program of the worst-case variance of a point. -/
noncomputable def worstProgram (m : MeanRisk n T) (u : CovSet n) (w : Fin n → ℝ) (k : ℝ) : Program ℝ := worstCaseVarianceRisk u.cov u.kappa u.R w k m.scale

/-- The limits on the other risks, and `max_variance` on the worst-case variance, L1001-1008. -/
def worstRiskConstraint (m : MeanRisk n T) (u : CovSet n) (w : Fin n → ℝ) (k : ℝ) (a : (worstProgram m u w k).Aux) : Prop :=
  (∀ r x, r ≠ .variance → m.riskLimits r = some x → ∃ b, (riskProgram m r w k).feasible b ∧ (riskProgram m r w k).risk b * m.scale ≤ x * k * m.scale) ∧
    ∀ x, m.riskLimits .variance = some x → (worstProgram m u w k).risk a * m.scale ≤ x * k * m.scale

/-- The constraints of the problem. -/
structure WorstFeasible (m : MeanRisk n T) (u : CovSet n) (cs : List (Constraint ℝ n)) (w : Fin n → ℝ) (k : ℝ) (a : (worstProgram m u w k).Aux) : Prop where
  factor : factorConstraint m k
  tracking : trackingConstraint m w k
  turnover : turnoverConstraint m w k
  weight : ∀ c ∈ cs, c w k
  return' : returnConstraint m w k
  risks : worstRiskConstraint m u w k a
  aux : (worstProgram m u w k).feasible a
  ratio : ratioConstraint m w k

/-- What a solver that reports an optimum guarantees, when the ratio is maximised (L1072-1076). -/
def WorstRatioOptimum (m : MeanRisk n T) (u : CovSet n) (cs : List (Constraint ℝ n)) (w : Fin n → ℝ) (k : ℝ) (a : (worstProgram m u w k).Aux) : Prop :=
  WorstFeasible m u cs w k a ∧ ∀ w' k' a', WorstFeasible m u cs w' k' a' →
    (worstProgram m u w k).risk a * m.scaleObjective + regularization m w * m.scaleObjective ≤ (worstProgram m u w' k').risk a' * m.scaleObjective + regularization m w' * m.scaleObjective

end

end Skfolio.Uncertainty
