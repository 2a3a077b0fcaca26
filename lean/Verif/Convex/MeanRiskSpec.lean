import Verif.Convex.MeanRiskModel
import Verif.Convex.WeightSpec

/-! Specification for C18 and C19: what a user of `MeanRisk` asks of the returned weights, in terms of the portfolio measures. -/
set_option autoImplicit false

namespace Skfolio.Convex

open Skfolio.Measures

section
variable {n T : Nat}

/-- The covariance whose factor is `cholesky`. -/
noncomputable def covarianceOf (m : MeanRisk n T) (i j : Fin n) : ℝ := ∑ l, m.cholesky i l * m.cholesky j l

/-- The minimum acceptable return of the portfolio. -/
noncomputable def target (m : MeanRisk n T) (w : Fin n → ℝ) : ℝ := ∑ i, marOf m.data m.minAcceptableReturn i * w i

/-- "The risk of the portfolio is at most `x`", by the measure's own definition (Verif.Measures). The lower partial moments are those of the returns before costs, see C17; EVaR and EDaR
are infima: every lower bound of the entropic risk is at most `x`. EVaR ignores transaction costs. -/
def RiskAtMost (P : Partition ℝ) (m : MeanRisk n T) (r : RiskMeasure) (w : Fin n → ℝ) (x : ℝ) : Prop :=
  let net := netReturns m.data w 1
  let dd := drawdownsFromStart net
  match r with
  | .meanAbsoluteDeviation => 2 * firstLowerPartialMoment (grossReturns m.data w) (some (target m w)) ≤ x
  | .firstLowerPartialMoment => firstLowerPartialMoment (grossReturns m.data w) (some (m.data.riskFreeRate + target m w)) ≤ x
  | .standardDeviation => Real.sqrt (∑ i, ∑ j, w i * covarianceOf m i j * w j) ≤ x
  | .variance => ∑ i, ∑ j, w i * covarianceOf m i j * w j ≤ x
  | .semiVariance => semiVariance (grossReturns m.data w) (some (target m w)) ≤ x
  | .semiDeviation => Real.sqrt (semiVariance (grossReturns m.data w) (some (target m w))) ≤ x
  | .worstRealization => ∃ v, worstRealization net = some v ∧ v ≤ x
  | .cvar => ∃ v, cvar P net m.cvarBeta = some v ∧ v ≤ x
  | .evar => ∀ b, (∀ theta, 0 < theta → b ≤ entropicRiskMeasure (netReturns { m.data with transactionCosts := fun _ => 0 } w 1) theta m.evarBeta) → b ≤ x
  | .maxDrawdown => ∃ v, maxDrawdown P dd = some v ∧ v ≤ x
  | .averageDrawdown => ∃ v, averageDrawdown P dd = some v ∧ v ≤ x
  | .cdar => ∃ v, cdar P dd m.cdarBeta = some v ∧ v ≤ x
  | .edar => ∀ b, (∀ theta, 0 < theta → b ≤ entropicRiskMeasure dd theta m.edarBeta) → b ≤ x
  | .ulcerIndex => ulcerIndex dd ≤ x
  | .giniMeanDifference => giniMeanDifference net ≤ x

/-- Expected return of a portfolio (of the prior, or the user's own linear function): after transaction costs, fees and the worst case over the uncertainty set. -/
noncomputable def netExpectedReturn (m : MeanRisk n T) (w : Fin n → ℝ) : ℝ :=
  (∑ i, w i * m.overwrite.getD m.data.mu i) - (∑ i, |m.data.transactionCosts i| * |w i - m.data.previousWeights i|) - (∑ i, w i * m.data.managementFees i) -
    muUncertainty m w

/-- Expected return in excess of the risk-free rate. -/
noncomputable def excessReturn (m : MeanRisk n T) (w : Fin n → ℝ) : ℝ := netExpectedReturn m w - m.data.riskFreeRate

/-- Tracking error of a portfolio: sample standard deviation (about 0) of its returns in excess of the benchmark's. -/
noncomputable def activeRisk (m : MeanRisk n T) (w : Fin n → ℝ) : ℝ :=
  Real.sqrt ((∑ t, ((∑ i, w i * m.data.returns t i) - m.benchmark t) ^ 2) / ((T : ℝ) - 1))

/-- The limits other than those on the weights themselves, the tracking error and the risks. -/
structure RespectsReturnLimits (m : MeanRisk n T) (w : Fin n → ℝ) : Prop where
  turnover : ∀ x, m.maxTurnover = some x → ∀ i, |w i - m.data.previousWeights i| ≤ x
  minReturn : ∀ x ∈ m.minReturns, x ≤ netExpectedReturn m w

end

end Skfolio.Convex
