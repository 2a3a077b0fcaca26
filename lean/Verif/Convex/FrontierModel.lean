import Verif.Convex.MeanRiskModel

/-! Model of the efficient frontier of `MeanRisk`, `src/skfolio/optimization/convex/_mean_risk.py` L716-731 and L923-952. -/
set_option autoImplicit false

namespace Skfolio.Convex

section
variable {n T : Nat}

/-- The exceptions of the frontier. -/
inductive FrontierError where
  | sizeTooSmall
  | wrongObjective
  | onlyNegativeReturns
  deriving DecidableEq

/-- `np.linspace(start, stop, num)` for `num > 1`: `arange(0, num) * step + start`, with the last element set to `stop`. -/
noncomputable def linspace (start stop : ℝ) (num : Nat) : List ℝ :=
  (List.range num).map fun i => if i = num - 1 then stop else (i : ℝ) * ((stop - start) / ((num : ℝ) - 1)) + start

/-- The checks L716-731 and the target returns L923-948, from the expected returns of the minimum risk and of the maximum return portfolio. -/
noncomputable def frontierTargets (objective : Objective) (minReturn maxReturn : ℝ) (size : Int) : Except FrontierError (List ℝ) :=
  if size ≤ 1 then .error .sizeTooSmall
  else if objective ≠ .minimizeRisk then .error .wrongObjective
  else if maxReturn ≤ 0 then .error .onlyNegativeReturns
  else .ok (linspace (max minReturn (1 / 10 ^ 10) * (101 / 100)) maxReturn size.toNat)

/-- The problem of one target: `expected_return >= parameter * factor` is added, L949-952 (without the scale, which is positive and does not matter). -/
def withTarget (m : MeanRisk n T) (x : ℝ) : MeanRisk n T := { m with minReturns := x :: m.minReturns }

/-- A fit with `efficient_frontier_size = size`: `w0` is what the first clone finds, `w1` what the second finds (L926-940), `ws` the weights for the targets. `factor` is the constant 1. -/
structure FrontierRun (m : MeanRisk n T) (cs : List (Constraint ℝ n)) (size : Int) (w0 w1 : Fin n → ℝ) (targets : List ℝ) (ws : List (Fin n → ℝ)) : Prop where
  minimum : ∃ a, IsOptimum { m with objective := .minimizeRisk } cs w0 1 a
  maximum : ∃ a, IsOptimum { m with objective := .maximizeReturn } cs w1 1 a
  targets_eq : frontierTargets m.objective (expectedReturn m w0 1) (expectedReturn m w1 1) size = .ok targets
  points : List.Forall₂ (fun x w => ∃ a, IsOptimum (withTarget m x) cs w 1 a) targets ws

end

end Skfolio.Convex
