import Verif.Convex.WeightModel
import Mathlib.Analysis.Normed.Group.Constructions
import Mathlib.Analysis.Normed.Group.Real
import Mathlib.Analysis.Real.Sqrt

/-!
Model of `DistributionallyRobustCVaR.fit`, `src/skfolio/optimization/convex/_distributionally_robust.py` L306-418.

Not modelled: the prior estimator (its returns are an input), custom objectives and constraints (see `CustomModel`), `overwrite_expected_return` (not read by this class), the solver (contract: it reports an optimum).
-/
set_option autoImplicit false

namespace Skfolio.Convex

section
variable {n T : Nat}

/-- The parameters and the returns of the prior model. -/
structure Robust (n T : Nat) where
  returns : Fin T → Fin n → ℝ
  cvarBeta : ℝ
  riskAversion : ℝ
  radius : ℝ
  weights : Params ℝ n
  scale : ℝ
  scaleObjective : ℝ

/-- L353. -/
def slope1 (_m : Robust n T) : ℝ := -1

/-- L354. -/
def offset1 (m : Robust n T) : ℝ := m.riskAversion

/-- L355. -/
noncomputable def slope2 (m : Robust n T) : ℝ := -1 - m.riskAversion / (1 - m.cvarBeta)

/-- L356. -/
noncomputable def offset2 (m : Robust n T) : ℝ := m.riskAversion * (1 - 1 / (1 - m.cvarBeta))

/-- The variables other than the weights, L359-363. -/
structure RobustAux (n T : Nat) where
  u : Fin T → Fin n → ℝ
  v : Fin T → Fin n → ℝ
  lb : ℝ
  tau : ℝ
  s : Fin T → ℝ

/-- The constraints on the auxiliary variables, L371-399; the norm is the maximum norm. -/
structure RobustFeasible (m : Robust n T) (w : Fin n → ℝ) (p : RobustAux n T) : Prop where
  u : ∀ i j, p.u i j * m.scale ≥ 0
  v : ∀ i j, p.v i j * m.scale ≥ 0
  first : ∀ i, offset1 m * p.tau * m.scale + slope1 m * (∑ j, m.returns i j * w j) * m.scale + (∑ j, p.u i j * (1 + m.returns i j) * 1) * m.scale ≤ p.s i * m.scale
  second : ∀ i, offset2 m * p.tau * m.scale + slope2 m * (∑ j, m.returns i j * w j) * m.scale + (∑ j, p.v i j * (1 + m.returns i j) * 1) * m.scale ≤ p.s i * m.scale
  norm1 : ∀ i, ‖fun j => -p.u i j - slope1 m * w j‖ * m.scale ≤ p.lb * m.scale
  norm2 : ∀ i, ‖fun j => -p.v i j - slope2 m * w j‖ * m.scale ≤ p.lb * m.scale

/-- The objective, L405-409. -/
noncomputable def robustObjective (m : Robust n T) (p : RobustAux n T) : ℝ := m.radius * p.lb * m.scaleObjective + 1 / (T : ℝ) * (∑ i, p.s i) * m.scaleObjective

/-- What a solver that reports an optimum guarantees; `cs` are the weight constraints, `factor` is the constant 1, so that the returned weights are `w`. -/
def RobustOptimum (m : Robust n T) (cs : List (Constraint ℝ n)) (w : Fin n → ℝ) (p : RobustAux n T) : Prop :=
  ((∀ c ∈ cs, c w 1) ∧ RobustFeasible m w p) ∧ ∀ w' p', (∀ c ∈ cs, c w' 1) → RobustFeasible m w' p' → robustObjective m p ≤ robustObjective m p'

end

end Skfolio.Convex
