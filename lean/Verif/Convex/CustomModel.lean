import Verif.Convex.RiskBudgetingModel
import Verif.Convex.RobustModel

/-!
Model of the custom functions of the convex optimisations: `_call_custom_func`, `_get_custom_objective` and `_get_custom_constraints`, `src/skfolio/optimization/convex/_base.py` L571-613 and
L991-1034, and of their use in `MeanRisk` (`_mean_risk.py` L1014-1080), `RiskBudgeting` (`_risk_budgeting.py` L548-554) and `DistributionallyRobustCVaR` (`_distributionally_robust.py` L402-410).

A CVXPY expression is the function of the value of the variable `w` it denotes, a CVXPY constraint a proposition about that value. Not modelled: the convexity rules of CVXPY, expressions that contain
variables of their own.
-/
set_option autoImplicit false

namespace Skfolio.Convex

/-- The arguments a custom function is called with. -/
inductive CustomArg where
  | weights
  | estimator
  deriving DecidableEq

/-- A Python object given as custom function. A function or a method has a code object with `argcount` positional parameters (`co_argcount`: for a bound method the object it is bound to is counted), of which
the last `defaults` are optional; `body` is what it returns for the arguments passed, `none` if it raises. `*args` and keyword-only parameters (not counted by `co_argcount`) are not modelled.
Objects without `__code__` are e.g. `functools.partial` objects and instances with `__call__`. -/
inductive PyCallable (β : Type) where
  | noCode
  | function (argcount defaults : Nat) (bound : Bool) (body : List CustomArg → Option β)

/-- The exceptions of `_call_custom_func`: the two `ValueError`s and the `TypeError`. -/
inductive CustomErr where
  | invalid
  | arguments (n : Nat)
  | calling
  deriving DecidableEq

/-- A Python call with positional arguments: a `TypeError` if there are too few or too many. -/
def pyCall {β : Type} (argcount defaults : Nat) (bound : Bool) (body : List CustomArg → Option β) (args : List CustomArg) : Option β :=
  let got := args.length + (if bound then 1 else 0)
  if argcount ≤ got + defaults ∧ got ≤ argcount then body args else none

/-- L604-613: every exception of the call becomes a `TypeError`. -/
def guardCall {β : Type} : Option β → Except CustomErr β
  | some v => .ok v
  | none => .error .calling

/-- `_call_custom_func`, L571-613. -/
def callCustomFunc {β : Type} (f : PyCallable β) : Except CustomErr β :=
  match f with
  | .noCode => .error .invalid
  | .function argcount defaults bound body =>
    if argcount = 1 then guardCall (pyCall argcount defaults bound body [.weights])
    else if argcount = 2 then guardCall (pyCall argcount defaults bound body [.weights, .estimator])
    else .error (.arguments argcount)

/-- An expression in the weights. -/
abbrev WeightExpr (n : Nat) := (Fin n → ℝ) → ℝ

/-- A constraint on the weights. -/
abbrev WeightProp (n : Nat) := (Fin n → ℝ) → Prop

/-- What a function for `add_constraints` returns: a constraint or a list of constraints. -/
inductive OneOrMany (α : Type) where
  | one (x : α)
  | many (l : List α)

section
variable {n T : Nat}

/-- `_get_custom_objective`, L991-1010: the constant 0 by default. -/
def getCustomObjective (f : Option (PyCallable (WeightExpr n))) : Except CustomErr (WeightExpr n) :=
  match f with
  | none => .ok fun _ => 0
  | some f => callCustomFunc f

/-- `_get_custom_constraints`, L1012-1034: none by default; a single constraint becomes a list. -/
def getCustomConstraints (f : Option (PyCallable (OneOrMany (WeightProp n)))) : Except CustomErr (List (WeightProp n)) :=
  match f with
  | none => .ok []
  | some f =>
    match callCustomFunc f with
    | .error e => .error e
    | .ok (.many l) => .ok l
    | .ok (.one c) => .ok [c]

/-! #### MeanRisk -/

/-- The constraints of the problem, the custom constraints `con` included (L1016): they are about the variable `w`, not about `w / factor`. -/
def CustomFeasible (m : MeanRisk n T) (cs : List (Constraint ℝ n)) (con : List (WeightProp n)) (w : Fin n → ℝ) (k : ℝ) (a : (riskProgram m m.riskMeasure w k).Aux) : Prop :=
  Feasible m cs w k a ∧ ∀ c ∈ con, c w

/-- The objective with the custom objective `g`, to be minimised (a maximisation is the minimisation of the negation), L1018-1076. -/
noncomputable def customObjectiveValue (m : MeanRisk n T) (g : WeightExpr n) (w : Fin n → ℝ) (k : ℝ) (a : (riskProgram m m.riskMeasure w k).Aux) : ℝ :=
  let risk := (riskProgram m m.riskMeasure w k).risk a
  match m.objective with
  | .maximizeReturn => -(expectedReturn m w k * m.scaleObjective - regularization m w * m.scaleObjective + g w * m.scaleObjective)
  | .minimizeRisk => risk * m.scaleObjective + regularization m w * m.scaleObjective + g w * m.scaleObjective
  | .maximizeUtility =>
    -(expectedReturn m w k * m.scaleObjective - m.riskAversion * risk * m.scaleObjective - regularization m w * m.scaleObjective + g w * m.scaleObjective)
  | .maximizeRatio => risk * m.scaleObjective + regularization m w * m.scaleObjective + g w * m.scaleObjective

/-- What a solver that reports an optimum guarantees. -/
def CustomOptimum (m : MeanRisk n T) (cs : List (Constraint ℝ n)) (con : List (WeightProp n)) (g : WeightExpr n) (w : Fin n → ℝ) (k : ℝ) (a : (riskProgram m m.riskMeasure w k).Aux) : Prop :=
  CustomFeasible m cs con w k a ∧ ∀ w' k' a', CustomFeasible m cs con w' k' a' → customObjectiveValue m g w k a ≤ customObjectiveValue m g w' k' a'

/-! #### RiskBudgeting -/

/-- `_risk_budgeting.py` L548-554. -/
def CustomBudgetOptimum (m : RiskBudgeting n T) (cs : List (Constraint ℝ n)) (con : List (WeightProp n)) (g : WeightExpr n) (w : Fin n → ℝ) (k c : ℝ)
    (a : (riskProgram m.base m.base.riskMeasure w (riskFactor m.base.riskMeasure k)).Aux) : Prop :=
  (BudgetFeasible m cs w k c a ∧ ∀ p ∈ con, p w) ∧ ∀ w' k' c' a', BudgetFeasible m cs w' k' c' a' → (∀ p ∈ con, p w') →
    (riskProgram m.base m.base.riskMeasure w (riskFactor m.base.riskMeasure k)).risk a * m.base.scaleObjective + g w * m.base.scaleObjective ≤
      (riskProgram m.base m.base.riskMeasure w' (riskFactor m.base.riskMeasure k')).risk a' * m.base.scaleObjective + g w' * m.base.scaleObjective

/-! #### DistributionallyRobustCVaR -/

/-- `_distributionally_robust.py` L402-410; `factor` is the constant 1. -/
def CustomRobustOptimum (m : Robust n T) (cs : List (Constraint ℝ n)) (con : List (WeightProp n)) (g : WeightExpr n) (w : Fin n → ℝ) (p : RobustAux n T) : Prop :=
  ((∀ c ∈ cs, c w 1) ∧ RobustFeasible m w p ∧ ∀ c ∈ con, c w) ∧
    ∀ w' p', (∀ c ∈ cs, c w' 1) → RobustFeasible m w' p' → (∀ c ∈ con, c w') → robustObjective m p + g w * m.scaleObjective ≤ robustObjective m p' + g w' * m.scaleObjective

end

end Skfolio.Convex
