import Verif.Convex.MeanRiskModel

/-! Model of `ConvexOptimization._solve_problem`, `src/skfolio/optimization/convex/_base.py` L1052-1183. -/
set_option autoImplicit false

namespace Skfolio.Convex

section
variable {n T : Nat}

/-- The value of a parameter (`min_return`, `max_*`): a number, or an array with one element for each optimization. -/
inductive ParamValue where
  | scalar (x : ℝ)
  | array (xs : List ℝ)

inductive SolveError where
  | lengths
  | index
  | solver
  deriving DecidableEq

/-- `weights_` and `problem_values_`: one solution, or a list. -/
inductive Solved (S : Type) where
  | single (s : S)
  | many (l : List S)

/-- `sizes`, L1096. -/
def sizesOf (params : List ParamValue) : List Nat :=
  params.filterMap fun
    | .scalar _ => none
    | .array xs => some xs.length

/-- `values[i]`, L1117; a scalar was repeated (L1105-1108) and always has an element. -/
def valueAt (i : Nat) : ParamValue → Option ℝ
  | .scalar x => some x
  | .array xs => xs[i]?

/-- The loop L1113-1164 from iteration `i` on, with `left` iterations to go. `solve i values` is what the solver finds at iteration `i` for these parameters, `none` for a `SolverError`. -/
def solveLoop {S : Type} (solve : Nat → List ℝ → Option S) (raise : Bool) (params : List ParamValue) : Nat → Nat → Except SolveError (List S)
  | _, 0 => .ok []
  | i, left + 1 =>
    match params.mapM (valueAt i) with
    | none => .error .index
    | some values =>
      match solve i values with
      | some s => (solveLoop solve raise params (i + 1) left).map (s :: ·)
      | none => if raise then .error .solver else solveLoop solve raise params (i + 1) left

/-- `_solve_problem`, L1089-1178. `np.all(sizes)` is true unless a size is 0. The warnings are not modelled. -/
def solveProblem {S : Type} (solve : Nat → List ℝ → Option S) (raise : Bool) (params : List ParamValue) : Except SolveError (Solved S) :=
  let sizes := sizesOf params
  if !sizes.all (· != 0) then .error .lengths
  else
    let optimizations := sizes.headD 1
    match solveLoop solve raise params 0 optimizations with
    | .error e => .error e
    | .ok l =>
      if optimizations = 1 then
        match l with
        | [] => .error .index
        | s :: _ => .ok (.single s)
      else .ok (.many l)

/-- `problem_values_["risk"]`, L1128-1144: divided by `factor`, for variance and semi-variance twice. -/
noncomputable def reportedRisk (r : RiskMeasure) (risk k : ℝ) : ℝ := if r = .variance ∨ r = .semiVariance then risk / k / k else risk / k

/-- `problem_values_["expected_return"]`, L1128-1132. -/
noncomputable def reportedReturn (m : MeanRisk n T) (w : Fin n → ℝ) (k : ℝ) : ℝ := expectedReturn m w k / k

/-- `problem_values_["regularization"]`, L1128-1132. -/
noncomputable def reportedRegularization (m : MeanRisk n T) (w : Fin n → ℝ) (k : ℝ) : ℝ := regularization m w / k

/-- `problem_values_["objective"]`, L1133-1135: the value of the problem, which for a maximisation is the value to maximise. -/
noncomputable def reportedObjective (m : MeanRisk n T) (w : Fin n → ℝ) (k : ℝ) (a : (riskProgram m m.riskMeasure w k).Aux) : ℝ :=
  match m.objective with
  | .maximizeReturn | .maximizeUtility => -objectiveValue m w k a / m.scaleObjective
  | .minimizeRisk | .maximizeRatio => objectiveValue m w k a / m.scaleObjective

end

end Skfolio.Convex
