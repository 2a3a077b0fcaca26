import Verif.Convex.WeightModel
import Verif.Convex.RealRisk

/-!
Model of `MeanRisk.fit`, `src/skfolio/optimization/convex/_mean_risk.py` L747-1123, and of `_solve_problem` (`_base.py` L1052-1183).

A point of the problem is a vector `w`, the scale `k` (`factor`) and the auxiliary variables of the risks. `overwrite_expected_return`
is modelled for linear functions (`overwrite`). Not modelled here: `add_objective`, `add_constraints` (see `CustomModel`), the covariance uncertainty set, several parameter values at once (each is a separate problem), the solver. Where two
drawdown risks are used together the code shares the variable `v`; here each has its own, which gives the same sets of `(w, k)` (`C71_shared`). The cache of
expressions is empty before the fit (see `CacheModel`).
-/
set_option autoImplicit false

namespace Skfolio.Convex

section
variable {n T : Nat}

inductive RiskMeasure where
  | meanAbsoluteDeviation
  | firstLowerPartialMoment
  | standardDeviation
  | variance
  | semiVariance
  | semiDeviation
  | worstRealization
  | cvar
  | evar
  | maxDrawdown
  | averageDrawdown
  | cdar
  | edar
  | ulcerIndex
  | giniMeanDifference
  deriving DecidableEq

inductive Objective where
  | maximizeReturn
  | minimizeRisk
  | maximizeUtility
  | maximizeRatio
  deriving DecidableEq

/-- Parameters and data of the fit. `cholesky` is the factor of the covariance, `uncertainty` the radius and the square root of the shape matrix of
the uncertainty set of expected returns, `minReturns` the values of `min_return` and of the efficient frontier's target for this problem. -/
structure MeanRisk (n T : Nat) where
  data : Data ℝ n T
  cholesky : Fin n → Fin n → ℝ
  weights : Params ℝ n
  objective : Objective
  riskMeasure : RiskMeasure
  minAcceptableReturn : Mar ℝ n
  cvarBeta : ℝ
  evarBeta : ℝ
  cdarBeta : ℝ
  edarBeta : ℝ
  riskAversion : ℝ
  l1Coef : ℝ
  l2Coef : ℝ
  maxTrackingError : Option ℝ
  benchmark : Fin T → ℝ
  maxTurnover : Option ℝ
  minReturns : List ℝ
  riskLimits : RiskMeasure → Option ℝ
  uncertainty : Option (ℝ × (Fin n → Fin n → ℝ))
  overwrite : Option (Fin n → ℝ) := none
  scale : ℝ
  scaleObjective : ℝ

/-- The risk functions called by name, L963-1012. -/
noncomputable def riskProgram (m : MeanRisk n T) (r : RiskMeasure) (w : Fin n → ℝ) (k : ℝ) : Program ℝ :=
  match r with
  | .meanAbsoluteDeviation => madRisk m.data w m.minAcceptableReturn m.scale
  | .firstLowerPartialMoment => flpmRisk m.data w m.minAcceptableReturn k m.scale
  | .standardDeviation => standardDeviationRisk m.cholesky w m.scale
  | .variance => varianceRisk m.cholesky w m.scale
  | .semiVariance => semiVarianceRisk m.data w m.minAcceptableReturn m.scale
  | .semiDeviation => semiDeviationRisk m.data w m.minAcceptableReturn m.scale
  | .worstRealization => worstRealizationRisk m.data w k m.scale
  | .cvar => cvarRisk m.data w k m.scale m.cvarBeta
  | .evar => evarRisk m.data w m.scale m.evarBeta
  | .maxDrawdown => maxDrawdownRisk m.data w k m.scale
  | .averageDrawdown => averageDrawdownRisk m.data w k m.scale
  | .cdar => cdarRisk m.data w k m.scale m.cdarBeta
  | .edar => edarRisk m.data w k m.scale m.edarBeta
  | .ulcerIndex => ulcerIndexRisk m.data w k m.scale
  | .giniMeanDifference => giniRisk m.data w k m.scale

/-- `_cvx_mu_uncertainty_set`, _base.py L1185-1205. -/
noncomputable def muUncertainty (m : MeanRisk n T) (w : Fin n → ℝ) : ℝ :=
  match m.uncertainty with
  | none => 0
  | some (kappa, R) => kappa * Real.sqrt (∑ l, (∑ i, R l i * w i) ^ 2)

/-- The linear expression `_cvx_expected_return`, _base.py L1037-1049: the expected returns of the prior, or `overwrite_expected_return` if given. -/
noncomputable def returnVector (m : MeanRisk n T) : Fin n → ℝ := m.overwrite.getD m.data.mu

/-- `expected_return`, L875-881. -/
noncomputable def expectedReturn (m : MeanRisk n T) (w : Fin n → ℝ) (k : ℝ) : ℝ :=
  (∑ i, returnVector m i * w i) - transactionCost m.data w k - managementFee m.data w - muUncertainty m w

/-- `_cvx_regularization`, _base.py L1208-1234. -/
noncomputable def regularization (m : MeanRisk n T) (w : Fin n → ℝ) : ℝ := m.l1Coef * (∑ i, |w i|) + m.l2Coef * ∑ i, w i ^ 2

/-- `_tracking_error`, _base.py L1485-1515. -/
noncomputable def trackingError (m : MeanRisk n T) (w : Fin n → ℝ) (k : ℝ) : ℝ :=
  Real.sqrt (∑ t, (ptfReturns m.data w t - m.benchmark t * k) ^ 2) / Real.sqrt ((T : ℝ) - 1)

/-- The tracking error constraint, L886-906: the right-hand side has no `factor`. -/
def trackingConstraint (m : MeanRisk n T) (w : Fin n → ℝ) (k : ℝ) : Prop :=
  ∀ x, m.maxTrackingError = some x → trackingError m w k * m.scale ≤ x * m.scale

/-- The turnover constraint, L908-914. -/
def turnoverConstraint (m : MeanRisk n T) (w : Fin n → ℝ) (k : ℝ) : Prop :=
  ∀ x, m.maxTurnover = some x → ∀ i, |w i - m.data.previousWeights i * k| * m.scale ≤ x * k * m.scale

/-- The minimum return constraints, L923-961 (the frontier's constraint has no scale). -/
def returnConstraint (m : MeanRisk n T) (w : Fin n → ℝ) (k : ℝ) : Prop :=
  ∀ x ∈ m.minReturns, expectedReturn m w k * m.scale ≥ x * k * m.scale

/-- The risk limits, L963-1012. -/
def riskConstraint (m : MeanRisk n T) (w : Fin n → ℝ) (k : ℝ) : Prop :=
  ∀ r x, m.riskLimits r = some x → ∃ a, (riskProgram m r w k).feasible a ∧ (riskProgram m r w k).risk a * m.scale ≤ x * k * m.scale

/-- `expected_return.is_affine()`: no transaction cost and no uncertainty set. -/
def isAffine (m : MeanRisk n T) : Prop := (∀ i, m.data.transactionCosts i = 0) ∧ m.uncertainty = none

/-- `_optimal_homogenization_factor`, L1103-1123. -/
noncomputable def homogenizationFactor (mu : Fin n → ℝ) : ℝ := min 1000 (max (1 / 1000) ((∑ i, |mu i|) / (n : ℝ)))

/-- The normalisation of the ratio problem, L1038-1073. -/
def ratioConstraint (m : MeanRisk n T) (w : Fin n → ℝ) (k : ℝ) : Prop :=
  m.objective = .maximizeRatio →
    (isAffine m → expectedReturn m w k * m.scale - m.data.riskFreeRate * k * m.scale = homogenizationFactor m.data.mu * m.scale) ∧
    (¬ isAffine m → expectedReturn m w k * m.scale - m.data.riskFreeRate * k * m.scale ≥ homogenizationFactor m.data.mu * m.scale)

/-- `factor` is the constant 1 unless the ratio is maximised, L854-857. -/
def factorConstraint (m : MeanRisk n T) (k : ℝ) : Prop := m.objective ≠ .maximizeRatio → k = 1

/-- Whether `factor` is a variable. -/
def factorIsVariable (m : MeanRisk n T) : Bool := decide (m.objective = .maximizeRatio)

/-- A point of the problem satisfies all constraints. `cs` are the weight constraints, `a` the auxiliary variables of the risk measure. -/
structure Feasible (m : MeanRisk n T) (cs : List (Constraint ℝ n)) (w : Fin n → ℝ) (k : ℝ) (a : (riskProgram m m.riskMeasure w k).Aux) : Prop where
  factor : factorConstraint m k
  tracking : trackingConstraint m w k
  turnover : turnoverConstraint m w k
  weight : ∀ c ∈ cs, c w k
  return' : returnConstraint m w k
  risks : riskConstraint m w k
  aux : (riskProgram m m.riskMeasure w k).feasible a
  ratio : ratioConstraint m w k

/-- The objective, to be minimised (a maximisation is the minimisation of the negation), L1018-1080. -/
noncomputable def objectiveValue (m : MeanRisk n T) (w : Fin n → ℝ) (k : ℝ) (a : (riskProgram m m.riskMeasure w k).Aux) : ℝ :=
  let risk := (riskProgram m m.riskMeasure w k).risk a
  match m.objective with
  | .maximizeReturn => -(expectedReturn m w k * m.scaleObjective - regularization m w * m.scaleObjective)
  | .minimizeRisk => risk * m.scaleObjective + regularization m w * m.scaleObjective
  | .maximizeUtility =>
    -(expectedReturn m w k * m.scaleObjective - m.riskAversion * risk * m.scaleObjective - regularization m w * m.scaleObjective)
  | .maximizeRatio => risk * m.scaleObjective + regularization m w * m.scaleObjective

/-- What a solver that reports an optimum guarantees. -/
def IsOptimum (m : MeanRisk n T) (cs : List (Constraint ℝ n)) (w : Fin n → ℝ) (k : ℝ) (a : (riskProgram m m.riskMeasure w k).Aux) : Prop :=
  Feasible m cs w k a ∧ ∀ w' k' a', Feasible m cs w' k' a' → objectiveValue m w k a ≤ objectiveValue m w' k' a'

/-- `weights = w.value / factor.value`, `_solve_problem` L1126. -/
noncomputable def returnedWeights (w : Fin n → ℝ) (k : ℝ) : Fin n → ℝ := fun i => w i / k

end

end Skfolio.Convex
