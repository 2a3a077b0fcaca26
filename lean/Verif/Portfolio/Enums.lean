import Mathlib.Data.Nat.Notation

/-!
# The enumeration of measures (model)

Models `measures/_enums.py`.
-/

set_option autoImplicit false

namespace Skfolio.Portfolio

/-- `PerfMeasure`, `measures/_enums.py` L75-103. -/
inductive Perf | mean | annualizedMean
  deriving DecidableEq, Repr

/-- `RiskMeasure`, `measures/_enums.py` L106-198. -/
inductive Risk
  | variance | annualizedVariance | semiVariance | annualizedSemiVariance | standardDeviation
  | annualizedStandardDeviation | semiDeviation | annualizedSemiDeviation | meanAbsoluteDeviation | cvar | evar
  | worstRealization | cdar | maxDrawdown | averageDrawdown | edar | firstLowerPartialMoment | ulcerIndex
  | giniMeanDifference
  deriving DecidableEq, Repr

/-- `ExtraRiskMeasure`, `measures/_enums.py` L200-246. -/
inductive Extra
  | valueAtRisk | drawdownAtRisk | entropicRiskMeasure | fourthCentralMoment | fourthLowerPartialMoment | skew
  | kurtosis
  deriving DecidableEq, Repr

/-- `RatioMeasure`, `measures/_enums.py` L249-339. -/
inductive Ratio
  | sharpe | annualizedSharpe | sortino | annualizedSortino | meanAbsoluteDeviation | firstLowerPartialMoment
  | valueAtRisk | cvar | entropicRiskMeasure | evar | worstRealization | drawdownAtRisk | cdar | calmar
  | averageDrawdown | edar | ulcerIndex | giniMeanDifference
  deriving DecidableEq, Repr

/-- A measure that is not a ratio. -/
inductive Base | perf (p : Perf) | risk (r : Risk) | extra (e : Extra)
  deriving DecidableEq, Repr

/-- Any measure. -/
inductive Measure | base (b : Base) | ratio (r : Ratio)
  deriving DecidableEq, Repr

/-- `is_perf`, `is_risk`, `is_ratio`, `measures/_enums.py` L94-103, L187-198, L235-246, L319-330. -/
def Measure.isPerf : Measure → Bool
  | .base (.perf _) => true
  | _ => false
@[inherit_doc Measure.isPerf]
def Measure.isRisk : Measure → Bool
  | .base (.risk _) => true
  | .base (.extra _) => true
  | _ => false
@[inherit_doc Measure.isPerf]
def Measure.isRatio : Measure → Bool
  | .ratio _ => true
  | _ => false

/-- `non_annualized_measure`, `measures/_enums.py` L68-72, together with `is_annualized`, L52-54: `some` of the
non-annualised measure for the annualised ones. -/
def Base.nonAnnualized : Base → Option Base
  | .perf .annualizedMean => some (.perf .mean)
  | .risk .annualizedVariance => some (.risk .variance)
  | .risk .annualizedSemiVariance => some (.risk .semiVariance)
  | .risk .annualizedStandardDeviation => some (.risk .standardDeviation)
  | .risk .annualizedSemiDeviation => some (.risk .semiDeviation)
  | _ => none

/-- `is_annualized` on ratio measures, `measures/_enums.py` L52-54. -/
def Ratio.isAnnualized : Ratio → Bool
  | .annualizedSharpe | .annualizedSortino => true
  | _ => false

/-- `linked_risk_measure`, `measures/_enums.py` L332-350. -/
def Ratio.linked : Ratio → Base
  | .sharpe => .risk .standardDeviation
  | .annualizedSharpe => .risk .annualizedStandardDeviation
  | .sortino => .risk .semiDeviation
  | .annualizedSortino => .risk .annualizedSemiDeviation
  | .calmar => .risk .maxDrawdown
  | .meanAbsoluteDeviation => .risk .meanAbsoluteDeviation
  | .firstLowerPartialMoment => .risk .firstLowerPartialMoment
  | .valueAtRisk => .extra .valueAtRisk
  | .cvar => .risk .cvar
  | .entropicRiskMeasure => .extra .entropicRiskMeasure
  | .evar => .risk .evar
  | .worstRealization => .risk .worstRealization
  | .drawdownAtRisk => .extra .drawdownAtRisk
  | .cdar => .risk .cdar
  | .averageDrawdown => .risk .averageDrawdown
  | .edar => .risk .edar
  | .ulcerIndex => .risk .ulcerIndex
  | .giniMeanDifference => .risk .giniMeanDifference

end Skfolio.Portfolio
