import Mathlib.Analysis.SpecialFunctions.Log.Base
import Mathlib.Algebra.Order.Round
import Verif.Portfolio.Enums

/-!
Model of how measures are displayed: `format_measure` and `optimal_rounding_decimals` (`src/skfolio/utils/tools.py` L506-550, abbreviated T), `BasePortfolio.summary`
(`src/skfolio/portfolio/_base.py` L907-949, abbreviated B), `Portfolio.summary` (`src/skfolio/portfolio/_portfolio.py` L821-843), `MultiPeriodPortfolio.summary`
(`src/skfolio/portfolio/_multi_period_portfolio.py` L605-627) and the names of the measures (`src/skfolio/measures/_enums.py` L13-36, abbreviated E).
Floats are real numbers, infinities and NaN; the rounding of the product by 100, of the logarithm and the negative zero are not modelled. Python's fixed-point formatting rounds
the exact value, ties to even.
-/
set_option autoImplicit false

namespace Skfolio.Display
open Skfolio.Portfolio

/-- A float. -/
inductive Num where
  | nan
  | inf (negative : Bool)
  | fin (x : ℝ)

inductive Err where
  /-- `int(inf)` -/
  | overflow
  /-- `int(nan)` -/
  | value

/-- `int(r)`: towards zero. -/
noncomputable def pyInt (r : ℝ) : ℤ := if 0 ≤ r then ⌊r⌋ else ⌈r⌉

/-- `optimal_rounding_decimals`, T L537-550. `np.log10(0)` is `-inf`. -/
noncomputable def optimalRoundingDecimals : Num → Except Err ℤ
  | .nan => .error .value
  | .inf _ => .error .overflow
  | .fin x => if x = 0 then .error .overflow else .ok (min 6 (max (pyInt (-Real.logb 10 |x|) + 2) 2))

/-- A number in fixed-point notation: a sign, the digits read as one number, how many of them are after the point, and a `%` sign. -/
structure Text where
  negative : Bool
  mantissa : ℕ
  decimals : ℕ
  percent : Bool

/-- Rounding to an integer, ties to even. -/
noncomputable def roundEven (r : ℝ) : ℤ :=
  if Int.fract r < 1 / 2 then ⌊r⌋ else if 1 / 2 < Int.fract r then ⌊r⌋ + 1 else if Even ⌊r⌋ then ⌊r⌋ else ⌊r⌋ + 1

/-- `"{value:.nf}".format(value=v)`. -/
noncomputable def pyFixed (v : ℝ) (n : ℕ) (percent : Bool) : Text :=
  ⟨decide (v < 0), (roundEven (|v| * 10 ^ n)).toNat, n, percent⟩

/-- What is displayed. -/
inductive Shown where
  | nan
  | number (t : Text)

/-- `format_measure`, T L506-534. With `%` Python multiplies the number by 100. -/
noncomputable def formatMeasure (x : Num) (percent : Bool) : Except Err Shown :=
  match x with
  | .nan => .ok .nan
  | .inf s => match optimalRoundingDecimals (.inf s) with
    | .error e => .error e
    | .ok _ => .ok .nan                            -- not reached
  | .fin x =>
    let xn := if percent then x * 100 else x
    if xn = 0 then .ok (.number (pyFixed xn 0 percent))
    else match optimalRoundingDecimals (.fin xn) with
      | .error e => .error e
      | .ok n => .ok (.number (pyFixed xn n.toNat percent))

/-! ### names of the measures -/

/-- The value of a measure, which is its name in lower case (`AutoEnum`, T L46-55); E L163-181, L84-87, L221-227. -/
def baseValue : Base → String
  | .perf .mean => "mean"
  | .perf .annualizedMean => "annualized_mean"
  | .risk .variance => "variance"
  | .risk .annualizedVariance => "annualized_variance"
  | .risk .semiVariance => "semi_variance"
  | .risk .annualizedSemiVariance => "annualized_semi_variance"
  | .risk .standardDeviation => "standard_deviation"
  | .risk .annualizedStandardDeviation => "annualized_standard_deviation"
  | .risk .semiDeviation => "semi_deviation"
  | .risk .annualizedSemiDeviation => "annualized_semi_deviation"
  | .risk .meanAbsoluteDeviation => "mean_absolute_deviation"
  | .risk .cvar => "cvar"
  | .risk .evar => "evar"
  | .risk .worstRealization => "worst_realization"
  | .risk .cdar => "cdar"
  | .risk .maxDrawdown => "max_drawdown"
  | .risk .averageDrawdown => "average_drawdown"
  | .risk .edar => "edar"
  | .risk .firstLowerPartialMoment => "first_lower_partial_moment"
  | .risk .ulcerIndex => "ulcer_index"
  | .risk .giniMeanDifference => "gini_mean_difference"
  | .extra .valueAtRisk => "value_at_risk"
  | .extra .drawdownAtRisk => "drawdown_at_risk"
  | .extra .entropicRiskMeasure => "entropic_risk_measure"
  | .extra .fourthCentralMoment => "fourth_central_moment"
  | .extra .fourthLowerPartialMoment => "fourth_lower_partial_moment"
  | .extra .skew => "skew"
  | .extra .kurtosis => "kurtosis"

/-- The value of a ratio, E L300-317. -/
def ratioValue : Ratio → String
  | .sharpe => "sharpe_ratio"
  | .annualizedSharpe => "annualized_sharpe_ratio"
  | .sortino => "sortino_ratio"
  | .annualizedSortino => "annualized_sortino_ratio"
  | .meanAbsoluteDeviation => "mean_absolute_deviation_ratio"
  | .firstLowerPartialMoment => "first_lower_partial_moment_ratio"
  | .valueAtRisk => "value_at_risk_ratio"
  | .cvar => "cvar_ratio"
  | .entropicRiskMeasure => "entropic_risk_measure_ratio"
  | .evar => "evar_ratio"
  | .worstRealization => "worst_realization_ratio"
  | .drawdownAtRisk => "drawdown_at_risk_ratio"
  | .cdar => "cdar_ratio"
  | .calmar => "calmar_ratio"
  | .averageDrawdown => "average_drawdown_ratio"
  | .edar => "edar_ratio"
  | .ulcerIndex => "ulcer_index_ratio"
  | .giniMeanDifference => "gini_mean_difference_ratio"

def measureValue : Measure → String
  | .base b => baseValue b
  | .ratio r => ratioValue r

abbrev Word := List Char

/-- `str.split("_")`. -/
def splitUnderscore : Word → (acc : Word) → List Word
  | [], acc => [acc]
  | c :: r, acc => if c = '_' then acc :: splitUnderscore r [] else splitUnderscore r (acc ++ [c])

def upper (w : Word) : Word := w.map Char.toUpper
def lower (w : Word) : Word := w.map Char.toLower

/-- `str.capitalize()`. -/
def capitalize : Word → Word
  | [] => []
  | c :: r => c.toUpper :: lower r

/-- The case of one word, E L17-25. -/
def casing (w : Word) : Word := if 3 < w.length then capitalize w else if w.length ≠ 2 then upper w else lower w

/-- `CVAR` becomes `CVaR`, E L27-30. -/
def varCase (w : Word) : Word :=
  if (w.length = 3 ∨ w.length = 4) ∧ lower (w.drop (w.length - 2)) = ['a', 'r'] then
    (upper w).take (w.length - 2) ++ lower (((upper w).drop (w.length - 2)).take 1) ++ (upper w).drop (w.length - 1)
  else w

/-- `" ".join(words)`. -/
def joinSpace : List Word → Word
  | [] => []
  | [w] => w
  | w :: l => w ++ ' ' :: joinSpace l

/-- `.replace("Semi ", "Semi-")`. -/
def replaceSemi : Word → Word
  | 'S' :: 'e' :: 'm' :: 'i' :: ' ' :: r => 'S' :: 'e' :: 'm' :: 'i' :: '-' :: replaceSemi r
  | c :: r => c :: replaceSemi r
  | [] => []

/-- `BaseMeasure.__repr__`, E L15-32, from the value. -/
def title (value : Word) : Word :=
  match (splitUnderscore value []).map casing with
  | [] => []
  | w :: l => replaceSemi (joinSpace (varCase w :: l))

/-- `str(e)`. -/
def measureName (e : Measure) : Word := title (measureValue e).toList

/-! ### the summary -/

def allPerf : List Perf := [.mean, .annualizedMean]
def allRisk : List Risk :=
  [.variance, .annualizedVariance, .semiVariance, .annualizedSemiVariance, .standardDeviation, .annualizedStandardDeviation, .semiDeviation, .annualizedSemiDeviation,
   .meanAbsoluteDeviation, .cvar, .evar, .worstRealization, .cdar, .maxDrawdown, .averageDrawdown, .edar, .firstLowerPartialMoment, .ulcerIndex, .giniMeanDifference]
def allExtra : List Extra :=
  [.valueAtRisk, .drawdownAtRisk, .entropicRiskMeasure, .fourthCentralMoment, .fourthLowerPartialMoment, .skew, .kurtosis]
def allRatio : List Ratio :=
  [.sharpe, .annualizedSharpe, .sortino, .annualizedSortino, .meanAbsoluteDeviation, .firstLowerPartialMoment, .valueAtRisk, .cvar, .entropicRiskMeasure, .evar,
   .worstRealization, .drawdownAtRisk, .cdar, .calmar, .averageDrawdown, .edar, .ulcerIndex, .giniMeanDifference]

/-- `for enu in [PerfMeasure, RiskMeasure, ExtraRiskMeasure, RatioMeasure] for e in enu`, B L921-925. -/
def measures : List Measure :=
  allPerf.map (.base ∘ .perf) ++ allRisk.map (.base ∘ .risk) ++ allExtra.map (.base ∘ .extra) ++ allRatio.map .ratio

/-- The attributes of a portfolio whose name ends in `_beta`, without this ending, B L415-422. -/
def betaAttributes : List String := ["value_at_risk", "cvar", "entropic_risk_measure", "evar", "drawdown_at_risk", "cdar", "edar"]

/-- What `summary` reads from a portfolio: the confidence levels and the measures, by the names of their attributes. -/
structure Ptf where
  beta : String → ℝ
  measure : String → Num

/-- `getattr(self, f"{base_measure.value}_beta")`, B L929-934; `none` is the `AttributeError`. -/
def levelName (e : Measure) : Option String :=
  let base := match e with
    | .ratio r => baseValue r.linked
    | .base b => baseValue b
  if base ∈ betaAttributes then some base else none

/-- `f"{beta:.0%}"`. -/
noncomputable def pct (beta : ℝ) : Text := pyFixed (beta * 100) 0 true

/-- The characters of a text; only for texts without decimals, as the confidence levels have. -/
def Text.whole (t : Text) : Word := (if t.negative then ['-'] else []) ++ (Nat.repr t.mantissa).toList ++ (if t.percent then ['%'] else [])

/-- The row of a measure, B L928-937. -/
noncomputable def key (p : Ptf) (e : Measure) : Word :=
  match levelName e with
  | some b => measureName e ++ [' ', 'a', 't', ' '] ++ (pct (p.beta b)).whole
  | none => measureName e

/-- `percent`, B L938-944. -/
def asPercent (e : Measure) : Bool :=
  if e.isRatio || e == .base (.extra .entropicRiskMeasure) || e == .base (.risk .ulcerIndex) then false else true

/-- A value of the summary: a formatted measure, an unformatted one, a count or an average as it is or as text. -/
inductive Cell where
  | shown (s : Shown)
  | raw (x : Num)

/-- `summary[key] = value`: a row that exists is overwritten in its place. -/
def assign {α : Type} (d : List (Word × α)) (k : Word) (v : α) : List (Word × α) :=
  if k ∈ d.map Prod.fst then d.map fun r => if r.1 = k then (k, v) else r else d ++ [(k, v)]

/-- The loop of `BasePortfolio.summary`, B L927-949. -/
noncomputable def summaryLoop (p : Ptf) (formatted : Bool) : List Measure → (acc : List (Word × Cell)) → Except Err (List (Word × Cell))
  | [], acc => .ok acc
  | e :: l, acc =>
    if formatted then
      match formatMeasure (p.measure (measureValue e)) (asPercent e) with
      | .error err => .error err
      | .ok s => summaryLoop p formatted l (assign acc (key p e) (.shown s))
    else summaryLoop p formatted l (assign acc (key p e) (.raw (p.measure (measureValue e))))

/-- `BasePortfolio.summary`. -/
noncomputable def summary (p : Ptf) (formatted : Bool) : Except Err (List (Word × Cell)) := summaryLoop p formatted measures []

/-- The two rows added to it: `Portfolio.summary` L836-842 with the effective number of assets and the number of assets, `MultiPeriodPortfolio.summary` L620-626 with the number of portfolios
and their average number of assets. How these two numbers are printed is not modelled. -/
noncomputable def summaryOf (rows : List (Word × Num)) (p : Ptf) (formatted : Bool) : Except Err (List (Word × Cell)) :=
  match summary p formatted with
  | .error e => .error e
  | .ok d => .ok (rows.foldl (fun d r => assign d r.1 (.raw r.2)) d)

/-- The rows of `Portfolio.summary`. -/
def portfolioRows (effective number : Num) : List (Word × Num) :=
  [("Effective Number of Assets".toList, effective), ("Assets Number".toList, number)]

/-- The rows of `MultiPeriodPortfolio.summary`. -/
def multiRows (number average : Num) : List (Word × Num) :=
  [("Portfolios Number".toList, number), ("Avg nb of Assets per Portfolio".toList, average)]

end Skfolio.Display
