import Verif.Portfolio.CacheModel
import Mathlib.Analysis.SpecialFunctions.Pow.Real

/-!
# `rolling_measure` (model)

Models `BasePortfolio.rolling_measure` (`portfolio/_base.py` L813-905) and, to compare with, `get_measure` (L718-785) without its cache. The functions of
`measures/_measures.py`, `get_drawdowns` and the division of floats are arbitrary functions. Real arithmetic.
-/

set_option autoImplicit false

namespace Skfolio.Portfolio

/-- A value of an argument of a measure function. -/
inductive ArgV
  | series (l : List ℝ)
  | optional (o : Option ℝ)
  | number (x : ℝ)

/-- The pure functions that are called. -/
structure Fns where
  func : Base → List ArgV → ℝ
  drawdowns : List ℝ → Bool → List ℝ
  /-- the division of floats -/
  div : ℝ → ℝ → ℝ

/-- A portfolio: its returns, and the attributes that measures read. -/
structure RPtf where
  returns : List ℝ
  compounded : Bool
  minAcceptableReturn : Option ℝ
  riskFreeRate : ℝ
  annualizedFactor : ℝ
  localArgs : Param → ℝ

/-- `getattr(self, arg)` for a global argument, `getattr(self, f"{measure.value}_{arg}")` for another one, L745-752 and L846-853. -/
def RPtf.arg (F : Fns) (p : RPtf) (m : Base) : Arg → Option ArgV
  | .returns => some (.series p.returns)
  | .drawdowns => some (.series (F.drawdowns p.returns p.compounded))
  | .minAcceptableReturn => some (.optional p.minAcceptableReturn)
  | a => (localParam m a).map fun q => .number (p.localArgs q)

/-- The factor applied to an annualised measure: L756-768 and L891-904. -/
noncomputable def annualFactor (f : ℝ) : Measure → ℝ
  | .base (.perf .annualizedMean) | .base (.risk .annualizedVariance) | .base (.risk .annualizedSemiVariance) => f
  | .base (.risk .annualizedStandardDeviation) | .base (.risk .annualizedSemiDeviation) | .ratio .annualizedSharpe | .ratio .annualizedSortino => Real.sqrt f
  | _ => 1

/-- `get_measure` for a perf, risk or extra risk measure, L730-775. -/
noncomputable def RPtf.getBase (F : Fns) (p : RPtf) (m : Base) : Option ℝ :=
  ((argsOf (m.nonAnnualized.getD m)).mapM (p.arg F m)).map fun vs =>
    F.func (m.nonAnnualized.getD m) vs * annualFactor p.annualizedFactor (.base m)

/-- `get_measure`, L718-785. -/
noncomputable def RPtf.getMeasure (F : Fns) (p : RPtf) : Measure → Option ℝ
  | .base m => p.getBase F m
  | .ratio r =>
    (p.getBase F (.perf (if r.isAnnualized then .annualizedMean else .mean))).bind fun mean =>
      (p.getBase F r.linked).map fun risk => F.div (mean - p.riskFreeRate) risk

/-- `non_annualized_measure` of a ratio, `measures/_enums.py` L68-72. -/
def Ratio.nonAnnualized : Ratio → Ratio
  | .annualizedSharpe => .sharpe
  | .annualizedSortino => .sortino
  | r => r

/-- An argument of `meta_risk_func`, L846-866. -/
def RPtf.windowArg (F : Fns) (p : RPtf) (m : Base) (window : List ℝ) : Arg → Option ArgV
  | .drawdowns => some (.series (F.drawdowns window p.compounded))
  | .returns => some (.series window)
  | a => p.arg F m a

/-- `meta_risk_func`, L846-866: the arguments of the portfolio, with the returns (or the drawdowns) replaced by those of the window. -/
def RPtf.riskFunc (F : Fns) (p : RPtf) (m : Base) (window : List ℝ) : Option ℝ :=
  ((argsOf m).mapM (p.windowArg F m window)).map (F.func m)

/-- `func`, L831-883. -/
def RPtf.rollFunc (F : Fns) (p : RPtf) (m : Measure) (window : List ℝ) : Option ℝ :=
  match m with
  | .base (.perf q) => some (F.func ((Base.perf q).nonAnnualized.getD (.perf q)) [.series window])
  | .base b => p.riskFunc F (b.nonAnnualized.getD b) window
  | .ratio r => (p.riskFunc F r.nonAnnualized.linked window).map fun risk =>
      F.div (F.func (.perf .mean) [.series window] - p.riskFreeRate) risk

/-- `rolling_measure`, L813-905: for every observation the value of `pd.Series.rolling(window).apply(func)`, NaN (`none` inside) while the window is not full; `none` outside
is an error. `window` is at least 1. -/
noncomputable def RPtf.rolling (F : Fns) (p : RPtf) (m : Measure) (window : Nat) : Option (List (Option ℝ)) :=
  (List.range p.returns.length).mapM fun t =>
    if t + 1 < window then some none
    else (p.rollFunc F m ((p.returns.take (t + 1)).drop (t + 1 - window))).map fun v => some (v * annualFactor p.annualizedFactor m)

end Skfolio.Portfolio
