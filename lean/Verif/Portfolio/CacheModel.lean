import Verif.Portfolio.Enums

/-!
# Attribute access and caching of `BasePortfolio` (model)

Models `portfolio/_base.py`: `__getattribute__`, `__setattr__`, `__copy__`, `clear`, `get_measure`, the setters of
`fitness_measures` and `annualized_factor` and the cached properties, and the way `MultiPeriodPortfolio` replaces its
returns.  Python values are elements of an arbitrary type `V`; the measure functions of `measures/_measures.py` are
arbitrary functions on such values (they are pure), collected in `Lib`.
-/

set_option autoImplicit false

namespace Skfolio.Portfolio

/-- Parameters held by a portfolio that measures read: the attributes of `_measure_global_args` that are not themselves
computed (`portfolio/_base.py` L372-379), those of `_measure_local_args` (L382-391), the annualised factor, and two
attributes no measure reads. -/
inductive Param
  | returns | observations | minAcceptableReturn | compounded | riskFreeRate
  | valueAtRiskBeta | cvarBeta | entropicTheta | entropicBeta | evarBeta | drawdownAtRiskBeta | cdarBeta | edarBeta
  | annualizedFactor | tag | name
  deriving DecidableEq, Repr

/-- Argument names of the measure functions, `measures/_measures.py`. -/
inductive Arg | returns | drawdowns | minAcceptableReturn | beta | theta
  deriving DecidableEq, Repr

/-- `args_names(func)` for the function of a (non-annualised) measure, `measures/_measures.py` signatures (L13, L29-30,
L54-55, L82, L98-99, L127, L143-144, L185, L205, L221, L240-241, L272, L288, L314, L341-342, L369, L456, L477, L493,
L509, L529, L552, L586). -/
def argsOf : Base → List Arg
  | .perf _ => [.returns]
  | .risk .meanAbsoluteDeviation | .risk .firstLowerPartialMoment | .risk .semiVariance | .risk .semiDeviation
  | .risk .annualizedSemiVariance | .risk .annualizedSemiDeviation
  | .extra .fourthLowerPartialMoment => [.returns, .minAcceptableReturn]
  | .risk .cvar | .risk .evar | .extra .valueAtRisk => [.returns, .beta]
  | .extra .entropicRiskMeasure => [.returns, .theta, .beta]
  | .extra .drawdownAtRisk | .risk .cdar | .risk .edar => [.drawdowns, .beta]
  | .risk .maxDrawdown | .risk .averageDrawdown | .risk .ulcerIndex => [.drawdowns]
  | _ => [.returns]

/-- The attribute named `f"{measure.value}_{arg}"`, if the class has one (`portfolio/_base.py` L382-391, L749). -/
def localParam : Base → Arg → Option Param
  | .extra .valueAtRisk, .beta => some .valueAtRiskBeta
  | .risk .cvar, .beta => some .cvarBeta
  | .extra .entropicRiskMeasure, .theta => some .entropicTheta
  | .extra .entropicRiskMeasure, .beta => some .entropicBeta
  | .risk .evar, .beta => some .evarBeta
  | .extra .drawdownAtRisk, .beta => some .drawdownAtRiskBeta
  | .risk .cdar, .beta => some .cdarBeta
  | .risk .edar, .beta => some .edarBeta
  | _, _ => none

/-- The pure functions used by the portfolio: `func m args` is the measure function of `measures/_measures.py` applied to its
arguments (NaN on an exception, L769-775), `drawdowns`/`cumulative` are `get_drawdowns`/`get_cumulative_returns` applied
to returns and `compounded`, `annualize m value factor` multiplies by the factor or its square root (L756-768), `ratio`
is `(mean - risk_free_rate) / risk` (L783), `signed` and `array` build the fitness (L659-666). -/
structure Lib (V : Type) where
  func : Base → List V → V
  drawdowns : V → V → V
  cumulative : V → V → V
  annualize : Base → V → V → V
  ratio : V → V → V → V
  signed : Bool → V → V
  array : List V → V

/-- The slots that are filled lazily: the measures and `_fitness`, `_cumulative_returns`, `_drawdowns`. -/
inductive Slot | measure (m : Measure) | fitness | cumulative | drawdowns
  deriving DecidableEq, Repr

/-- A portfolio object. -/
structure State (V : Type) where
  params : Param → V
  fitnessMeasures : List Measure
  cache : Slot → Option V

variable {V : Type}

inductive Err | attributeError | typeError
  deriving DecidableEq, Repr

/-- `object.__setattr__` on a lazily filled slot. -/
def State.store (s : State V) (k : Slot) (v : V) : State V :=
  { s with cache := fun k' => if k' = k then some v else s.cache k' }

/-- `object.__delattr__`, tolerant of slots that are not filled, `portfolio/_base.py` L592-602. -/
def State.del (s : State V) (k : Slot) : State V :=
  { s with cache := fun k' => if k' = k then none else s.cache k' }

/-- `clear`, `portfolio/_base.py` L712-716. -/
def State.clear (s : State V) : State V := { s with cache := fun _ => none }

/-- The cached property `drawdowns`, `portfolio/_base.py` L675-678 with `cached_property_slots`, `utils/tools.py`
L92-106. -/
def readDrawdowns (L : Lib V) (s : State V) : V × State V :=
  match s.cache .drawdowns with
  | some v => (v, s)
  | none =>
    let v := L.drawdowns (s.params .returns) (s.params .compounded)
    (v, s.store .drawdowns v)

/-- The cached property `cumulative_returns`, `portfolio/_base.py` L668-673. -/
def readCumulative (L : Lib V) (s : State V) : V × State V :=
  match s.cache .cumulative with
  | some v => (v, s)
  | none =>
    let v := L.cumulative (s.params .returns) (s.params .compounded)
    (v, s.store .cumulative v)

/-- One argument of a measure function, `portfolio/_base.py` L745-752: a global argument is the attribute of that name, any
other one the attribute `f"{measure.value}_{arg}"`. -/
def readArg (L : Lib V) (m : Base) (s : State V) : Arg → Except Err (V × State V)
  | .returns => .ok (s.params .returns, s)
  | .minAcceptableReturn => .ok (s.params .minAcceptableReturn, s)
  | .drawdowns => .ok (readDrawdowns L s)
  | a => match localParam m a with
    | some p => .ok (s.params p, s)
    | none => .error .attributeError

/-- All arguments, in order, `portfolio/_base.py` L745-752. -/
def readArgs (L : Lib V) (m : Base) : State V → List Arg → Except Err (List V × State V)
  | s, [] => .ok ([], s)
  | s, a :: rest =>
    match readArg L m s a with
    | .error e => .error e
    | .ok (v, s1) => match readArgs L m s1 rest with
      | .error e => .error e
      | .ok (vs, s2) => .ok (v :: vs, s2)

/-- `get_measure` for a perf, risk or extra risk measure, `portfolio/_base.py` L730-775. -/
def getBase (L : Lib V) (s : State V) (m : Base) : Except Err (V × State V) :=
  match readArgs L m s (argsOf (m.nonAnnualized.getD m)) with
  | .error e => .error e
  | .ok (vs, s1) =>
    let value := L.func (m.nonAnnualized.getD m) vs
    if m.nonAnnualized.isSome then .ok (L.annualize m value (s1.params .annualizedFactor), s1) else .ok (value, s1)

/-- Reading such a measure as an attribute, `portfolio/_base.py` L566-578. -/
def readBase (L : Lib V) (s : State V) (m : Base) : Except Err (V × State V) :=
  match s.cache (.measure (.base m)) with
  | some v => .ok (v, s)
  | none => match getBase L s m with
    | .error e => .error e
    | .ok (v, s1) => .ok (v, s1.store (.measure (.base m)) v)

/-- `get_measure` for a ratio, `portfolio/_base.py` L776-783. -/
def getRatio (L : Lib V) (s : State V) (r : Ratio) : Except Err (V × State V) :=
  match readBase L s (.perf (if r.isAnnualized then .annualizedMean else .mean)) with
  | .error e => .error e
  | .ok (mean, s1) => match readBase L s1 r.linked with
    | .error e => .error e
    | .ok (risk, s2) => .ok (L.ratio mean (s2.params .riskFreeRate) risk, s2)

/-- Reading any measure as an attribute, `portfolio/_base.py` L566-578. -/
def readMeasure (L : Lib V) (s : State V) : Measure → Except Err (V × State V)
  | .base b => readBase L s b
  | .ratio r => match s.cache (.measure (.ratio r)) with
    | some v => .ok (v, s)
    | none => match getRatio L s r with
      | .error e => .error e
      | .ok (v, s1) => .ok (v, s1.store (.measure (.ratio r)) v)

/-- The loop of `fitness`, `portfolio/_base.py` L659-665: sign `+1` (`true`) for perf and ratio measures, else `-1`. -/
def fitnessLoop (L : Lib V) : State V → List Measure → Except Err (List V × State V)
  | s, [] => .ok ([], s)
  | s, m :: rest =>
    match readMeasure L s m with
    | .error e => .error e
    | .ok (v, s1) => match fitnessLoop L s1 rest with
      | .error e => .error e
      | .ok (vs, s2) => .ok (L.signed (m.isPerf || m.isRatio) v :: vs, s2)

/-- The cached property `fitness`, `portfolio/_base.py` L656-666. -/
def readFitness (L : Lib V) (s : State V) : Except Err (V × State V) :=
  match s.cache .fitness with
  | some v => .ok (v, s)
  | none => match fitnessLoop L s s.fitnessMeasures with
    | .error e => .error e
    | .ok (vs, s1) => .ok (L.array vs, s1.store .fitness (L.array vs))

/-- Attribute assignment on a loaded portfolio, `portfolio/_base.py` L580-590, and the setter of `annualized_factor`,
L651-654: read-only attributes raise, arguments of measures clear the cache. -/
def setParam (s : State V) (p : Param) (v : V) : Except Err (State V) :=
  let put (s : State V) : State V := { s with params := fun q => if q = p then v else s.params q }
  match p with
  | .returns | .observations => .error .attributeError
  | .tag | .name => .ok (put s)
  | .annualizedFactor => .ok (put s).clear
  | _ => .ok (put s.clear)

/-- The setter of `fitness_measures`, `portfolio/_base.py` L633-643 (the type of the items is enforced by the types here). -/
def setFitnessMeasures (s : State V) (l : List Measure) : Except Err (State V) :=
  if l = [] then .error .typeError else .ok ({ s with fitnessMeasures := l }.del .fitness)

/-- `__copy__`, `portfolio/_base.py` L553-564: all slots except the measures are copied. -/
def copy (s : State V) : State V :=
  { s with cache := fun k => match k with | .measure _ => none | k => s.cache k }

/-- Construction, `portfolio/_base.py` L470-527: no lazily filled slot is filled. -/
def construct (params : Param → V) (fm : Option (List Measure)) : State V :=
  { params := params,
    fitnessMeasures := fm.getD [.base (.perf .mean), .base (.risk .variance)],
    cache := fun _ => none }

/-- `MultiPeriodPortfolio._set_portfolios` followed by `clear`, and `append`, seen from the attributes of the base class,
`portfolio/_multi_period_portfolio.py` L376-388, L525-530, L546-547, L646-658. -/
def replaceReturns (s : State V) (returns observations : V) : State V :=
  { s with params := fun q => match q with
    | .returns => returns | .observations => observations | q => s.params q }.clear

/-- What a program can do with the portfolio number `i` of a collection of portfolio objects.  `assignMeasure` is the
assignment `ptf.mean = value` to a lazily filled slot, which nothing forbids. -/
inductive Op (V : Type)
  | read (i : ℕ) (m : Measure) | readFitness (i : ℕ) | readDrawdowns (i : ℕ) | readCumulative (i : ℕ)
  | set (i : ℕ) (p : Param) (v : V) | setFitnessMeasures (i : ℕ) (l : List Measure)
  | replaceReturns (i : ℕ) (r o : V) | delete (i : ℕ) (m : Measure) | clear (i : ℕ)
  | copy (i : ℕ) | new (params : Param → V) (fm : Option (List Measure))
  | assignMeasure (i : ℕ) (m : Measure) (v : V)

/-- The effect on one portfolio; a raised exception leaves the object as it is. -/
def stepOne (L : Lib V) (s : State V) : Op V → State V
  | .read _ m => match readMeasure L s m with | .ok (_, s1) => s1 | .error _ => s
  | .readFitness _ => match readFitness L s with | .ok (_, s1) => s1 | .error _ => s
  | .readDrawdowns _ => (readDrawdowns L s).2
  | .readCumulative _ => (readCumulative L s).2
  | .set _ p v => match setParam s p v with | .ok s1 => s1 | .error _ => s
  | .setFitnessMeasures _ l => match setFitnessMeasures s l with | .ok s1 => s1 | .error _ => s
  | .replaceReturns _ r o => replaceReturns s r o
  | .delete _ m => s.del (.measure m)
  | .clear _ => s.clear
  | .assignMeasure _ m v => s.store (.measure m) v
  | .copy _ => s
  | .new _ _ => s

/-- The object an operation works on. -/
def Op.target : Op V → Option ℕ
  | .read i _ | .readFitness i | .readDrawdowns i | .readCumulative i | .set i _ _ | .setFitnessMeasures i _
  | .replaceReturns i _ _ | .delete i _ | .clear i | .copy i | .assignMeasure i _ _ => some i
  | .new _ _ => none

/-- One operation on the collection: `copy` and `new` add an object. -/
def step (L : Lib V) (w : List (State V)) (op : Op V) : List (State V) :=
  match op with
  | .new params fm => w ++ [construct params fm]
  | .copy i => match w[i]? with | some s => w ++ [copy s] | none => w
  | op => match op.target with
    | some i => w.modify i fun s => stepOne L s op
    | none => w

/-- A history of operations, starting without objects. -/
def run (L : Lib V) (ops : List (Op V)) : List (State V) := ops.foldl (step L) []

end Skfolio.Portfolio
