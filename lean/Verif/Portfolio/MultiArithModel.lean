import Verif.Portfolio.ArithModel

/-!
# Arithmetic of multi-period portfolios (model)

Models the operators of `portfolio/_multi_period_portfolio.py` L398-491 on the operators of `Portfolio` (`ArithModel`), and the
constructor L328-368 as far as they use it (`check_observations_order` has its default, so that nothing but the types is checked).
-/

set_option autoImplicit false

namespace Skfolio.Portfolio.MultiArith

open Arith

/-- The constructor arguments of `MultiPeriodPortfolio` other than `portfolios`, `name`, `tag`, `fitness_measures` and
`check_observations_order`, L333-345. -/
inductive MParam
  | riskFreeRate | annualizedFactor | compounded | minAcceptableReturn | valueAtRiskBeta | entropicTheta | entropicBeta | cvarBeta
  | evarBeta | drawdownAtRiskBeta | cdarBeta | edarBeta
  deriving DecidableEq, Repr

/-- A `MultiPeriodPortfolio`.  `name = none`: the constructor chose a name (the id of the object). -/
structure MPtf (K P V : Type) where
  portfolios : List (Ptf K P)
  name : Option String
  tag : String
  fitness : V
  params : MParam → V
  check : Bool

variable {K P V : Type}

/-- Its returns, L526-530 (C26). -/
def MPtf.returns (m : MPtf K P V) : List K := m.portfolios.flatMap Ptf.returns

/-- The items of a list given to the constructor. -/
inductive Item (K P : Type) | ptf (p : Ptf K P) | array (a : List K)

/-- The type check of `_set_portfolios`, L506-511. -/
def portfoliosOf : List (Item K P) → Except PErr (List (Ptf K P))
  | [] => .ok []
  | .array _ :: _ => .error .typeError
  | .ptf p :: rest => match portfoliosOf rest with
    | .ok ps => .ok (p :: ps)
    | .error e => .error e

/-- `self.__class__(portfolios=items, tag=self.tag, fitness_measures=self.fitness_measures)`: all other arguments have their defaults. -/
def MPtf.rebuild (dflt : MParam → V) (m : MPtf K P V) (items : List (Item K P)) : Except PErr (MPtf K P V) :=
  match portfoliosOf items with
  | .error e => .error e
  | .ok ps => .ok { portfolios := ps, name := none, tag := m.tag, fitness := m.fitness, params := dflt, check := false }

/-- A list comprehension `[f(p) for p in ps]` over portfolios. -/
def each {A : Type} (f : A → Except PErr (Ptf K P)) : List A → Except PErr (List (Item K P))
  | [] => .ok []
  | a :: l => match f a with
    | .error e => .error e
    | .ok q => match each f l with
      | .error e => .error e
      | .ok qs => .ok (.ptf q :: qs)

/-- Comprehension and constructor. -/
def MPtf.mapEach (dflt : MParam → V) (m : MPtf K P V) {A : Type} (f : A → Except PErr (Ptf K P)) (l : List A) : Except PErr (MPtf K P V) :=
  match each f l with
  | .error e => .error e
  | .ok items => m.rebuild dflt items

variable [Field K] [LinearOrder K] [FloorRing K]

/-- `__neg__`, L398-403. -/
def MPtf.neg (dflt : MParam → V) (m : MPtf K P V) : Except PErr (MPtf K P V) := m.mapEach dflt Ptf.neg m.portfolios
/-- `__abs__`, L405-410. -/
def MPtf.abs (dflt : MParam → V) (m : MPtf K P V) : Except PErr (MPtf K P V) := m.mapEach dflt Ptf.abs m.portfolios
/-- `__round__`, L412-417. -/
def MPtf.round (dflt : MParam → V) (m : MPtf K P V) (n : ℕ) : Except PErr (MPtf K P V) := m.mapEach dflt (fun p => p.round n) m.portfolios

/-- `np.floor(p)` and `np.trunc(p)`: numpy converts the portfolio by `__array__` (`portfolio/_base.py` L604-605) to its returns and rounds
these. -/
def npFloor (p : Ptf K P) : Item K P := .array (p.returns.map fun x => (⌊x⌋ : K))

/-- `__floor__`, L419-424 (and `__trunc__`, L426-431, with another rounding). -/
def MPtf.floor (dflt : MParam → V) (m : MPtf K P V) : Except PErr (MPtf K P V) := m.rebuild dflt (m.portfolios.map npFloor)

/-- `__add__`, L433-446, of two multi-period portfolios. -/
def MPtf.add [DecidableEq P] (dflt : MParam → V) (m m' : MPtf K P V) : Except PErr (MPtf K P V) :=
  if m.portfolios.length ≠ m'.portfolios.length then .error .typeError
  else m.mapEach dflt (fun pq : Ptf K P × Ptf K P => pq.1.add pq.2) (m.portfolios.zip m'.portfolios)

/-- `__sub__`, L448-463. -/
def MPtf.sub [DecidableEq P] (dflt : MParam → V) (m m' : MPtf K P V) : Except PErr (MPtf K P V) :=
  if m.portfolios.length ≠ m'.portfolios.length then .error .typeError
  else m.mapEach dflt (fun pq : Ptf K P × Ptf K P => pq.1.sub pq.2) (m.portfolios.zip m'.portfolios)

/-- The right operand of `*`, `//` and `/`: a scalar or one number per period. -/
inductive Factor (K : Type) | scalar (c : K) | perPeriod (cs : List K)

/-- The common pattern of `__mul__`, `__floordiv__`, `__truediv__`, L465-491: `zip(..., strict=True)` raises `ValueError` for different
lengths. -/
def MPtf.scale (dflt : MParam → V) (op : Ptf K P → K → Except PErr (Ptf K P)) (m : MPtf K P V) : Factor K → Except PErr (MPtf K P V)
  | .scalar c => m.mapEach dflt (fun p => op p c) m.portfolios
  | .perPeriod cs =>
    match each (fun pc : Ptf K P × K => op pc.1 pc.2) (m.portfolios.zip cs) with
    | .error e => .error e
    | .ok items => if m.portfolios.length ≠ cs.length then .error .valueError else m.rebuild dflt items

/-- `__mul__` and `__rmul__`, L465-474. -/
def MPtf.mul (dflt : MParam → V) (m : MPtf K P V) (f : Factor K) : Except PErr (MPtf K P V) := m.scale dflt Ptf.mul f
/-- `__floordiv__`, L476-483. -/
def MPtf.floordiv (dflt : MParam → V) (m : MPtf K P V) (f : Factor K) : Except PErr (MPtf K P V) := m.scale dflt Ptf.floordiv f
/-- `__truediv__`, L485-491. -/
def MPtf.truediv (dflt : MParam → V) (m : MPtf K P V) (f : Factor K) : Except PErr (MPtf K P V) := m.scale dflt Ptf.truediv f

end Skfolio.Portfolio.MultiArith
