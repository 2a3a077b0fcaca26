import Verif.Portfolio.ArithModel
import Verif.Portfolio.CacheModel
import Verif.Portfolio.MultiModel

/-!
# Pickling and deep-copying portfolios (model)

Models `BasePortfolio.__reduce__` (`portfolio/_base.py` L522-527) with `args_names` (`utils/tools.py` L310-324).
`copy.deepcopy`, `pickle`, `joblib` all rebuild an object as `cls(*args)` from the pair returned by `__reduce__`; the copies
of the arguments themselves (arrays, data frames, strings, numbers) are taken to be equal to the originals.
-/

set_option autoImplicit false

namespace Skfolio.Portfolio.Pickle

/-! ### `Portfolio` -/

/-- The arguments of `Portfolio.__init__` that play no role in the returns. -/
inductive Other
  | riskFreeRate | annualizedFactor | fitnessMeasures | compounded | minAcceptableReturn | valueAtRiskBeta
  | entropicTheta | entropicBeta | cvarBeta | evarBeta | drawdownAtRiskBeta | cdarBeta | edarBeta
  deriving DecidableEq, Repr

/-- The names of the arguments of `Portfolio.__init__`, `portfolio/_portfolio.py` L432-453. -/
inductive Name
  | X | weights | previousWeights | transactionCosts | managementFees | name | tag | other (o : Other)
  deriving DecidableEq, Repr

/-- `args_names(Portfolio.__init__)`: in the order of the signature, without `self`. -/
def signature : List Name :=
  [.X, .weights, .previousWeights, .transactionCosts, .managementFees, .other .riskFreeRate, .name, .tag,
   .other .annualizedFactor, .other .fitnessMeasures, .other .compounded, .other .minAcceptableReturn,
   .other .valueAtRiskBeta, .other .entropicTheta, .other .entropicBeta, .other .cvarBeta, .other .evarBeta,
   .other .drawdownAtRiskBeta, .other .cdarBeta, .other .edarBeta]

/-- The Python values the arguments take. -/
inductive Value (K V : Type)
  | panel (x : Arith.Panel K) | array (w : List K) | cost (c : Arith.Cost K) | str (s : String) | obj (v : V)

variable {K V : Type} [Field K] [LinearOrder K] [FloorRing K]

/-- `getattr(self, arg)`. -/
def getattr (p : Arith.Ptf K (Other → V)) : Name → Value K V
  | .X => .panel p.X
  | .weights => .array p.weights
  | .previousWeights => .array p.previousWeights
  | .transactionCosts => .cost p.transactionCosts
  | .managementFees => .cost p.managementFees
  | .name => .str p.name
  | .tag => .str p.tag
  | .other o => .obj (p.params o)

/-- `__reduce__`, `portfolio/_base.py` L522-527: the positional arguments. -/
def reduce (p : Arith.Ptf K (Other → V)) : List (Value K V) := signature.map (getattr p)

/-- Binding of positional arguments to the names of a signature. -/
def bind : List Name → List (Value K V) → Name → Option (Value K V)
  | n :: ns, v :: vs, m => if m = n then some v else bind ns vs m
  | _, _, _ => none

/-- The value of an argument of the last kind. -/
def asObj : Option (Value K V) → Option V
  | some (.obj v) => some v
  | _ => none

/-- All of them, or `none` when one is of another type. -/
def asParams (b : Name → Option (Value K V)) : Option (Other → V) :=
  match asObj (b (.other .riskFreeRate)), asObj (b (.other .annualizedFactor)), asObj (b (.other .fitnessMeasures)),
    asObj (b (.other .compounded)), asObj (b (.other .minAcceptableReturn)), asObj (b (.other .valueAtRiskBeta)),
    asObj (b (.other .entropicTheta)), asObj (b (.other .entropicBeta)), asObj (b (.other .cvarBeta)),
    asObj (b (.other .evarBeta)), asObj (b (.other .drawdownAtRiskBeta)), asObj (b (.other .cdarBeta)),
    asObj (b (.other .edarBeta)) with
  | some v1, some v2, some v3, some v4, some v5, some v6, some v7, some v8, some v9, some v10, some v11, some v12,
    some v13 => some fun
      | .riskFreeRate => v1 | .annualizedFactor => v2 | .fitnessMeasures => v3 | .compounded => v4
      | .minAcceptableReturn => v5 | .valueAtRiskBeta => v6 | .entropicTheta => v7 | .entropicBeta => v8
      | .cvarBeta => v9 | .evarBeta => v10 | .drawdownAtRiskBeta => v11 | .cdarBeta => v12 | .edarBeta => v13
  | _, _, _, _, _, _, _, _, _, _, _, _, _ => none

/-- `Portfolio(*args)` with all arguments given: the constructor on the bound arguments; an argument of a wrong type
raises. -/
def call (vs : List (Value K V)) : Except Arith.PErr (Arith.Ptf K (Other → V)) :=
  let b := bind signature vs
  match b .X, b .weights, b .previousWeights, b .transactionCosts, b .managementFees, b .name, b .tag, asParams b with
  | some (.panel x), some (.array w), some (.array pw), some (.cost tc), some (.cost mf), some (.str n), some (.str t),
    some P => Arith.construct { X := x, weights := w, previousWeights := some pw, transactionCosts := some tc,
                                managementFees := some mf, params := P, name := n, tag := t }
  | _, _, _, _, _, _, _, _ => .error .typeError

/-- `pickle.loads(pickle.dumps(portfolio))`, `copy.deepcopy(portfolio)`. -/
def reload (p : Arith.Ptf K (Other → V)) : Except Arith.PErr (Arith.Ptf K (Other → V)) := call (reduce p)

/-- The original array is kept, not a copy (`self.X = X`, `portfolio/_portfolio.py` L556-558): when the caller changes it in
place, the portfolio sees the change. -/
def callerChangesX (p : Arith.Ptf K (Other → V)) (x : Arith.Panel K) : Arith.Ptf K (Other → V) := { p with X := x }

/-! ### Measures (any kind of portfolio) -/

/-- Reloading as seen by the cache of measures: the constructor is called with the current parameters and the current fitness
measures; the cached values are not among the arguments. -/
def reloadState {V : Type} (s : State V) : State V := construct s.params (some s.fitnessMeasures)

/-! ### `MultiPeriodPortfolio` -/

variable {D R : Type} [LinearOrder D]

/-- Reloading object `o`: the list of portfolios is copied (so that it is a new list on the heap) and passed to
`MultiPeriodPortfolio.__init__`, `portfolio/_multi_period_portfolio.py` L328-368; its portfolios are reloaded, too. -/
def reloadMulti (w : Multi.World D R) (o : Multi.Mpp D R) : Multi.World D R × Except Multi.Err (Multi.Mpp D R) :=
  let w' := w.alloc (w.heap.getD o.ref [])
  (w', Multi.setPortfolios w'.heap ⟨w.heap.length, [], [], o.check⟩ w.heap.length)

end Skfolio.Portfolio.Pickle
