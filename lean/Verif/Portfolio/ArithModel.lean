import Mathlib.Algebra.Order.Field.Basic
import Mathlib.Algebra.Order.Floor.Defs
import Mathlib.Algebra.BigOperators.Group.List.Basic

/-!
# Portfolio construction and arithmetic (model)

Models `portfolio/_portfolio.py` L432-647, L729-819 and L864-902.  Arrays are lists; NaN is `none`.  The arguments that play no role in
the returns (risk-free rate, betas, fitness measures, ...) are one opaque value compared for equality.  Only the array form of
`weights`, `previous_weights`, `transaction_costs` and `management_fees` is modelled (the conversion of scalars and
dictionaries by `input_to_array` is the subject of C22), plus the scalar form of the two costs that bypasses the conversion.
-/

set_option autoImplicit false

namespace Skfolio.Portfolio.Arith

/-- A transaction cost or management fee: a scalar or one value per asset. -/
inductive Cost (K : Type) | scalar (c : K) | vector (cs : List K)
  deriving DecidableEq, Repr

/-- A `T × n` array of returns with possibly missing values. -/
structure Panel (K : Type) where
  nAssets : ℕ
  rows : List (List (Option K))
  rect : ∀ r ∈ rows, r.length = nAssets
  deriving DecidableEq, Repr

/-- The constructor arguments of `Portfolio`, L432-453. -/
structure Args (K P : Type) where
  X : Panel K
  weights : List K
  previousWeights : Option (List K)
  transactionCosts : Option (Cost K)
  managementFees : Option (Cost K)
  params : P
  name : String
  tag : String

/-- The attributes of a `Portfolio`, L553-568. -/
structure Ptf (K P : Type) where
  X : Panel K
  weights : List K
  previousWeights : List K
  transactionCosts : Cost K
  managementFees : Cost K
  params : P
  name : String
  tag : String
  totalCost : K
  totalFee : K
  returns : List K
  deriving DecidableEq, Repr

inductive PErr | typeError | valueError
  deriving DecidableEq, Repr

variable {K P : Type} [Field K] [LinearOrder K] [FloorRing K]

/-- `cost * values` with the broadcasting of a scalar. -/
def Cost.times : Cost K → List K → List K
  | .scalar c, v => v.map (c * ·)
  | .vector cs, v => List.zipWith (· * ·) cs v

/-- The shape check of `input_to_array` on the vector form. -/
def Cost.fits (n : ℕ) : Cost K → Bool
  | .scalar _ => true
  | .vector cs => cs.length == n

/-- `total_cost`, L521-524, given `|previous_weights - weights|`. -/
def totalCost (tc : Cost K) (prev w : List K) : K :=
  if tc = .scalar 0 then 0 else (tc.times ((List.zipWith (· - ·) prev w).map fun x => |x|)).sum

/-- `total_fee`, L526-530. -/
def totalFee (mf : Cost K) (w : List K) : K := if mf = .scalar 0 then 0 else (mf.times w).sum

/-- One entry of `weights @ rets.T`, L532: NaN if any return of the period is NaN. -/
def dotRow : List K → List (Option K) → Option K
  | w :: ws, some x :: xs => (dotRow ws xs).map (w * x + ·)
  | _ :: _, none :: _ => none
  | _, _ => some 0

/-- `returns`, L532-535: fails on NaN. -/
def portfolioReturns (rows : List (List (Option K))) (w : List K) (cost fee : K) : Except PErr (List K) :=
  match rows.mapM (dotRow w) with
  | none => .error .valueError
  | some vs => .ok (vs.map fun v => v - cost - fee)

/-- The end of `Portfolio.__init__`, L520-568, after the conversion of the arguments. -/
def finish (a : Args K P) (prev : List K) (tc mf : Cost K) : Except PErr (Ptf K P) :=
  let cost := totalCost tc prev a.weights
  let fee := totalFee mf a.weights
  match portfolioReturns a.X.rows a.weights cost fee with
  | .error e => .error e
  | .ok rets => .ok { X := a.X, weights := a.weights, previousWeights := prev, transactionCosts := tc,
                      managementFees := mf, params := a.params, name := a.name, tag := a.tag, totalCost := cost,
                      totalFee := fee, returns := rets }

/-- `Portfolio.__init__`, L432-568. -/
def construct (a : Args K P) : Except PErr (Ptf K P) :=
  let n := a.X.nAssets
  let prev := a.previousWeights.getD (List.replicate n 0)
  let tc := a.transactionCosts.getD (.scalar 0)
  let mf := a.managementFees.getD (.scalar 0)
  if a.weights.length = n ∧ prev.length = n ∧ tc.fits n ∧ mf.fits n then finish a prev tc mf
  else .error .valueError

/-- The arguments read back from a portfolio, `{arg: getattr(self, arg) ...}`. -/
def Ptf.args (p : Ptf K P) : Args K P :=
  { X := p.X, weights := p.weights, previousWeights := some p.previousWeights,
    transactionCosts := some p.transactionCosts, managementFees := some p.managementFees, params := p.params,
    name := p.name, tag := p.tag }

/-- Rebuild with other weights: the common pattern of all the operators. -/
def Ptf.withWeights (p : Ptf K P) (w : List K) : Except PErr (Ptf K P) := construct { p.args with weights := w }

/-- `numpy.rint`: to the nearest integer, halves to the even one. -/
def rint (x : K) : ℤ :=
  let f := ⌊x⌋
  if x - f < 1 / 2 then f else if 1 / 2 < x - f then f + 1 else if f % 2 = 0 then f else f + 1

/-- `__neg__`, L570-573. -/
def Ptf.neg (p : Ptf K P) : Except PErr (Ptf K P) := p.withWeights (p.weights.map (- ·))
/-- `__abs__`, L575-578. -/
def Ptf.abs (p : Ptf K P) : Except PErr (Ptf K P) := p.withWeights (p.weights.map fun x => |x|)
/-- `__round__`, L580-583. -/
def Ptf.round (p : Ptf K P) (n : ℕ) : Except PErr (Ptf K P) :=
  p.withWeights (p.weights.map fun x => (rint (x * 10 ^ n) : K) / 10 ^ n)

/-- The loop of `__add__` and `__sub__` over all arguments but `weights`, `name` and `tag`, L590-596, L605-612. -/
def Ptf.compatible [DecidableEq P] (p q : Ptf K P) : Bool :=
  decide (p.X = q.X) && decide (p.previousWeights = q.previousWeights) &&
    decide (p.transactionCosts = q.transactionCosts) && decide (p.managementFees = q.managementFees) &&
    decide (p.params = q.params)

/-- `__add__`, L585-598. -/
def Ptf.add [DecidableEq P] (p q : Ptf K P) : Except PErr (Ptf K P) :=
  if p.compatible q then p.withWeights (List.zipWith (· + ·) p.weights q.weights) else .error .valueError
/-- `__sub__`, L600-615. -/
def Ptf.sub [DecidableEq P] (p q : Ptf K P) : Except PErr (Ptf K P) :=
  if p.compatible q then p.withWeights (List.zipWith (· - ·) p.weights q.weights) else .error .valueError
/-- `__mul__` and `__rmul__`, L617-627. -/
def Ptf.mul (p : Ptf K P) (c : K) : Except PErr (Ptf K P) := p.withWeights (p.weights.map (c * ·))
/-- `__floordiv__`, L629-637.  Division by zero, which gives infinities in the code, is not modelled. -/
def Ptf.floordiv (p : Ptf K P) (c : K) : Except PErr (Ptf K P) := p.withWeights (p.weights.map fun x => (⌊x / c⌋ : K))
/-- `__truediv__`, L639-647.  Division by zero, which gives infinities in the code, is not modelled. -/
def Ptf.truediv (p : Ptf K P) (c : K) : Except PErr (Ptf K P) := p.withWeights (p.weights.map (· / c))

/-- `expected_returns_from_assets`, L729-747. -/
def Ptf.expectedReturns (p : Ptf K P) (mu : List K) : K :=
  (List.zipWith (· * ·) p.weights mu).sum - p.totalCost - p.totalFee

/-- `_get_risk`, L864-871: `measure` is the measure as a function of the portfolio. -/
def getRisk (args : Args K P) (w : List K) (measure : Ptf K P → K) (i : ℕ) (h : K) : Except PErr K :=
  match construct { args with weights := w.modify i (· + h) } with
  | .error e => .error e
  | .ok p => .ok (measure p)

/-- One entry of `_compute_contribution`, L884-902. -/
def contributionAt (args : Args K P) (w : List K) (measure : Ptf K P → K) (h : K) (i : ℕ) (x : K) : Except PErr K :=
  match getRisk args w measure i h, getRisk args w measure i (-h) with
  | .ok a, .ok b => .ok ((a - b) / (2 * h) * x)
  | .error e, _ => .error e
  | _, .error e => .error e

/-- The loop of `_compute_contribution`, L884-902: contributions with the index of their asset. -/
def contributionLoop (args : Args K P) (w : List K) (measure : Ptf K P → K) (h : K) (drop : Bool) :
    ℕ → List K → Except PErr (List (ℕ × K))
  | _, [] => .ok []
  | i, x :: xs =>
    if x = 0 then
      match contributionLoop args w measure h drop (i + 1) xs with
      | .error e => .error e
      | .ok rest => .ok (if drop then rest else (i, 0) :: rest)
    else
      match contributionAt args w measure h i x with
      | .error e => .error e
      | .ok c => match contributionLoop args w measure h drop (i + 1) xs with
        | .error e => .error e
        | .ok rest => .ok ((i, c) :: rest)

/-- `contribution`, L765-819, with a given spacing; for `to_df` the sorting by value is left out. -/
def Ptf.contribution (p : Ptf K P) (measure : Ptf K P → K) (h : K) (drop : Bool) : Except PErr (List (ℕ × K)) :=
  contributionLoop p.args p.weights measure h drop 0 p.weights

end Skfolio.Portfolio.Arith
