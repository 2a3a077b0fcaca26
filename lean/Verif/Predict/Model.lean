import Verif.Inputs.Model
import Verif.Portfolio.ArithModel

/-
Model of `BaseOptimization.predict`, `score` and `fit_predict`, `src/skfolio/optimization/_base.py` L56-160, on top of the models of
`input_to_array` (`Verif/Inputs`) and of the `Portfolio` constructor (`Verif/Portfolio/ArithModel.lean`); and of the transaction cost and the
management fee of a convex optimization, `optimization/convex/_base.py` L1262-1285 and L1305-1318, at given weights.

Numbers are those of an ordered field (no NaN in the parameters). The arguments of `Portfolio` that `predict` only passes on (betas,
compounding, tag, ...) are one opaque value `Q`. `check_is_fitted` is left out: the estimator has weights.
-/
set_option autoImplicit false

namespace Skfolio.Predict

open Skfolio.Equations (Word)
open Skfolio.Inputs (Items Cleaned inputToArray cleanInput)
open Skfolio.Portfolio.Arith (Panel Ptf Cost Args PErr construct)

variable {K Q : Type} [Field K] [LinearOrder K]

/-- `X`: numbers, and names of the columns if it is a data frame. -/
structure Frame (K : Type) where
  names : Option (List Word)
  panel : Panel K

inductive Err where
  | input (e : Inputs.Err)
  | ptf (e : PErr)

/-- The parameters of a portfolio besides data, weights and costs. -/
structure Rest (K Q : Type) where
  riskFreeRate : K
  other : Q

/-- `transaction_costs` and `management_fees` in `Portfolio.__init__`, `portfolio/_portfolio.py` L490-512. -/
def toCost (X : Frame K) (v : Option (Items K)) : Except Err (Option (Cost K)) :=
  match v with
  | none => .ok none
  | some (.scalar c) => .ok (some (.scalar c))
  | some items =>
    match inputToArray (fun _ => false) items X.panel.nAssets 0 X.names with
    | .error e => .error (.input e)
    | .ok xs => .ok (some (.vector xs))

/-- `previous_weights` in `Portfolio.__init__`, L478-488: scalars are not treated apart. -/
def toPrevious (X : Frame K) (v : Option (Items K)) : Except Err (Option (List K)) :=
  match v with
  | none => .ok none
  | some items =>
    match inputToArray (fun _ => false) items X.panel.nAssets 0 X.names with
    | .error e => .error (.input e)
    | .ok xs => .ok (some xs)

/-- `Portfolio(X, weights, ...)`, L456-568, for an array of weights. -/
def portfolio (X : Frame K) (w : List K) (prev tc mf : Option (Items K)) (rest : Rest K Q) (name : String) : Except Err (Ptf K (Rest K Q)) :=
  match inputToArray (fun _ => false) (.array1 w) X.panel.nAssets 0 X.names, toPrevious X prev, toCost X tc, toCost X mf with
  | .ok w, .ok prev, .ok tc, .ok mf =>
    match construct { X := X.panel, weights := w, previousWeights := prev, transactionCosts := tc, managementFees := mf, params := rest,
                      name := name, tag := "" } with
    | .error e => .error (.ptf e)
    | .ok p => .ok p
  | .error e, _, _, _ => .error (.input e)
  | _, .error e, _, _ => .error e
  | _, _, .error e, _ => .error e
  | _, _, _, .error e => .error e

/-- The keys that `predict` looks for: in `portfolio_params` (a dictionary) or among the attributes of the estimator. `none`: no such key
or attribute. -/
structure Keys (K : Type) where
  transactionCosts : Option (Option (Items K))
  managementFees : Option (Option (Items K))
  previousWeights : Option (Option (Items K))
  riskFreeRate : Option K

/-- `portfolio_params`. -/
structure PtfParams (K Q : Type) where
  keys : Keys K
  name : Option String
  other : Q

/-- `weights_`. -/
inductive Weights (K : Type) where
  | one (w : List K)
  | many (ws : List (List K))

structure Estimator (K Q : Type) where
  className : String
  attrs : Keys K
  portfolioParams : Option (PtfParams K Q)
  weights : Weights K

/-- L87-94, for one key, with the default of `Portfolio.__init__`. -/
def pick {A : Type} (kwarg attr : Option A) (default : A) : A :=
  match kwarg with
  | some v => v
  | none => attr.getD default

inductive Prediction (K Q : Type) where
  | single (p : Ptf K (Rest K Q))
  | population (ps : List (Ptf K (Rest K Q)))

/-- `predict`, L79-116. `noParams` is the `Q` of an empty `portfolio_params`. -/
def predict (noParams : Q) (est : Estimator K Q) (X : Frame K) : Except Err (Prediction K Q) :=
  let kw := est.portfolioParams.getD { keys := ⟨none, none, none, none⟩, name := none, other := noParams }
  let tc := pick kw.keys.transactionCosts est.attrs.transactionCosts none
  let mf := pick kw.keys.managementFees est.attrs.managementFees none
  let prev := pick kw.keys.previousWeights est.attrs.previousWeights none
  let rest := { riskFreeRate := pick kw.keys.riskFreeRate est.attrs.riskFreeRate 0, other := kw.other }
  let name := kw.name.getD est.className
  match est.weights with
  | .many ws =>
    match (ws.zipIdx.mapM fun (w, i) => portfolio X w prev tc mf rest s!"ptf{i} - {name}" : Except Err _) with
    | .error e => .error e
    | .ok ps => .ok (.population ps)
  | .one w =>
    match portfolio X w prev tc mf rest name with
    | .error e => .error e
    | .ok p => .ok (.single p)

/-- `score`, L138-141. `sharpe` is the Sharpe ratio of a portfolio. -/
def score (sharpe : Ptf K (Rest K Q) → K) (noParams : Q) (est : Estimator K Q) (X : Frame K) : Except Err K :=
  match predict noParams est X with
  | .error e => .error e
  | .ok (.population ps) => .ok ((ps.map sharpe).sum / ps.length)
  | .ok (.single p) => .ok (sharpe p)

/-! ### the costs of the optimization -/

/-- A cleaned parameter times `np.ones(n)`. -/
def expand (n : Nat) : Cleaned K → List K
  | .number v => List.replicate n v
  | .array xs => xs

/-- `np.all(value == 0)`. -/
def allZero : Cleaned K → Bool
  | .number v => decide (v = 0)
  | .array xs => xs.all fun x => decide (x = 0)

/-- `_cvx_transaction_cost` at the weights `w` with factor 1, convex/_base.py L1262-1285. -/
def optimizerCost (tc prev : Option (Items K)) (n : Nat) (names : Option (List Word)) (w : List K) : Except Inputs.Err K :=
  match cleanInput (fun _ => false) tc n 0 names with
  | .error e => .error e
  | .ok c =>
    if allZero c then .ok 0
    else
      match cleanInput (fun _ => false) prev n 0 names with
      | .error e => .error e
      | .ok prev =>
        match c with
        | .number c => .ok (c * ((List.zipWith (· - ·) (expand n prev) w).map fun x => |x|).sum)
        | .array cs => .ok ((List.zipWith (· * ·) cs (List.zipWith (· - ·) (expand n prev) w)).map fun x => |x|).sum

/-- `_cvx_management_fee` at the weights `w`, L1305-1318. -/
def optimizerFee (mf : Option (Items K)) (n : Nat) (names : Option (List Word)) (w : List K) : Except Inputs.Err K :=
  match cleanInput (fun _ => false) mf n 0 names with
  | .error e => .error e
  | .ok f => if allZero f then .ok 0 else .ok (List.zipWith (· * ·) (expand n f) w).sum

end Skfolio.Predict
