import Mathlib.Algebra.Order.Field.Basic
import Mathlib.Algebra.Order.BigOperators.Group.List

/-!
# Hierarchical optimisers (model)

Models `HierarchicalRiskParity.fit`, `_apply_weight_constraints_to_split_factor`,
`bisection`, `_convert_weights_bounds`, `_clean_input` and `input_to_array` (one dimensional).

Assets are natural numbers `0 .. n-1` and an array indexed by assets is a function `ℕ → K`
(only its values on `0 .. n-1` matter).  Numbers are the elements of an ordered field: rounding
is not modelled, and a division by zero, which numpy turns into a NaN or infinite weight, is the
error `notFinite`.
-/

set_option autoImplicit false

namespace Skfolio.Hierarchical

variable {K : Type*} [Field K] [LinearOrder K]

/-- What can go wrong: `notFinite` stands for the NaN/inf produced by a division by zero, the other
two are raised exceptions, `outOfFuel` is an artefact of the model of the `while` loop. -/
inductive Error
  | notFinite | valueError (msg : String) | nameError (msg : String) | outOfFuel
  deriving DecidableEq, Repr

/-- Division of floats: non finite if the divisor is zero. -/
def div? (a b : K) : Except Error K := if b = 0 then .error .notFinite else .ok (a / b)

/-- The body of `bisection` for one array.
`utils/tools.py` L566-570: `mid = n // 2; yield [e[0:mid], e[mid:n]]` if `n > 1`. -/
def bisectOne (e : List ℕ) : Option (List ℕ × List ℕ) :=
  if 1 < e.length then some (e.take (e.length / 2), e.drop (e.length / 2)) else none

/-- `bisection`, `utils/tools.py` L553-570. -/
def bisection (x : List (List ℕ)) : List (List ℕ × List ℕ) := x.filterMap bisectOne

/-- `np.sum(v[ids])`. -/
def sumAt (v : ℕ → K) (ids : List ℕ) : K := (ids.map v).sum

/-- `_apply_weight_constraints_to_split_factor`,
`optimization/cluster/hierarchical/_hrp.py` L426-438 (the definition spans L390-438). -/
def splitFactor (alpha : K) (maxW minW w : ℕ → K) (left right : List ℕ) : Except Error K := do
  let wl := w (left.headD 0)
  let wr := w (right.headD 0)
  let hiL ← div? (sumAt maxW left) wl
  let loL ← div? (sumAt minW left) wl
  let alpha := min hiL (max loL alpha)
  let hiR ← div? (sumAt maxW right) wr
  let loR ← div? (sumAt minW right) wr
  return 1 - min hiR (max loR (1 - alpha))

/-- `inv_risk_w` of a cluster: `_hrp.py` L364-366.
`assetsRisks` is the array of single-asset risks. -/
def invRiskWeights (assetsRisks : ℕ → K) (ids : List ℕ) : Except Error (ℕ → K) :=
  if ∃ i ∈ ids, assetsRisks i = 0 then .error .notFinite
  else
    let s := (ids.map fun i => 1 / assetsRisks i).sum
    if s = 0 then .error .notFinite
    else .ok fun i => if i ∈ ids then (1 / assetsRisks i) / s else 0

/-- Risk of a cluster under inverse-risk weights: `_hrp.py` L362-369.  `risk` is
`self._risk(weights=·, prior_model)`, any function of the weights
(`optimization/cluster/hierarchical/_base.py` L280-315). -/
def clusterRisk (risk : (ℕ → K) → K) (assetsRisks : ℕ → K) (ids : List ℕ) : Except Error K := do
  let w ← invRiskWeights assetsRisks ids
  return risk w

/-- One iteration of the inner `for`: `_hrp.py` L360-383.  Returns the updated weights. -/
def splitStep (risk : (ℕ → K) → K) (assetsRisks maxW minW : ℕ → K) (w : ℕ → K)
    (c : List ℕ × List ℕ) : Except Error (ℕ → K) := do
  let leftRisk ← clusterRisk risk assetsRisks c.1
  let rightRisk ← clusterRisk risk assetsRisks c.2
  let q ← div? leftRisk (leftRisk + rightRisk)
  let alpha ← splitFactor (1 - q) maxW minW w c.1 c.2
  return fun i =>
    if i ∈ c.1 then w i * alpha else if i ∈ c.2 then w i * (1 - alpha) else w i

/-- The `while` loop: `_hrp.py` L358-384. -/
def hrpLoop (risk : (ℕ → K) → K) (assetsRisks maxW minW : ℕ → K) :
    ℕ → List (List ℕ) → (ℕ → K) → Except Error (ℕ → K)
  | _, [], w => .ok w
  | 0, _ :: _, _ => .error .outOfFuel
  | f + 1, c :: items, w => do
    let splits := bisection (c :: items)
    let w ← splits.foldlM (splitStep risk assetsRisks maxW minW) w
    hrpLoop risk assetsRisks maxW minW f (splits.flatMap fun p => [p.1, p.2]) w

/-- The single-asset portfolio, a row of `np.identity(n_assets)`. -/
def unit (i : ℕ) : ℕ → K := fun j => if j = i then 1 else 0

/-- `_unitary_risks`: `optimization/cluster/hierarchical/_base.py` L317-335. -/
def unitaryRisks (risk : (ℕ → K) → K) : ℕ → K := fun i => risk (unit i)

/-- `HierarchicalRiskParity.fit` from the leaf order on: `_hrp.py` L346-387.
`order` is `sch.leaves_list(...)`: the clustering itself (scipy) is not modelled. -/
def hrp (risk : (ℕ → K) → K) (maxW minW : ℕ → K) (order : List ℕ) : Except Error (ℕ → K) :=
  hrpLoop risk (unitaryRisks risk) maxW minW (order.length + 1) [order] (fun _ => 1)

/-! ### Weight bounds -/

/-- What a user may pass as `min_weights` or `max_weights`. -/
inductive BoundInput (K : Type*)
  | missing
  | scalar (x : K)
  | dict (d : List (String × K))
  | array (a : List K)

/-- `input_to_array` with `dim=1` and a numeric `fill_value`: `utils/tools.py` L357-442.  NaN
entries are not represented (they raise). -/
def inputToArray (items : BoundInput K) (n : ℕ) (fill : K) (names : Option (List String))
    (name : String) : Except Error (List K) := do
  let arr ← match items with
    | .dict d => match names with
      | none => .error (.valueError s!"If `{name}` is provided as a dictionary")
      | some ns => .ok (ns.map fun a => (d.lookup a).getD fill)
    | .array a => .ok a
    | .scalar x => .ok [x]  -- unreachable: `_clean_input` treats scalars before
    | .missing => .error (.valueError "Cannot convert None to array")
  if arr.length ≠ n then .error (.valueError s!"`{name}` must be of shape (n_assets,)")
  else .ok arr

/-- `_clean_input`: `optimization/cluster/hierarchical/_base.py` L234-278. -/
def cleanInput (items : BoundInput K) (n : ℕ) (fill : K) (names : Option (List String))
    (name : String) : Except Error (List K) :=
  match items with
  | .missing => .error (.valueError "Cannot convert None to array")
  | .scalar x => .ok (List.replicate n x)
  | other => inputToArray other n fill names name

/-- The lower bounds: `_base.py` L352-363. -/
def minBounds (minIn : BoundInput K) (n : ℕ) (names : Option (List String)) :
    Except Error (List K) :=
  match minIn with
  | .missing => .ok (List.replicate n 0)
  | v => do
    let a ← cleanInput v n 0 names "min_weights"
    if a.any (· < 0) then .error (.valueError "`min_weights` must be strictly positive")
    else .ok a

/-- The upper bounds: `_base.py` L365-379. -/
def maxBounds (maxIn : BoundInput K) (n : ℕ) (names : Option (List String)) :
    Except Error (List K) :=
  match maxIn with
  | .missing => .ok (List.replicate n 1)
  | v => do
    let a ← cleanInput v n 1 names "max_weights"
    if a.any (1 < ·) then .error (.valueError "`max_weights` must be less than or equal to 1.0")
    else if a.sum < 1 then .error (.valueError "The sum of `max_weights` must be >= 1.0")
    else .ok a

/-- `_convert_weights_bounds`: `optimization/cluster/hierarchical/_base.py` L337-386. -/
def convertWeightsBounds (minIn maxIn : BoundInput K) (n : ℕ) (names : Option (List String)) :
    Except Error (List K × List K) := do
  let minW ← minBounds minIn n names
  let maxW ← maxBounds maxIn n names
  if (minW.zip maxW).any (fun p => p.2 < p.1) then
    .error (.nameError "Items of `min_weights` must be less than or equal to items of `max_weights`")
  else .ok (minW, maxW)

end Skfolio.Hierarchical
