import Verif.Convex.RiskModel

/-!
Model of `_get_weight_constraints` and of the mixed-integer constraints, `src/skfolio/optimization/convex/_base.py` L663-947 and L2148-2303.

A constraint is a proposition about the weights `w` and the scale `k` (`factor`). The boolean and auxiliary variables of the mixed-integer
constraints are existentially quantified: a point is feasible if some values of them satisfy the constraints.
-/
set_option autoImplicit false

namespace Skfolio.Convex

section
variable {K : Type} [Field K] [LinearOrder K] {n : Nat}

/-- The parameters read by `_get_weight_constraints`, after `_clean_input` (L680-739; a scalar is the constant vector). `eqRows` and `ineqRows` are the matrices that
`equations_to_matrix` makes of `linear_constraints` (see C09-C11), `inequality` the rows of `left_inequality`, `right_inequality` when
both are given (their shapes are not modelled), `groupCardinalities` the rows of `group_cardinalities_to_matrix`: members and bound. -/
structure Params (K : Type) (n : Nat) where
  minWeights : Option (Fin n → K)
  maxWeights : Option (Fin n → K)
  maxLong : Option K
  maxShort : Option K
  minBudget : Option K
  maxBudget : Option K
  budget : Option K
  cardinality : Option Nat
  groupCardinalities : Option (List ((Fin n → Bool) × Nat))
  thresholdLong : Option (Fin n → K)
  thresholdShort : Option (Fin n → K)
  eqRows : List ((Fin n → K) × K)
  ineqRows : List ((Fin n → K) × K)
  inequality : Option (List ((Fin n → K) × K))
  mixedIntegerSolver : Bool

/-- The exceptions. `noneComparison` is the `TypeError` of `np.any(min_weights < 0)` when `min_weights` is `None` (L818). -/
inductive Err where
  | notMixedIntegerSolver
  | negativeMinWeights
  | maxLong
  | maxShort
  | maxBudgetAndBudget
  | minBudgetAndBudget
  | noneComparison
  | boundsRequired
  | minWeightsPositive
  | thresholdShortRequired
  | thresholdLongRequired
  | multiplyNone

/-- A constraint on the weights and the scale. -/
abbrev Constraint (K : Type) (n : Nat) := (Fin n → K) → K → Prop

/-- L771-781. -/
def minConstraint (p : Params K n) (allowNegative : Bool) (s : K) : Except Err (List (Constraint K n)) :=
  match p.minWeights with
  | none => .ok []
  | some m => if !allowNegative && decide (∃ i, m i < 0) then .error .negativeMinWeights else .ok [fun w k => ∀ i, w i * s ≥ m i * k * s]

/-- L783-787. -/
def maxConstraint (p : Params K n) (s : K) : List (Constraint K n) :=
  match p.maxWeights with
  | none => []
  | some m => [fun w k => ∀ i, w i * s ≤ m i * k * s]

/-- L789-796. -/
def longConstraint (p : Params K n) (s : K) : Except Err (List (Constraint K n)) :=
  match p.maxLong with
  | none => .ok []
  | some m => if m ≤ 0 then .error .maxLong else .ok [fun w k => (∑ i, max (w i) 0) * s ≤ m * k * s]

/-- L798-805. -/
def shortConstraint (p : Params K n) (s : K) : Except Err (List (Constraint K n)) :=
  match p.maxShort with
  | none => .ok []
  | some m => if m ≤ 0 then .error .maxShort else .ok [fun w k => (∑ i, max (-w i) 0) * s ≤ m * k * s]

/-- L807-817. -/
def budgetBounds (p : Params K n) (s : K) : List (Constraint K n) :=
  (match p.minBudget with
    | none => []
    | some m => [fun w k => (∑ i, w i) * s ≥ m * k * s]) ++
  (match p.maxBudget with
    | none => []
    | some m => [fun w k => (∑ i, w i) * s ≤ m * k * s])

/-- L819-831. -/
def budgetConstraint (p : Params K n) (s : K) : Except Err (List (Constraint K n)) :=
  match p.budget with
  | none => .ok []
  | some b =>
    if p.maxBudget.isSome then .error .maxBudgetAndBudget
    else if p.minBudget.isSome then .error .minBudgetAndBudget
    else .ok [fun w k => (∑ i, w i) * s = b * k * s]

/-- A boolean as a number, the value of a CVXPY boolean variable. -/
def ind (b : Bool) : K := if b then 1 else 0

/-- The cardinality constraints on the number of positions, L2170-2180 and L2246-2256; `b` counts the positions of an asset. -/
def cardinalityConstraints (p : Params K n) (b : Fin n → K) : Prop :=
  (∀ c, p.cardinality = some c → c < n → ∑ i, b i ≤ (c : K)) ∧
  ∀ rows, p.groupCardinalities = some rows → ∀ row ∈ rows, (∑ i, ind (row.1 i) * b i) - (row.2 : K) ≤ 0

/-- The big M, L2188 and L2258. -/
def bigM : K := 1000

/-- L2182-2204 and L2264-2285: `x` is `b` when `factor` is the constant 1, and the product `b * factor`, linearised, when it is a variable. -/
def linearised (factorIsVariable : Bool) (k : K) (b : Fin n → Bool) (x : Fin n → K) : Prop :=
  if factorIsVariable then
    (∀ i, 0 ≤ x i) ∧ (∀ i, x i ≤ k) ∧ (∀ i, x i ≤ bigM * ind (b i)) ∧ ∀ i, x i ≥ k - bigM * (1 - ind (b i))
  else ∀ i, x i = ind (b i)

/-- `_mip_weight_constraints_no_short_threshold`, L2148-2220. -/
def mipNoShort (p : Params K n) (minW maxW : Fin n → K) (thresholdLong : Option (Fin n → K)) (factorIsVariable : Bool) (s : K) : Constraint K n :=
  fun w k => ∃ (b : Fin n → Bool) (x : Fin n → K), cardinalityConstraints p (fun i => ind (b i)) ∧ linearised factorIsVariable k b x ∧
    (∀ th, thresholdLong = some th → ∀ i, w i * s ≥ x i * th i * s) ∧
    (∀ i, w i * s ≤ x i * maxW i * s) ∧
    ((∃ i, minW i < 0) → ∀ i, w i * s ≥ x i * minW i * s)

/-- `_mip_weight_constraints_threshold_short`, L2223-2303. -/
def mipShort (p : Params K n) (minW maxW thresholdLong thresholdShort : Fin n → K) (factorIsVariable : Bool) (s : K) : Constraint K n :=
  fun w k => ∃ (bs bl : Fin n → Bool) (xs xl : Fin n → K),
    cardinalityConstraints p (fun i => ind (bs i) + ind (bl i)) ∧ linearised factorIsVariable k bs xs ∧ linearised factorIsVariable k bl xl ∧
    (∀ i, (ind (bs i) + ind (bl i) : K) ≤ 1) ∧
    (∀ i, w i * s ≤ xl i * maxW i * s) ∧
    (∀ i, w i * s ≥ xs i * minW i * s) ∧
    (∀ i, w i * s ≥ xl i * thresholdLong i * s - bigM * (1 - ind (bl i)) * s) ∧
    ∀ i, w i * s ≤ xs i * thresholdShort i * s + bigM * (1 - ind (bs i)) * s

/-- A threshold given but equal to 0 everywhere counts as absent (L703-723). -/
def effective (th : Option (Fin n → K)) : Option (Fin n → K) :=
  match th with
  | none => none
  | some t => if ∀ i, t i = 0 then none else some t

/-- `is_mip`, L741-746: note that it looks at the raw thresholds. -/
def isMip (p : Params K n) : Bool :=
  (match p.cardinality with
    | none => false
    | some c => decide (c < n)) || p.groupCardinalities.isSome || p.thresholdLong.isSome || p.thresholdShort.isSome

/-- L833-895, `is_mip` being true. That `groups` is given when `group_cardinalities` is (L846-850) is part of the type of `groupCardinalities`. -/
def mipConstraint (p : Params K n) (factorIsVariable : Bool) (s : K) : Except Err (List (Constraint K n)) :=
  match p.minWeights, p.maxWeights with
  | none, _ => .error .noneComparison
  | some _, none => .error .boundsRequired
  | some minW, some maxW =>
    if ∀ i, 0 < minW i then .error .minWeightsPositive
    else if p.thresholdLong.isSome && !p.thresholdShort.isSome && decide (∃ i, minW i < 0) then .error .thresholdShortRequired
    else if (effective p.thresholdShort).isSome && !(effective p.thresholdLong).isSome then .error .thresholdLongRequired
    else if p.thresholdShort.isSome && decide (∃ i, minW i < 0) then
      match effective p.thresholdLong, effective p.thresholdShort with
      | some tl, some ts => .ok [mipShort p minW maxW tl ts factorIsVariable s]
      | _, _ => .error .multiplyNone
    else .ok [mipNoShort p minW maxW (effective p.thresholdLong) factorIsVariable s]

/-- L897-945: linear constraints. -/
def linearConstraints (p : Params K n) (s : K) : List (Constraint K n) :=
  [fun w k => ∀ row ∈ p.eqRows, (∑ i, row.1 i * w i) * s - row.2 * k * s = 0,
   fun w k => ∀ row ∈ p.ineqRows, (∑ i, row.1 i * w i) * s - row.2 * k * s ≤ 0] ++
  (match p.inequality with
    | none => []
    | some rows => [fun w k => ∀ row ∈ rows, (∑ i, row.1 i * w i) * s - row.2 * k * s ≤ 0])

/-- The part of `_get_weight_constraints` before the mixed-integer constraints. -/
def simpleConstraints (p : Params K n) (allowNegative : Bool) (s : K) : Except Err (List (Constraint K n)) := do
  let a ← minConstraint p allowNegative s
  let b ← longConstraint p s
  let c ← shortConstraint p s
  let e ← budgetConstraint p s
  return a ++ maxConstraint p s ++ b ++ c ++ budgetBounds p s ++ e

/-- The mixed-integer part, L833-895. -/
def mipPart (p : Params K n) (factorIsVariable : Bool) (s : K) : Except Err (List (Constraint K n)) :=
  if isMip p then mipConstraint p factorIsVariable s else .ok []

/-- `_get_weight_constraints`, L663-947. -/
def getWeightConstraints (p : Params K n) (factorIsVariable allowNegative : Bool) (s : K) : Except Err (List (Constraint K n)) :=
  if isMip p && !p.mixedIntegerSolver then .error .notMixedIntegerSolver
  else do
    let a ← simpleConstraints p allowNegative s
    let m ← mipPart p factorIsVariable s
    return a ++ m ++ linearConstraints p s

end

end Skfolio.Convex
