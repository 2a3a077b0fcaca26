import Mathlib.Algebra.Order.Field.Basic
import Mathlib.Algebra.Order.Floor.Semiring
import Mathlib.Algebra.BigOperators.Group.List.Basic
import Mathlib.Data.List.Sort

/-!
Model of `src/skfolio/measures/_measures.py`: the historical measures of a sample of returns.

A sample is a list over an ordered field. Float rounding is not modelled.
-/
set_option autoImplicit false

namespace Skfolio.Measures

section
variable {K : Type} [Field K] [LinearOrder K]

/-- The contract of `np.partition(a, i)`: the result is a rearrangement of `a`; nothing before position `i` is larger than the entry
at `i`, nothing after it is smaller. Nothing else is assumed on the order. -/
structure Partition (K : Type) [LinearOrder K] where
  run : List K → Nat → List K
  perm : ∀ r i, (run r i).Perm r
  before : ∀ r i x, (run r i)[i]? = some x → ∀ y ∈ (run r i).take i, y ≤ x
  after : ∀ r i x, (run r i)[i]? = some x → ∀ y ∈ (run r i).drop (i + 1), x ≤ y

/-- `mean`, _measures.py L13-26. -/
def mean (r : List K) : K := r.sum / (r.length : K)

/-- `min_acceptable_return` of L49-50, L77-78, L120-121, L265-266: the default is the mean. -/
def mar (r : List K) : Option K → K
  | none => mean r
  | some m => m

/-- `mean_absolute_deviation`, L29-51. -/
def meanAbsoluteDeviation (r : List K) (m : Option K) : K := mean (r.map fun x => |x - mar r m|)

/-- `first_lower_partial_moment`, L54-79. -/
def firstLowerPartialMoment (r : List K) (m : Option K) : K := -(r.map fun x => min 0 (x - mar r m)).sum / (r.length : K)

/-- `variance`, L82-95 (`ddof=1`). For one observation numpy returns NaN; the claims are for at least two. -/
def variance (r : List K) : K := (r.map fun x => (x - mean r) ^ 2).sum / ((r.length : K) - 1)

/-- `semi_variance`, L98-124. Same remark for one observation. -/
def semiVariance (r : List K) (m : Option K) : K := (r.map fun x => (min 0 (x - mar r m)) ^ 2).sum / ((r.length : K) - 1)

/-- `third_central_moment`, L169-182. -/
def thirdCentralMoment (r : List K) : K := (r.map fun x => (x - mean r) ^ 3).sum / (r.length : K)

/-- `fourth_central_moment`, L205-218. -/
def fourthCentralMoment (r : List K) : K := (r.map fun x => (x - mean r) ^ 4).sum / (r.length : K)

/-- `fourth_lower_partial_moment`, L240-269. -/
def fourthLowerPartialMoment (r : List K) (m : Option K) : K := (r.map fun x => (min 0 (x - mar r m)) ^ 4).sum / (r.length : K)

/-- `worst_realization`, L272-285: `-min(returns)`; `min` of an empty sequence raises. -/
def worstRealization (r : List K) : Option K := r.min?.map fun x => -x

/-- `k = (1 - beta) * len(returns)`, L306 and L333. -/
def tailSize (beta : K) (n : Nat) : K := (1 - beta) * (n : K)

/-- `ik = max(0, int(np.ceil(k) - 1))`, L307 and L334: `⌈·⌉₊` is 0 for negative numbers and the subtraction is truncated. -/
def tailIndex [FloorSemiring K] (beta : K) (n : Nat) : Nat := ⌈tailSize beta n⌉₊ - 1

/-- `value_at_risk`, L288-311. `none` is the exception raised when the index is out of bounds. -/
def valueAtRisk [FloorSemiring K] (P : Partition K) (r : List K) (beta : K) : Option K :=
  ((P.run r (tailIndex beta r.length))[tailIndex beta r.length]?).map fun x => -x

/-- `cvar`, L314-338. `none` is the exception for an index out of bounds, or the NaN/inf of the division by `k = 0`. -/
def cvar [FloorSemiring K] (P : Partition K) (r : List K) (beta : K) : Option K :=
  let k := tailSize beta r.length
  let ik := tailIndex beta r.length
  let ret := P.run r ik
  match ret[ik]? with
  | none => none
  | some x => if k = 0 then none else some (-(ret.take ik).sum / k + x * ((ik : K) / k - 1))

/-- `np.cumsum` with a running total. -/
def cumsumFrom (acc : K) : List K → List K
  | [] => []
  | x :: r => (acc + x) :: cumsumFrom (acc + x) r

/-- `np.cumprod` with a running product. -/
def cumprodFrom (acc : K) : List K → List K
  | [] => []
  | x :: r => (acc * x) :: cumprodFrom (acc * x) r

/-- `get_cumulative_returns`, L405-428. -/
def cumulativeReturns (r : List K) (compounded : Bool) : List K :=
  if compounded then (cumprodFrom 1 (r.map fun x => 1 + x)).map fun x => 1000 * x else cumsumFrom 0 r

/-- `np.maximum.accumulate`. -/
def maxAccFrom (acc : K) : List K → List K
  | [] => []
  | x :: r => max acc x :: maxAccFrom (max acc x) r

/-- `np.maximum.accumulate`. -/
def maxAcc : List K → List K
  | [] => []
  | x :: r => x :: maxAccFrom x r

/-- `get_drawdowns`, L431-453. The division is numpy's: the claims assume returns above -1, so that it is never by 0. -/
def drawdowns (r : List K) (compounded : Bool) : List K :=
  let c := cumulativeReturns r compounded
  if compounded then List.zipWith (fun a b => a / b - 1) c (maxAcc c) else List.zipWith (fun a b => a - b) c (maxAcc c)

/-- `drawdown_at_risk`, L456-474. -/
def drawdownAtRisk [FloorSemiring K] (P : Partition K) (d : List K) (beta : K) : Option K := valueAtRisk P d beta

/-- `max_drawdown`, L477-490. -/
def maxDrawdown [FloorSemiring K] (P : Partition K) (d : List K) : Option K := drawdownAtRisk P d 1

/-- `cdar`, L509-526. -/
def cdar [FloorSemiring K] (P : Partition K) (d : List K) (beta : K) : Option K := cvar P d beta

/-- `average_drawdown`, L493-506. -/
def averageDrawdown [FloorSemiring K] (P : Partition K) (d : List K) : Option K := cdar P d 0

/-- The square of `ulcer_index`, L552-565 (the square root is taken in `ulcerIndex`). -/
def ulcerSquared (d : List K) : K := (d.map fun x => x ^ 2).sum / (d.length : K)

/-- `owa_gmd_weights`, L568-583: weight of position `i` (from 0). -/
def owaGmdWeight (n i : Nat) : K := (4 * ((i : K) + 1) - 2 * ((n : K) + 1)) / ((n : K) * ((n : K) - 1))

/-- Scalar product of a weight function with a list, positions counted from `i`. -/
def dotFrom (w : Nat → K) : Nat → List K → K
  | _, [] => 0
  | i, x :: r => w i * x + dotFrom w (i + 1) r

/-- `gini_mean_difference`, L586-606. `np.sort` is the sorted rearrangement. -/
def giniMeanDifference (r : List K) : K := dotFrom (owaGmdWeight r.length) 0 (r.insertionSort (· ≤ ·))

/-- `effective_number_assets`, L609-633. -/
def effectiveNumberAssets (w : List K) : K := 1 / (w.map fun x => x ^ 2).sum

end

end Skfolio.Measures
