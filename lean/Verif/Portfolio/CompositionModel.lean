import Mathlib.Algebra.Order.Field.Basic
import Mathlib.Algebra.Order.Group.Abs
import Mathlib.Data.List.Dedup
import Mathlib.Algebra.BigOperators.Group.List.Basic

/-!
# Compositions and weights (model)

Models `Portfolio.nonzero_assets_index`, `composition`, `weights_per_observation`, `get_weight` (`portfolio/_portfolio.py` L650-681, L845-861) and `composition`,
`weights_per_observation` of `MultiPeriodPortfolio` (`portfolio/_multi_period_portfolio.py` L552-567), which `Population.composition` (`population/_population.py` L372-405) puts
side by side in the same way. The names of the columns are those of claim C75. Weights are not NaN.
-/

set_option autoImplicit false

namespace Skfolio.Portfolio

variable {K O : Type} [Field K] [LinearOrder K] [LinearOrder O]

/-- What a portfolio holds: name, names of the assets, weights, observations. -/
structure CPtf (K O : Type) where
  name : String
  assets : List String
  weights : List K
  obs : List O

/-- `_ZERO_THRESHOLD`, `portfolio/_base.py` L66. -/
def zeroThreshold : K := 1 / 10 ^ 5

/-- The invested assets with their weights: `nonzero_assets_index`, L655-658. -/
def CPtf.rows (p : CPtf K O) : List (String × K) := (p.assets.zip p.weights).filter fun r => decide (zeroThreshold < |r.2|)

inductive CompErr
  /-- pandas: an index from two columns of the same label -/
  | label
  /-- `IndexError` -/
  | unknownAsset
  deriving DecidableEq

/-- `Portfolio.composition`, L660-668: the column `weight` is renamed to the name of the portfolio before the column `asset` becomes the index. -/
def CPtf.composition (p : CPtf K O) : Except CompErr (List (String × K)) :=
  if p.name = "asset" then .error .label else .ok (p.rows.mergeSort fun a b => decide (b.2 ≤ a.2))

/-- The value for an asset in a column, after `fillna(0)`. -/
def cell (rows : List (String × K)) (a : String) : K := (rows.lookup a).getD 0

/-- `pd.concat(columns, axis=1)` with `fillna(0)`: the rows are all assets of the columns (their order is not modelled). -/
def concatColumns (cols : List (List (String × K))) : List (String × List K) :=
  ((cols.flatMap fun c => c.map Prod.fst).dedup).map fun a => (a, cols.map fun c => cell c a)

/-- `MultiPeriodPortfolio.composition`, L552-558. -/
def multiComposition (ps : List (CPtf K O)) : Except CompErr (List (String × List K)) :=
  (ps.mapM CPtf.composition).map concatColumns

/-- `MultiPeriodPortfolio.weights_per_observation`, L560-567, with `Portfolio.weights_per_observation`, L670-681: the columns, and one row for each observation, sorted. -/
def weightsPerObservation (ps : List (CPtf K O)) : List String × List (O × List K) :=
  let columns := (ps.flatMap fun p => p.rows.map Prod.fst).dedup
  (columns, (ps.flatMap fun p => p.obs.map fun o => (o, columns.map fun a => cell p.rows a)).mergeSort fun a b => decide (a.1 ≤ b.1))

/-- `get_weight`, L845-861. -/
def CPtf.getWeight (p : CPtf K O) (asset : String) : Except CompErr K :=
  match (p.assets.zip p.weights).find? fun r => r.1 == asset with
  | some r => .ok r.2
  | none => .error .unknownAsset

end Skfolio.Portfolio
