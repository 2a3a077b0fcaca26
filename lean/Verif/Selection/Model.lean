import Mathlib.Algebra.Order.Field.Basic
import Mathlib.Data.List.Sort
import Verif.Sorting.Model

/-!
# Bootstrap, name de-duplication and pre-selection transformers (model)

Models `utils/bootstrap.py::stationary_bootstrap`, `utils/tools.py::deduplicate_names` and the `fit` methods
of the transformers in `pre_selection/`.  Numbers are elements of an ordered field; random draws are arguments.
-/

set_option autoImplicit false

namespace Skfolio.Selection

/-! ### Stationary bootstrap -/

/-- The inner loop over `j ≥ 1`, `utils/bootstrap.py` L113-116, for one sample: `prev` is `indices[i, j-1]`
(already updated), each step carries the draw `indices[i, j]` and `cond[i, j]`. -/
def bootChain (prev : ℕ) : List (ℕ × Bool) → List ℕ
  | [] => []
  | (d, c) :: rest =>
    let cur := if c then prev + 1 else d
    cur :: bootChain cur rest

/-- One row of `indices` after the loop, `utils/bootstrap.py` L108-116. -/
def bootIndices : List (ℕ × Bool) → List ℕ
  | [] => []
  | (d, _) :: rest => d :: bootChain d rest

/-- `indices[indices > 2 * n_observations] = 0`, `utils/bootstrap.py` L117. -/
def bootGuard (n : ℕ) (idx : List ℕ) : List ℕ := idx.map fun i => if 2 * n < i then 0 else i

/-- One bootstrap sample, `utils/bootstrap.py` L101, L108-118: `x = vstack((returns, returns))`, then the rows of `x` at
the indices; `none` is an out-of-bounds access.  `draws` are the random integers of the row and `cond` the outcomes of
`rand() >= 1 / block_size`; the block size itself (`optimal_block_size`) only enters through `cond`. -/
def bootSample {Row : Type*} (returns : List Row) (draws : List (ℕ × Bool)) : Option (List Row) :=
  (bootGuard returns.length (bootIndices draws)).mapM fun i => (returns ++ returns)[i]?

/-- `stationary_bootstrap`, `utils/bootstrap.py` L68-118: one sample per row of draws. -/
def stationaryBootstrap {Row : Type*} (returns : List Row) (draws : List (List (ℕ × Bool))) :
    Option (List (List Row)) := draws.mapM (bootSample returns)

/-! ### De-duplication of names -/

/-- The loop of `deduplicate_names`, `utils/tools.py` L719-726; `counts` is the dictionary. -/
def dedupLoop (counts : String → ℕ) : List String → List String
  | [] => []
  | col :: rest =>
    let cur := counts col
    (if 0 < cur then col ++ "_" ++ toString cur else col) ::
      dedupLoop (fun c => if c = col then cur + 1 else counts c) rest

/-- `deduplicate_names`, `utils/tools.py` L704-726. -/
def deduplicateNames (names : List String) : List String := dedupLoop (fun _ => 0) names

/-! ### DropCorrelated -/

section Corr
variable {K : Type*} [LinearOrder K]

/-- One iteration of the loop, `pre_selection/_drop_correlated.py` L96-102. -/
def dropStep (meanCorr : ℕ → K) (removed : List ℕ) (p : ℕ × ℕ) : List ℕ :=
  if p.1 ∉ removed ∧ p.2 ∉ removed then
    if meanCorr p.2 < meanCorr p.1 then p.1 :: removed else p.2 :: removed
  else removed

/-- `np.triu_indices(n, 1)`: row by row. -/
def triuIndices (n : ℕ) : List (ℕ × ℕ) :=
  (List.range n).flatMap fun i => ((List.range n).filter (i < ·)).map fun j => (i, j)

/-- The pairs selected and sorted, `pre_selection/_drop_correlated.py` L85-91.  `np.argsort` sorts the selected pairs
by decreasing correlation (numpy does not promise an order among ties; the model keeps them in triangular order and no
theorem depends on it). -/
def selectedPairs (corr : ℕ → ℕ → K) (threshold : K) (n : ℕ) : List (ℕ × ℕ) :=
  ((triuIndices n).filter fun p => threshold < corr p.1 p.2).insertionSort
    fun p q => corr q.1 q.2 ≤ corr p.1 p.2

/-- `DropCorrelated.fit` after validation, `pre_selection/_drop_correlated.py` L77-104: which assets are kept.
`corr` is `np.corrcoef(X.T)`, `meanCorr` its column means. The attribute `absolute` is read nowhere in `fit`. -/
def dropCorrelated (corr : ℕ → ℕ → K) (meanCorr : ℕ → K) (threshold : K) (_absolute : Bool) (n : ℕ) :
    List Bool :=
  let removed := (selectedPairs corr threshold n).foldl (dropStep meanCorr) []
  (List.range n).map fun i => decide (i ∉ removed)

/-- `DropCorrelated.fit` after validation of the data, which has at least one column, `pre_selection/_drop_correlated.py` L77-104. `none` is an exception: the threshold is out of range (L78-79), or there is a
single asset, whose `np.corrcoef(X.T)` is a number, so that `corr[triu_idx]` (L88) is an `IndexError`. -/
def dropCorrelatedFit [One K] [Neg K] (corr : ℕ → ℕ → K) (meanCorr : ℕ → K) (threshold : K) (absolute : Bool) (n : ℕ) : Option (List Bool) :=
  if ¬ (-1 ≤ threshold ∧ threshold ≤ 1) then none
  else if n = 1 then none
  else some (dropCorrelated corr meanCorr threshold absolute n)

/-! ### SelectKExtremes -/

/-- `Population.sort_measure` on the single-asset portfolios, `population/_population.py` L260-282: Python's `sorted` is
stable, also with `reverse=True`; `m i` is the measure of the portfolio invested in asset `i` alone. -/
def sortMeasure (m : ℕ → K) (reverse : Bool) (pop : List ℕ) : List ℕ :=
  if reverse then pop.insertionSort fun i j => m j ≤ m i else pop.insertionSort fun i j => m i ≤ m j

/-- `SelectKExtremes.fit`, `pre_selection/_select_k_extremes.py` L63-96; `none` is the `ValueError` for `k <= 0`. -/
def selectKExtremes (m : ℕ → K) (k : ℤ) (highest : Bool) (n : ℕ) : Option (List Bool) :=
  if k ≤ 0 then none
  else
    let selected := (sortMeasure m highest (List.range n)).take k.toNat
    some ((List.range n).map fun i => decide (i ∈ selected))

end Corr

/-! ### SelectNonDominated -/

section ND
variable {K : Type} [Field K] [LinearOrder K]

/-- Weight of the first asset of a pair, `pre_selection/_select_non_dominated.py` L130-135. -/
def pairWeight (var1 var2 cov : K) : K := (var2 - cov) / (var1 + var2 - 2 * cov)

/-- `nonzero_assets_index`, `portfolio/_portfolio.py` L656-658 with `_ZERO_THRESHOLD = 1e-5` (`portfolio/_base.py` L66), for weights over
`n` assets. -/
def nonzeroAssets (n : ℕ) (w : ℕ → K) : List ℕ := (List.range n).filter fun i => 1 / 10 ^ 5 < |w i|

/-- The candidate weights, `_select_non_dominated.py` L106-140: single assets, then the pairs with correlation below the
threshold. -/
def candidates (n : ℕ) (corr cov : ℕ → ℕ → K) (threshold : K) : List (ℕ → K) :=
  ((List.range n).map fun i j => if j = i then 1 else 0) ++
  (((List.range n).flatMap fun i => ((List.range n).filter (i < ·)).map fun j => (i, j)).filter
    fun p => corr p.1 p.2 < threshold).map fun p k =>
      if k = p.2 then 1 - pairWeight (cov p.1 p.1) (cov p.2 p.2) (cov p.1 p.2)
      else if k = p.1 then pairWeight (cov p.1 p.1) (cov p.2 p.2) (cov p.1 p.2) else 0

/-- The `while` loop collecting fronts, `_select_non_dominated.py` L145-155; `minN = none` is `min_n_assets=None`.  The
set `new_assets_idx` is a list without repetitions. -/
def collect (assetsOf : ℕ → List ℕ) (minN : Option ℕ) : List (List ℕ) → List ℕ → List ℕ
  | [], acc => acc
  | front :: rest, acc =>
    if (match minN with | none => false | some m => decide (m < acc.length)) then acc
    else collect assetsOf minN rest (front.foldl (fun a idx => a ∪ assetsOf idx) acc)

/-- `SelectNonDominated.fit` after validation, `_select_non_dominated.py` L98-157.  `fitness` maps portfolio
weights to `Portfolio.fitness`. -/
def selectNonDominated (n : ℕ) (minN : Option ℕ) (corr cov : ℕ → ℕ → K) (threshold : K)
    (fitness : (ℕ → K) → List K) : Option (List Bool) :=
  if (match minN with | none => false | some m => decide (n ≤ m)) then some (List.replicate n true)
  else
    let pop := candidates n corr cov threshold
    match Sorting.nonDominatedSort (pop.map fitness) minN.isNone pop.length with
    | none => none
    | some fronts =>
      let idx := collect (fun i => nonzeroAssets n (pop.getD i fun _ => 0)) minN fronts []
      some ((List.range n).map fun i => decide (i ∈ idx))

end ND

/-! ### The other selectors -/

/-- `SelectComplete.fit`, `pre_selection/_select_complete.py` L98-106; `none` entries are NaN. `X` is given by columns. -/
def selectComplete {K : Type*} (dropInternal : Bool) (columns : List (List (Option K))) : List Bool :=
  columns.map fun col =>
    if dropInternal then !(col.any Option.isNone)
    else !(col.head?.join).isNone && !(col.getLast?.join).isNone

/-- `SelectNonExpiring.fit`, `pre_selection/_select_non_expiring.py` L131-138.  Dates are elements of a linear order;
`maxDate` is `pd.Timestamp.max`, `cutoff` is `X.index[-1] + expiration_lookahead`. -/
def selectNonExpiring {D : Type*} [LinearOrder D] (expiration : List (String × D)) (maxDate cutoff : D)
    (columns : List String) : List Bool :=
  columns.map fun a => decide (cutoff < (expiration.lookup a).getD maxDate)

/-- Mean of a column. -/
def colMean {K : Type*} [Field K] (col : List K) : K := col.sum / col.length

/-- `X.var(axis=0)` for a column (population variance). -/
def colVar {K : Type*} [Field K] (col : List K) : K :=
  (col.map fun x => (x - colMean col) ^ 2).sum / col.length

/-- `DropZeroVariance.fit`, `pre_selection/_drop_zero_variance.py` L63-69; `none` is the `ValueError`. -/
def dropZeroVariance {K : Type*} [Field K] [LinearOrder K] (threshold : K) (columns : List (List K)) :
    Option (List Bool) :=
  if threshold < 0 then none else some (columns.map fun col => decide (threshold < colVar col))

end Skfolio.Selection
