import Verif.Measures.Model
import Verif.Portfolio.PopulationModel
import Verif.Selection.Model
import Verif.Sorting.Model
import Mathlib.Data.List.Dedup
import Mathlib.Data.List.Sort

/-!
# What the plots show (model)

Models the data handed to plotly by `portfolio/_base.py` L687-699, L952-1033 (`returns_df`, `cumulative_returns_df`,
`plot_cumulative_returns`, `plot_returns`) and `population/_population.py` L487-620, L696-796, L972-975
(`plot_distribution`, `plot_cumulative_returns`, `plot_measures`, `_ptf_name_with_tag`).  Titles, axis formats and colours
are not modelled.  `pandas` (`iloc`, `concat`, `sort_index`) is modelled as documented.
-/

set_option autoImplicit false

namespace Skfolio.Portfolio.Plot

/-- The exceptions met: `ValueError`, `TypeError`, `IndexError`, `KeyError`. -/
inductive Err | value | type | index | key
  deriving DecidableEq, Repr

/-- The argument `idx`: a slice of step one or an array of positions. -/
inductive Sel | slice (a b : Option ℤ) | positions (ps : List ℤ)
  deriving DecidableEq, Repr

/-- `slice(None)`, taken when `idx` is `None` (`portfolio/_base.py` L976, L1021 and `population/_population.py` L567). -/
def Sel.all : Sel := .slice none none

/-- First position of a slice of a sequence of length `n`. -/
def lower (n : ℕ) : Option ℤ → ℕ
  | none => 0
  | some a => Pop.clamp n a

/-- Position after the last one of a slice of a sequence of length `n`. -/
def upper (n : ℕ) : Option ℤ → ℕ
  | none => n
  | some b => Pop.clamp n b

/-- The positions of a sequence of length `n` that `iloc[s]` selects, in order (an array that leaves the range raises
`IndexError`, a slice never does). -/
def Sel.indices (s : Sel) (n : ℕ) : Except Err (List ℕ) :=
  match s with
  | .slice a b => .ok ((List.range n).filter fun k => decide (lower n a ≤ k) && decide (k < upper n b))
  | .positions ps =>
    match ps.mapM (Pop.index n) with
    | some l => .ok l
    | none => .error .index

/-- `iloc[s]` on a sequence. -/
def Sel.pick {α : Type} (s : Sel) (l : List α) : Except Err (List α) :=
  match s.indices l.length with
  | .ok ks => .ok (ks.filterMap fun k => l[k]?)
  | .error e => .error e

/-- What the plots read of a portfolio. -/
structure Ptf (Obs K : Type) where
  name : String
  tag : Option String
  observations : List Obs
  returns : List K
  compounded : Bool

variable {Obs K : Type}

section field
variable [Field K]

/-- `returns_df`, `portfolio/_base.py` L687-691. -/
def Ptf.returnsDf (p : Ptf Obs K) : List (Obs × K) := p.observations.zip p.returns

/-- `cumulative_returns_df`, `portfolio/_base.py` L693-699. -/
def Ptf.cumulativeDf (p : Ptf Obs K) : List (Obs × K) :=
  p.observations.zip (Measures.cumulativeReturns p.returns p.compounded)

/-- `Portfolio.plot_returns`, `portfolio/_base.py` L1006-1033: the points of the curve. -/
def Ptf.plotReturns (p : Ptf Obs K) (idx : Option Sel) : Except Err (List (Obs × K)) :=
  (idx.getD .all).pick p.returnsDf

/-- `Portfolio.plot_cumulative_returns`, `portfolio/_base.py` L952-1004: the points of the curve.  The rows are selected
(L977) before the scale is checked (L986). -/
def Ptf.plotCumulative (p : Ptf Obs K) (logScale : Bool) (idx : Option Sel) : Except Err (List (Obs × K)) :=
  match (idx.getD .all).pick p.cumulativeDf with
  | .error e => .error e
  | .ok pts => if !p.compounded && logScale then .error .value else .ok pts

/-- `_ptf_name_with_tag`, `population/_population.py` L972-975. -/
def Ptf.label (p : Ptf Obs K) : String :=
  match p.tag with
  | none => p.name
  | some t => p.name ++ "_" ++ t

variable [LinearOrder Obs]

/-- The rows of `pd.concat(series, axis=1)` once sorted, `population/_population.py` L598-600: every label of one of the
series, once, in increasing order. -/
def rows (ss : List (List (Obs × K))) : List Obs :=
  ((ss.flatten.map Prod.fst).dedup).insertionSort (· ≤ ·)

/-- One column of the table: the value of the series at every row, `none` where the series has no such label. -/
def column (index : List Obs) (s : List (Obs × K)) : List (Obs × Option K) := index.map fun o => (o, s.lookup o)

/-- `Population.plot_cumulative_returns`, `population/_population.py` L540-620: the curves, each with its name in the
legend.  `iloc[:, idx]` (L598) selects COLUMNS; assigning as many names as there are portfolios to `df.columns` (L601)
raises `ValueError` when the number of columns is another. -/
def plotPopulation (pop : List (Ptf Obs K)) (logScale : Bool) (idx : Option Sel) :
    Except Err (List (String × List (Obs × Option K))) :=
  if (pop.map Ptf.compounded).dedup.length = 2 then .error .value
  else
    match (pop.map Ptf.compounded).dedup with
    | [] => .error .key
    | compounded :: _ =>
      if !compounded && logScale then .error .value
      else
        let series := pop.map Ptf.cumulativeDf
        match (idx.getD .all).pick (series.map (column (rows series))) with
        | .error e => .error e
        | .ok cols =>
          let names := Selection.deduplicateNames (pop.map Ptf.label)
          if names.length ≠ cols.length then .error .value else .ok (names.zip cols)

end field

section distribution
variable {α M : Type}

/-- `plot_distribution`, `population/_population.py` L515-529: the labelled values; `np.array(values)` of lists of different
lengths raises `ValueError`. -/
def plotDistribution (pop : List α) (tag : α → Option String) (measure : M → α → K) (str value : M → String)
    (measures : List M) (tags : Option (List String)) : Except Err (List (String × List K)) :=
  let cols := measures.flatMap fun m =>
    match tags with
    | some ts => ts.map fun t => (str m ++ " - " ++ t, (pop.filter fun p => decide (tag p = some t)).map (measure m))
    | none => [(value m, pop.map (measure m))]
  match cols with
  | [] => .ok []
  | c :: _ => if cols.all fun d => d.2.length == c.2.length then .ok cols else .error .value

/-- The `hovertemplate` of the surface, L792-803: `str + None` raises `TypeError` when one of the measures is a ratio. -/
def surfaceTemplate (isRatio : M → Bool) (str : M → String) (x y z : M) : Except Err String :=
  match [(x, "x"), (y, "y"), (z, "z")].mapM fun (e, v) =>
      if isRatio e then none else some (str e ++ ": %{" ++ v ++ ":" ++ ",.3%" ++ "}") with
  | some parts => .ok ("<br>".intercalate parts ++ "<extra></extra>")
  | none => .error .type

/-- The column `front` of `plot_measures(show_fronts=True)`, L768-773: `-1` everywhere, then the number of the front for
every position in it. -/
def frontColumn (n : ℕ) (fronts : List (List ℕ)) : List ℤ :=
  fronts.zipIdx.foldl (fun df fk => fk.1.foldl (fun d i => d.set i (fk.2 : ℤ)) df) (List.replicate n (-1))

/-- The fronts shown by `plot_measures(show_fronts=True)` for portfolios with the given fitness vectors. -/
def plotFronts {β : Type} [LT β] [DecidableLT β] (fits : List (List β)) : Option (List ℤ) :=
  (Sorting.nonDominatedSort fits false fits.length).map (frontColumn fits.length)

end distribution

end Skfolio.Portfolio.Plot
