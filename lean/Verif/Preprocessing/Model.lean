import Mathlib.Algebra.Order.Field.Basic
import Mathlib.Data.Fin.VecNotation
import Mathlib.Data.List.FinRange

/-!
Model of `prices_to_returns`, `src/skfolio/preprocessing/_returns.py` L13-132.

A data frame with `c` columns is a list of rows: an index label and one optional number per column (`none` is NaN). `X.join(y)` is not modelled: the
frame given is the joined one, its first `nX` columns are those of `X` (`c = nX` without `y`). Prices are numbers of a field; division by a zero price, which gives an infinity in pandas, is the
field's; the theorems assume prices that are not zero.
-/
set_option autoImplicit false

namespace Skfolio.Preprocessing

section
variable {ι K : Type} [DecidableEq ι] [Field K] [LinearOrder K] {c : Nat}

/-- A row: label and values. -/
abbrev Row (ι K : Type) (c : Nat) := ι × (Fin c → Option K)

/-- The frame of returns: the columns that were kept, in order, and the rows (the values of other columns are meaningless). -/
structure Returns (ι K : Type) (c : Nat) where
  columns : List (Fin c)
  rows : List (Row ι K c)

inductive Err where
  | nanThreshold
  deriving DecidableEq

/-- `df.isna().sum(axis=1)` of one row, L103. -/
def countNan (r : Row ι K c) : Nat := ((List.finRange c).filter fun a => (r.2 a).isNone).length

/-- Rows with too many missing values, L104: the count is over all columns, the bound over the columns of `X`. -/
def tooManyNan (nX : Nat) (thr : K) (r : Row ι K c) : Bool := decide ((countNan r : K) > (nX : K) * thr)

/-- L97-106: `df.drop(to_drop)` drops by label. -/
def dropThreshold (nX : Nat) (thr : Option K) (rows : List (Row ι K c)) : Except Err (List (Row ι K c)) :=
  match thr with
  | none => .ok rows
  | some x =>
    if 0 < x ∧ x ≤ 1 then
      let toDrop := (rows.filter (tooManyNan nX x)).map (·.1)
      .ok (rows.filter fun r => !decide (r.1 ∈ toDrop))
    else .error .nanThreshold

/-- `df.ffill()`, L110, after a row whose filled values are `prev`. -/
def ffillFrom (prev : Fin c → Option K) : List (Row ι K c) → List (Row ι K c)
  | [] => []
  | r :: rs =>
    let filled := fun a => (r.2 a).or (prev a)
    (r.1, filled) :: ffillFrom filled rs

/-- `df.ffill()`, L110. -/
def ffill (rows : List (Row ι K c)) : List (Row ι K c) := ffillFrom (fun _ => none) rows

/-- `df.dropna(how="any")` and `df.dropna(how="all")`, L113. -/
def dropRows (dropInceptions : Bool) (rows : List (Row ι K c)) : List (Row ι K c) :=
  rows.filter fun r => if dropInceptions then decide (∀ a, (r.2 a).isSome) else decide (∃ a, (r.2 a).isSome)

/-- `df.dropna(axis=1, how="all")`, L115: the columns that are kept. -/
def keptColumns (rows : List (Row ι K c)) : List (Fin c) := (List.finRange c).filter fun a => rows.any fun r => (r.2 a).isSome

/-- `pct_change(fill_method=None)` of two consecutive values, L118; `g` is the identity or `log1p` (L119-120). -/
def change (g : K → K) : Option K → Option K → Option K
  | some p, some q => some (g (q / p - 1))
  | _, _ => none

/-- `df.pct_change(fill_method=None).iloc[1:]`, L118. -/
def pctChange (g : K → K) : List (Row ι K c) → List (Row ι K c)
  | p :: q :: rest => (q.1, fun a => change g (p.2 a) (q.2 a)) :: pctChange g (q :: rest)
  | _ => []

/-- `prices_to_returns`, L88-132, before the columns are split between `X` and `y`. -/
def pricesToReturns (nX : Nat) (thr : Option K) (dropInceptions fillNan : Bool) (g : K → K) (rows : List (Row ι K c)) : Except Err (Returns ι K c) :=
  match dropThreshold nX thr rows with
  | .error e => .error e
  | .ok kept =>
    let filled := if fillNan then ffill kept else kept
    let dropped := dropRows dropInceptions filled
    .ok ⟨keptColumns dropped, pctChange g dropped⟩

/-- L122-132: the columns of `X` and those of `y`. -/
def splitColumns (nX : Nat) (r : Returns ι K c) : List (Fin c) × List (Fin c) :=
  (r.columns.filter fun a => decide (a.val < nX), r.columns.filter fun a => !decide (a.val < nX))

end

end Skfolio.Preprocessing
