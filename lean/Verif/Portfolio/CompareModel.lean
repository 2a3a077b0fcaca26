import Verif.Sorting.Model
import Mathlib.Order.Defs.LinearOrder
import Mathlib.Data.Nat.Notation

/-!
# Comparing portfolios (model)

Models the comparison operators of `BasePortfolio`, `src/skfolio/portfolio/_base.py` L532-551, and what the containers of portfolios
make of them: `MultiPeriodPortfolio.__contains__`, `src/skfolio/portfolio/_multi_period_portfolio.py` L393-396, and the methods that
`Population` (`src/skfolio/population/_population.py` L25) inherits from `list`.  The value of a measure may be NaN.
`fitness` is L656-667.  Infinite values are left out; they compare like very large numbers.
-/

set_option autoImplicit false

namespace Skfolio.Portfolio.Compare

/-- A float: a number or NaN. -/
inductive Fl (K : Type) where
  | nan
  | num (x : K)
  deriving DecidableEq

variable {K : Type}

/-- `<` of floats: false with a NaN. -/
instance [LT K] : LT (Fl K) where
  lt a b := match a, b with
    | .num x, .num y => x < y
    | _, _ => False

instance [LT K] [DecidableLT K] : DecidableLT (Fl K) := fun a b =>
  match a, b with
  | .num x, .num y => inferInstanceAs (Decidable (x < y))
  | .nan, _ => isFalse (fun h => h)
  | .num _, .nan => isFalse (fun h => h)

/-- `-a`. -/
def Fl.neg [Neg K] : Fl K → Fl K
  | .nan => .nan
  | .num x => .num (-x)

/-- `==` of floats: false with a NaN. -/
def Fl.eq [DecidableEq K] : Fl K → Fl K → Bool
  | .num x, .num y => decide (x = y)
  | _, _ => false

/-- A portfolio, as far as it is compared: the object (`id`), the fitness measures with the flag of a risk measure and their values. -/
structure Ptf (K : Type) where
  id : ℕ
  measures : List (Bool × Fl K)

/-- `fitness`, L656-667: risk measures count negatively. -/
def Ptf.fitness [Neg K] (p : Ptf K) : List (Fl K) := p.measures.map fun m => if m.1 then m.2.neg else m.2

/-- `np.array_equal`. -/
def arrayEqual [DecidableEq K] (f g : List (Fl K)) : Bool :=
  decide (f.length = g.length) && (f.zip g).all fun p => p.1.eq p.2

variable [Neg K] [LinearOrder K]

/-- `p == q`, L532-535, for two portfolios. -/
def eq (p q : Ptf K) : Bool := arrayEqual p.fitness q.fitness

/-- `p > q`, L537-543; `q < p` is the same call. -/
def gt (p q : Ptf K) : Except Sorting.Err Bool := Sorting.dominate p.fitness q.fitness

/-- `p >= q`, L545-551; `q <= p` is the same call. -/
def ge (p q : Ptf K) : Except Sorting.Err Bool := if eq p q then .ok true else gt p q

/-- `value in portfolios` for a portfolio: Python compares the objects first, then with `==`. -/
def contains (l : List (Ptf K)) (value : Ptf K) : Bool := l.any fun p => decide (p.id = value.id) || eq p value

/-- `population.remove(value)`: without the first element that is or equals `value`; `none` is the `ValueError`. -/
def remove (value : Ptf K) : List (Ptf K) → Option (List (Ptf K))
  | [] => none
  | p :: l => if decide (p.id = value.id) || eq p value then some l else (remove value l).map (p :: ·)

end Skfolio.Portfolio.Compare
