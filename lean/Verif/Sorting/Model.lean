/-
Model of `src/skfolio/utils/sorting.py`.
-/
set_option autoImplicit false

namespace Skfolio.Sorting

/-- Exceptions raised by `utils/sorting.py`. `zip(..., strict=True)` raises a `ValueError` when it reaches the end of
one argument before the other (sorting.py L35). -/
inductive Err where
  | valueError
  deriving DecidableEq, Repr

section
variable {α : Type} [LT α] [DecidableLT α]

/-- The loop of `dominate`, sorting.py L34-40: the first argument is the local `not_equal`, the other two are
the not yet consumed suffixes of `fitness_1` and `fitness_2`.  `zip(..., strict=True)` (L35) raises when
exactly one of them is exhausted. -/
def dominateLoop (notEqual : Bool) : List α → List α → Except Err Bool
  | [], [] => .ok notEqual
  | a :: as, b :: bs =>
    if b < a then dominateLoop true as bs
    else if a < b then .ok false
    else dominateLoop notEqual as bs
  | [], _ :: _ => .error .valueError
  | _ :: _, [] => .error .valueError

/-- `dominate`, sorting.py L12-40. The test on `ndim` (L32) never fires for one-dimensional arguments and is
left out: arguments are lists, i.e. one-dimensional. -/
def dominate (f g : List α) : Except Err Bool := dominateLoop false f g

/-- The truth value `dominate(fitnesses[i], fitnesses[j])` seen by `non_denominated_sort` (L84, L87).
`fitnesses` is a two-dimensional array, so all its rows have the same length and `dominate` never raises (theorem
`C01_dominate_ok_iff`); the value in the raising case is immaterial. -/
def domAt (fits : List (List α)) (i j : Nat) : Bool :=
  match dominate (fits.getD i []) (fits.getD j []) with
  | .ok b => b
  | .error _ => false

end

/-- The mutable locals `is_dominating` (L75) and `n_dominated` (L78) of `non_denominated_sort`; the two lists of length
`n` are represented by functions on indices. -/
structure Counters where
  isDominating : Nat → List Nat
  nDominated : Nat → Int

/-- `a[i] = v` on a list represented by a function. -/
def upd {β : Type} (f : Nat → β) (i : Nat) (v : β) : Nat → β := fun k => if k = i then v else f k

/-- The body of the inner loop, sorting.py L84-89. -/
def pairStep (dom : Nat → Nat → Bool) (i : Nat) (c : Counters) (j : Nat) : Counters :=
  if dom i j then
    { isDominating := upd c.isDominating i (c.isDominating i ++ [j]),
      nDominated := upd c.nDominated j (c.nDominated j + 1) }
  else if dom j i then
    { isDominating := upd c.isDominating j (c.isDominating j ++ [i]),
      nDominated := upd c.nDominated i (c.nDominated i + 1) }
  else c

/-- The body of the outer loop, sorting.py L82-94; the second component is `current_front`. (`ranked` is written but
never read and is left out; `n_ranked` is the length of `current_front` here.) -/
def rowStep (dom : Nat → Nat → Bool) (n : Nat) (s : Counters × List Nat) (i : Nat) : Counters × List Nat :=
  let c := (List.range' (i + 1) (n - (i + 1))).foldl (pairStep dom i) s.1
  if c.nDominated i = 0 then (c, s.2 ++ [i]) else (c, s.2)

/-- sorting.py L70-94: the initial counters and the double loop. -/
def firstPhase (dom : Nat → Nat → Bool) (n : Nat) : Counters × List Nat :=
  (List.range n).foldl (rowStep dom n) ({ isDominating := fun _ => [], nDominated := fun _ => 0 }, [])

/-- sorting.py L109-113, the innermost body: state is (`n_dominated`, `next_front`). -/
def peelStep (s : (Nat → Int) × List Nat) (j : Nat) : (Nat → Int) × List Nat :=
  let nd := upd s.1 j (s.1 j - 1)
  if nd j = 0 then (nd, s.2 ++ [j]) else (nd, s.2)

/-- sorting.py L104-113: one pass over `current_front`. -/
def peelPass (isDominating : Nat → List Nat) (nd : Nat → Int) (cur : List Nat) : (Nat → Int) × List Nat :=
  cur.foldl (fun s i => (isDominating i).foldl peelStep s) (nd, [])

/-- The `while` loop, sorting.py L103-116. A fuel argument bounds the number of iterations; `none` means that the loop
is still running when the fuel is used up (theorem `C02_terminates`: `n` iterations are always enough). -/
def peelLoop (isDominating : Nat → List Nat) (n : Nat) :
    (fuel : Nat) → (nd : Nat → Int) → (cur : List Nat) → (fronts : List (List Nat)) → (nRanked : Nat) →
    Option (List (List Nat))
  | fuel, nd, cur, fronts, nRanked =>
    if nRanked < n then
      match fuel with
      | 0 => none
      | fuel + 1 =>
        let r := peelPass isDominating nd cur
        peelLoop isDominating n fuel r.1 r.2 (fronts ++ [r.2]) (nRanked + r.2.length)
    else some fronts

/-- `non_denominated_sort` on an abstract dominance test, sorting.py L65-118. -/
def sortDom (dom : Nat → Nat → Bool) (n : Nat) (firstFrontOnly : Bool) (fuel : Nat) : Option (List (List Nat)) :=
  if n = 0 then some []
  else
    let s := firstPhase dom n
    if firstFrontOnly then some [s.2]
    else peelLoop s.1.isDominating n fuel s.1.nDominated s.2 [s.2] s.2.length

/-- `non_denominated_sort`, sorting.py L43-118, with a bound on the number of iterations of its `while` loop. -/
def nonDominatedSort {α : Type} [LT α] [DecidableLT α] (fits : List (List α)) (firstFrontOnly : Bool) (fuel : Nat) :
    Option (List (List Nat)) :=
  sortDom (domAt fits) fits.length firstFrontOnly fuel

end Skfolio.Sorting
