import Mathlib.Order.Defs.LinearOrder
import Mathlib.Data.Int.Notation
import Mathlib.Data.Nat.Notation

/-!
# MultiPeriodPortfolio (model)

Models the list operations of `portfolio/_multi_period_portfolio.py`.  Python lists are objects with an identity: they live
on a heap and are referred to by index, because `_set_portfolios` stores the caller's list itself, `__copy__` copies the
reference, and `append` mutates the list in place.  Measures and their cache are modelled in `CacheModel`.
-/

set_option autoImplicit false

namespace Skfolio.Portfolio.Multi

/-- A portfolio, as far as a multi-period portfolio looks at it: one return per observation
(`portfolio/_portfolio.py` L462-468, L517-529). -/
structure Ptf (D K : Type) where
  obs : List D
  rets : List K
  len : obs.length = rets.length
  deriving DecidableEq, Repr

/-- An item of a list of portfolios: Python does not enforce the type. -/
inductive Item (D K : Type) | ptf (p : Ptf D K) | other
  deriving DecidableEq, Repr

/-- A `MultiPeriodPortfolio`: `ref` is the reference `_portfolios`. -/
structure Mpp (D K : Type) where
  ref : ℕ
  obs : List D
  rets : List K
  check : Bool
  deriving DecidableEq, Repr

inductive Err | typeError | valueError | indexError | attributeError
  deriving DecidableEq, Repr

/-- All Python lists of the program and all multi-period portfolios. -/
structure World (D K : Type) where
  heap : List (List (Item D K))
  objs : List (Mpp D K)
  deriving DecidableEq, Repr

variable {D K : Type} [LinearOrder D]

/-- The type check of `_set_portfolios`, L506-511: the portfolios of the list, or `TypeError`. -/
def portfoliosOf : List (Item D K) → Except Err (List (Ptf D K))
  | [] => .ok []
  | .other :: _ => .error .typeError
  | .ptf p :: rest => match portfoliosOf rest with
    | .ok ps => .ok (p :: ps)
    | .error e => .error e

/-- The order check of `_set_portfolios`, L516-525, given the previous portfolio. -/
def checkOrder (prev : Ptf D K) : List (Ptf D K) → Except Err Unit
  | [] => .ok ()
  | p :: rest => match p.obs.head?, prev.obs.getLast? with
    | some a, some b => if a ≤ b then .error .valueError else checkOrder p rest
    | _, _ => .error .indexError

/-- `_set_portfolios`, L493-530: stores the reference to the list and the concatenated series. -/
def setPortfolios (h : List (List (Item D K))) (o : Mpp D K) (ref : ℕ) : Except Err (Mpp D K) :=
  match portfoliosOf (h.getD ref []) with
  | .error e => .error e
  | .ok [] => .ok { o with ref := ref, obs := [], rets := [] }
  | .ok (p :: ps) =>
    match (if o.check then checkOrder p ps else .ok ()) with
    | .error e => .error e
    | .ok () =>
      .ok { o with ref := ref, obs := ((p :: ps).map Ptf.obs).flatten, rets := ((p :: ps).map Ptf.rets).flatten }

/-- A Python index into a list of length `n`. -/
def pyIndex (n : ℕ) (key : ℤ) : Option ℕ :=
  let k := if key < 0 then key + n else key
  if 0 ≤ k ∧ k < n then some k.toNat else none

/-- The test at the start of `append`, L638-645, on the last item of the list. -/
def appendCheck (o : Mpp D K) (items : List (Item D K)) (item : Item D K) : Except Err Unit :=
  if o.check then
    match items.getLast? with
    | none => .ok ()
    | some last => match item, last with
      | .ptf p, .ptf q => match p.obs.head?, q.obs.getLast? with
        | some a, some b => if a < b then .error .valueError else .ok ()
        | _, _ => .error .indexError
      | _, _ => .error .attributeError
  else .ok ()

/-- What a program does.  `fresh items` arguments are list literals; `share r` passes a list the program already holds. -/
inductive ListArg (D K : Type) | fresh (items : List (Item D K)) | share (ref : ℕ)

/-- Operations of the program: construction L328-366, `append` L630-658, `__setitem__` L376-382, `__delitem__` L384-388,
the setter of `portfolios` L539-547, `copy` (`portfolio/_base.py` L553-564), and appending to a list directly. -/
inductive Op (D K : Type)
  | construct (arg : ListArg D K) (check : Bool)
  | append (i : ℕ) (item : Item D K)
  | setItem (i : ℕ) (key : ℤ) (item : Item D K)
  | delItem (i : ℕ) (key : ℤ)
  | setPortfolios (i : ℕ) (arg : ListArg D K)
  | copy (i : ℕ)
  | listAppend (ref : ℕ) (item : Item D K)

/-- Allocate a list literal. -/
def World.alloc (w : World D K) (items : List (Item D K)) : World D K := { w with heap := w.heap ++ [items] }

/-- Pass a list: the world after evaluating the argument, and the reference. -/
def World.eval (w : World D K) : ListArg D K → World D K × ℕ
  | .fresh items => (w.alloc items, w.heap.length)
  | .share ref => (w, ref)

/-- `_set_portfolios` on object `i` (`clear` does not matter here). -/
def World.assign (w : World D K) (i : ℕ) (o : Mpp D K) (ref : ℕ) : World D K × Option Err :=
  match setPortfolios w.heap o ref with
  | .error e => (w, some e)
  | .ok o' => ({ w with objs := w.objs.set i o' }, none)

/-- `append` on object `i`, L630-658: the list is extended in place before the attributes of the portfolio are read, so
that for an object that is not a portfolio the exception comes too late. -/
def World.append (w : World D K) (i : ℕ) (o : Mpp D K) (item : Item D K) : World D K × Option Err :=
  match appendCheck o (w.heap.getD o.ref []) item with
  | .error e => (w, some e)
  | .ok () =>
    let heap := w.heap.modify o.ref (· ++ [item])
    match item with
    | .other => ({ w with heap := heap }, some .attributeError)
    | .ptf p =>
      let o' := if o.obs.length = 0 then { o with obs := p.obs, rets := p.rets }
        else { o with obs := o.obs ++ p.obs, rets := o.rets ++ p.rets }
      ({ heap := heap, objs := w.objs.set i o' }, none)

/-- One operation; the second component is the exception raised, if any. -/
def step (w : World D K) : Op D K → World D K × Option Err
  | .construct arg check =>
    let (w1, ref) := w.eval arg
    match setPortfolios w1.heap { ref := ref, obs := [], rets := [], check := check } ref with
    | .error e => (w1, some e)
    | .ok o => ({ w1 with objs := w1.objs ++ [o] }, none)
  | .append i item => match w.objs[i]? with
    | none => (w, none)
    | some o => w.append i o item
  | .setItem i key item => match w.objs[i]? with
    | none => (w, none)
    | some o => match item with
      | .other => (w, some .typeError)
      | .ptf p =>
        let items := w.heap.getD o.ref []
        match pyIndex items.length key with
        | none => (w, some .indexError)
        | some k => (w.alloc (items.set k (.ptf p))).assign i o w.heap.length
  | .delItem i key => match w.objs[i]? with
    | none => (w, none)
    | some o =>
      let items := w.heap.getD o.ref []
      match pyIndex items.length key with
      | none => (w, some .indexError)
      | some k => (w.alloc (items.eraseIdx k)).assign i o w.heap.length
  | .setPortfolios i arg => match w.objs[i]? with
    | none => (w, none)
    | some o =>
      let (w1, ref) := w.eval arg
      w1.assign i o ref
  | .copy i => match w.objs[i]? with
    | none => (w, none)
    | some o => ({ w with objs := w.objs ++ [o] }, none)
  | .listAppend ref item => ({ w with heap := w.heap.modify ref (· ++ [item]) }, none)

/-- A history of operations from the empty world. -/
def run (ops : List (Op D K)) : World D K := ops.foldl (fun w op => (step w op).1) { heap := [], objs := [] }

end Skfolio.Portfolio.Multi
