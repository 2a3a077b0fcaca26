import Mathlib.Algebra.Order.Field.Basic
import Mathlib.Algebra.BigOperators.Group.Finset.Basic
import Mathlib.Data.Fintype.BigOperators

/-
Model of `src/skfolio/utils/equations.py`: the parser of linear constraint strings.

Strings are lists of characters. `groups` is a list of rows, each assigning a name to each of the `n` assets (numpy guarantees
that the 2D array is rectangular). `num` stands for Python's `float(...)` on strings: `none` is the `ValueError`. It is a
parameter, so that the theorems hold for any number syntax.
-/
set_option autoImplicit false

namespace Skfolio.Equations

abbrev Word := List Char

/-- Exceptions. `equation` = `EquationToMatrixError`, `group` = `GroupNotFoundError`, `duplicate` = `DuplicateGroupsError`,
`type` = `TypeError`, `recursion` = `RecursionError`. The first three are unrelated subclasses of `Exception` (exceptions.py). -/
inductive Err where
  | equation
  | group
  | duplicate
  | type
  | recursion
  deriving DecidableEq, Repr

/-! ### operators, equations.py L21-29 -/

def ge : Word := ['>', '=']
def le : Word := ['<', '=']
def eqeq : Word := ['=', '=']
def eq1 : Word := ['=']
def minus : Word := ['-']
def plus : Word := ['+']
def times : Word := ['*']

/-- `_EQUALITY_OPERATORS`, L21. -/
def equalityOps : List Word := [eqeq, eq1]
/-- `_INEQUALITY_OPERATORS`, L22. -/
def inequalityOps : List Word := [ge, le]
/-- `_COMPARISON_OPERATORS`, L23. -/
def comparisonOps : List Word := equalityOps ++ inequalityOps
/-- `_SUB_ADD_OPERATORS`, L24. -/
def subAddOps : List Word := [minus, plus]
/-- `_MUL_OPERATORS`, L25. -/
def mulOps : List Word := [times]
/-- `_NON_MUL_OPERATORS`, L26. -/
def nonMulOps : List Word := comparisonOps ++ subAddOps
/-- `_OPERATORS`, L27. -/
def operators : List Word := nonMulOps ++ mulOps

/-! ### tokenizer, `_split_equation_string` L347-371 -/

/-- Characters removed by `str.strip()`. Only the ASCII ones are modelled; other Unicode spaces count as ordinary characters. -/
def isSpace (c : Char) : Bool := c == ' ' || c == '\t' || c == '\n' || c == '\r' || c == '\x0b' || c == '\x0c'

/-- `str.strip()`. -/
def strip (w : Word) : Word := ((w.dropWhile isSpace).reverse.dropWhile isSpace).reverse

/-- `re.match("(?=.+\>=|.+\<=|.+\==|.+\=)", string)`, L349-350. Every comparison operator contains a `=`, so the pattern matches
iff a `=` occurs at a position other than 0 with no newline before it. `started` says that a character has been read. -/
def hasComparison : (started : Bool) → Word → Bool
  | _, [] => false
  | started, c :: r => (started && c == '=') || (c != '\n' && hasComparison true r)

/-- `re.findall(r"(?<!<)(?<!<=)>(?!=)|(?<!>)<(?!=)", string)` is not empty, L357-358. `p2 p1` are the two preceding characters. -/
def hasInvalid : (p2 p1 : Option Char) → Word → Bool
  | _, _, [] => false
  | p2, p1, c :: r =>
    (c == '>' && p1 != some '<' && !(p2 == some '<' && p1 == some '=') && r.head? != some '=') ||
    (c == '<' && p1 != some '>' && r.head? != some '=') || hasInvalid p1 (some c) r

/-- `re.split(pattern, string)` with the operators as separators that are kept, L366-369; the alternatives are tried in the order
`>=`, `==`, `=`, `<=`, `-`, `+`, `*`. `acc` is the text since the last operator. -/
def splitOps : Word → (acc : Word) → List Word
  | '>' :: '=' :: r, acc => acc :: ge :: splitOps r []
  | '=' :: '=' :: r, acc => acc :: eqeq :: splitOps r []
  | '=' :: r, acc => acc :: eq1 :: splitOps r []
  | '<' :: '=' :: r, acc => acc :: le :: splitOps r []
  | '-' :: r, acc => acc :: minus :: splitOps r []
  | '+' :: r, acc => acc :: plus :: splitOps r []
  | '*' :: r, acc => acc :: times :: splitOps r []
  | c :: r, acc => splitOps r (acc ++ [c])
  | [], acc => [acc]

/-- L369-370: strip the pieces and drop the empty ones. -/
def clean (l : List Word) : List Word := (l.map strip).filter fun x => decide (x ≠ [])

/-- `_split_equation_string`, L347-371. -/
def splitEquationString (s : Word) : Except Err (List Word) :=
  if hasComparison false s = false then .error .equation
  else if hasInvalid none none s then .error .equation
  else .ok (clean (splitOps s []))

/-! ### parser, `_string_to_equation` L374-499 -/

section parser
variable {K : Type} [Field K] {n : Nat}

/-- `is_group`, L405-408: membership in `set(groups.flatten())`. -/
def isGroup (G : List (Fin n → Word)) (key : Word) : Bool := G.any fun row => decide (∃ j, row j = key)

/-- Number of assets whose column contains `key`: `np.sum(np.any(values == key, axis=0))`, L273-277. -/
def groupCount (G : List (Fin n → Word)) (key : Word) : Nat :=
  (Finset.univ.filter fun j : Fin n => ∃ row ∈ G, row j = key).card

/-- `_matching_array`, L253-282. -/
def matchingArray (G : List (Fin n → Word)) (key : Word) (sumToOne : Bool) : Except Err (Fin n → K) :=
  if ∃ j : Fin n, ∃ row ∈ G, row j = key then
    let s : K := if sumToOne then (groupCount G key : K) else 1
    .ok fun j => (if ∃ row ∈ G, row j = key then 1 else 0) / s
  else .error .equation

/-- The local variables `left`, `right`, `main_sign`, `comparison_sign`, `is_inequality`, L410-414. -/
structure St (K : Type) (n : Nat) where
  left : Fin n → K
  right : K
  mainSign : K
  comparisonSign : Option K
  isInequality : Option Bool

/-- L410-414. -/
def St.init : St K n := ⟨fun _ => 0, 0, 1, none, none⟩

/-- `left += c * arr`. -/
def St.addLeft (st : St K n) (c : K) (arr : Fin n → K) : St K n := { st with left := fun j => st.left j + c * arr j }

/-- `right += c`. -/
def St.addRight (st : St K n) (c : K) : St K n := { st with right := st.right + c }

/-- `_SUB_ADD_OPERATOR_SIGNS`, L29 and `_sub_add_operator_sign`. -/
def subAddSign (e : Word) : K := if e = minus then -1 else 1

/-- `_COMPARISON_OPERATOR_SIGNS`, L28 and `_comparison_operator_sign`. -/
def comparisonSignOf (e : Word) : K := if e = ge then -1 else 1

/-- The part of an iteration that reads the optional sign after a comparison operator, L432-434, or the sign itself,
L435-437: it returns the sign and the remaining tokens. -/
def readSign (ts : List Word) : K × List Word :=
  match ts with
  | e :: r => if e ∈ subAddOps then (subAddSign e, r) else (1, e :: r)
  | [] => (1, [])

/-- The beginning of an iteration, L422-442: `sign`, the new state and the remaining tokens. -/
def readHead (st : St K n) (ts : List Word) : Except Err (K × St K n × List Word) :=
  match ts with
  | [] => .ok (1, st, [])                                       -- not reached: the loop stops before (L420-421)
  | e :: r =>
    if e ∈ comparisonOps then
      let st := { st with isInequality := some (decide (e ∈ inequalityOps)), mainSign := -1,
                          comparisonSign := some (comparisonSignOf e) }
      .ok ((readSign (K := K) r).1, st, (readSign (K := K) r).2)
    else if e ∈ subAddOps then .ok (subAddSign e, st, r)
    else if e ∈ mulOps then .error .equation
    else .ok (1, st, e :: r)

/-- The rest of an iteration, L443-494: a number, a group or a product. `sign` already includes `main_sign`. -/
def readTerm (num : Word → Option K) (G : List (Fin n → Word)) (sumToOne : Bool) (sign : K) (st : St K n) (ts : List Word) :
    Except Err (St K n × List Word) :=
  match ts with
  | [] => .error .equation                                      -- L444: e is None
  | e :: r =>
    if e ∈ operators then .error .equation                      -- L444
    else if isGroup G e then
      match matchingArray G e sumToOne with
      | .error err => .error err
      | .ok arr =>
        match r with
        | [] => .ok (st.addLeft sign arr, [])                   -- L452-453
        | e2 :: r2 =>
          if e2 ∈ nonMulOps then .ok (st.addLeft sign arr, e2 :: r2)
          else if e2 ∈ mulOps then
            match r2 with
            | [] => .error .type                                -- float(None)
            | e3 :: r3 =>
              match num e3 with
              | none => .error .group                           -- L459-463
              | some x => .ok (st.addLeft (x * sign) arr, r3)   -- L465-466
          else .error .equation                                 -- L468-470
    else
      match num e with
      | none => .error .group                                   -- L474-477
      | some x =>
        match r with
        | [] => .ok (st.addRight (x * sign), [])                -- L489-490
        | e2 :: r2 =>
          if e2 ∈ mulOps then
            match r2 with
            | [] => .error .equation                            -- is_group(None) is False
            | e3 :: r3 =>
              if isGroup G e3 then
                match matchingArray G e3 sumToOne with
                | .error err => .error err
                | .ok arr => .ok (st.addLeft (x * sign) arr, r3)  -- L486-488
              else .error .equation                             -- L482-485
          else if e2 ∈ nonMulOps then .ok (st.addRight (x * sign), e2 :: r2)
          else .error .equation

/-- The `while True` loop, L416-494. The code itself bounds the number of iterations by `1e6` (L418-419): `fuel` is the number of
iterations left. -/
def run (num : Word → Option K) (G : List (Fin n → Word)) (sumToOne : Bool) : (fuel : Nat) → St K n → List Word → Except Err (St K n)
  | 0, _, _ => .error .recursion
  | fuel + 1, st, ts =>
    if ts = [] then .ok st
    else
      match readHead st ts with
      | .error err => .error err
      | .ok (sign, st, ts) =>
        match readTerm num G sumToOne (sign * st.mainSign) st ts with
        | .error err => .error err
        | .ok (st, ts) => run num G sumToOne fuel st ts

/-- `_string_to_equation`, L374-499: `(left, right, is_inequality)`. `left *= None` is a `TypeError`. -/
def stringToEquation (num : Word → Option K) (G : List (Fin n → Word)) (sumToOne : Bool) (s : Word) :
    Except Err ((Fin n → K) × K × Bool) :=
  match splitEquationString s with
  | .error err => .error err
  | .ok ts =>
    match run num G sumToOne 1000000 St.init ts with
    | .error err => .error err
    | .ok st =>
      match st.comparisonSign, st.isInequality with
      | some c, some q => .ok (fun j => st.left j * c, st.right * -c, q)      -- L496-499
      | _, _ => .error .type

/-- `_validate_groups`, L195-226: no name may appear in two rows. -/
def validGroups (G : List (Fin n → Word)) : Prop := G.Pairwise fun r r' => ∀ i j, r i ≠ r' j

/-- Result of `equations_to_matrix`: the rows of the equalities and of the inequalities, and the strings for which a warning was
issued. -/
structure Matrices (K : Type) (n : Nat) where
  eqRows : List ((Fin n → K) × K)
  ineqRows : List ((Fin n → K) × K)
  warned : List Word

/-- Body of the loop of `equations_to_matrix`, L109-127. -/
def step (num : Word → Option K) (G : List (Fin n → Word)) (sumToOne raiseIfMissing : Bool) (m : Matrices K n) (s : Word) :
    Except Err (Matrices K n) :=
  match stringToEquation num G sumToOne s with
  | .ok (left, right, true) => .ok { m with ineqRows := m.ineqRows ++ [(left, right)] }
  | .ok (left, right, false) => .ok { m with eqRows := m.eqRows ++ [(left, right)] }
  | .error .group => if raiseIfMissing then .error .group else .ok { m with warned := m.warned ++ [s] }
  | .error err => .error err

/-- `equations_to_matrix`, L32-134 (the dimension checks of numpy arrays are not modelled). -/
def equationsToMatrix [DecidablePred (validGroups (n := n))] (num : Word → Option K) (G : List (Fin n → Word))
    (equations : List Word) (sumToOne raiseIfMissing : Bool) : Except Err (Matrices K n) :=
  if validGroups G then equations.foldlM (step num G sumToOne raiseIfMissing) ⟨[], [], []⟩
  else .error .duplicate

/-- Body of the loop of `group_cardinalities_to_matrix`, L177-187: `_matching_array` raises `EquationToMatrixError`, which the
`except GroupNotFoundError` does not catch. -/
def cardStep (G : List (Fin n → Word)) (raiseIfMissing : Bool) (m : List ((Fin n → K) × Nat) × List Word) (gc : Word × Nat) :
    Except Err (List ((Fin n → K) × Nat) × List Word) :=
  match matchingArray G gc.1 false with
  | .ok arr => .ok (m.1 ++ [(arr, gc.2)], m.2)
  | .error .group => if raiseIfMissing then .error .group else .ok (m.1, m.2 ++ [gc.1])
  | .error err => .error err

/-- `group_cardinalities_to_matrix`, L137-192. The dictionary is the list of its items. The rows and the warnings. -/
def groupCardinalitiesToMatrix [DecidablePred (validGroups (n := n))] (G : List (Fin n → Word)) (cards : List (Word × Nat))
    (raiseIfMissing : Bool) : Except Err (List ((Fin n → K) × Nat) × List Word) :=
  if validGroups G then cards.foldlM (cardStep G raiseIfMissing) ([], [])
  else .error .duplicate

end parser

instance {n : Nat} : DecidablePred (validGroups (n := n)) := fun G => by unfold validGroups; infer_instance

end Skfolio.Equations
