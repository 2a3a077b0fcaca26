import Verif.Equations.Model

/-!
Independent specification of constraint strings: their syntax, their layout as text and their meaning. It uses from the model only the
type `Word`, the character class `isSpace`, the spelling of the operators and the exception type.
-/
set_option autoImplicit false

namespace Skfolio.Equations

/-- `+` or `-`. -/
inductive Sgn where
  | pos
  | neg

/-- The comparison operators. -/
inductive Cmp where
  | le
  | ge
  | eqeq
  | eq

/-- A term: a number, a name, `number * name` or `name * number`. -/
inductive Term where
  | num (s : Word)
  | name (g : Word)
  | mulL (s g : Word)
  | mulR (g s : Word)

/-- A side of a constraint: a term with an optional sign, followed by signed terms. -/
structure Side where
  sgn : Option Sgn
  first : Term
  rest : List (Sgn × Term)

/-- A constraint `lhs op rhs`. -/
structure Constraint where
  lhs : Side
  op : Cmp
  rhs : Side

/-! ### text -/

def Sgn.token : Sgn → Word
  | .pos => ['+']
  | .neg => ['-']

def Cmp.token : Cmp → Word
  | .le => ['<', '=']
  | .ge => ['>', '=']
  | .eqeq => ['=', '=']
  | .eq => ['=']

def Term.tokens : Term → List Word
  | .num s => [s]
  | .name g => [g]
  | .mulL s g => [s, ['*'], g]
  | .mulR g s => [g, ['*'], s]

def optSgnTokens : Option Sgn → List Word
  | none => []
  | some s => [s.token]

def Side.tokens (s : Side) : List Word :=
  optSgnTokens s.sgn ++ s.first.tokens ++ s.rest.flatMap fun p => p.1.token :: p.2.tokens

def Constraint.tokens (c : Constraint) : List Word := c.lhs.tokens ++ c.op.token :: c.rhs.tokens

/-- Number of terms of a constraint. -/
def Constraint.size (c : Constraint) : Nat := (c.lhs.rest.length + 1) + (c.rhs.rest.length + 1)

/-- The text `s` consists of the given tokens in order, with arbitrary white space before, between and after them. -/
inductive Layout : List Word → Word → Prop
  | nil (sp : Word) : (∀ c ∈ sp, isSpace c = true) → Layout [] sp
  | cons (sp t : Word) (ts : List Word) (s : Word) : (∀ c ∈ sp, isSpace c = true) → Layout ts s → Layout (t :: ts) (sp ++ (t ++ s))

/-- Characters that occur in operators. -/
def isOpChar (c : Char) : Bool := c == '>' || c == '<' || c == '=' || c == '-' || c == '+' || c == '*'

/-- A word that can be written as a name or a number: not empty, without operator characters, no space at either end. -/
structure Atom (w : Word) : Prop where
  ne : w ≠ []
  noOp : ∀ c ∈ w, isOpChar c = false
  head : ∀ c, w.head? = some c → isSpace c = false
  last : ∀ c, w.getLast? = some c → isSpace c = false

/-! ### meaning -/

section meaning
variable {K : Type} [Field K] [LinearOrder K] {n : Nat}

/-- Asset `j` belongs to `g` (is called `g` in one of the rows of `groups`). -/
def Belongs (G : List (Fin n → Word)) (g : Word) (j : Fin n) : Prop := ∃ row ∈ G, row j = g

instance (G : List (Fin n → Word)) (g : Word) (j : Fin n) : Decidable (Belongs G g j) := by unfold Belongs; infer_instance

/-- Value of a name: the sum of the weights of its assets (their average when `avg`, i.e. `sum_to_one`). -/
def groupVal (G : List (Fin n → Word)) (avg : Bool) (w : Fin n → K) (g : Word) : K :=
  (∑ j, if Belongs G g j then w j else 0) / (if avg then ((Finset.univ.filter fun j => Belongs G g j).card : K) else 1)

/-- Value of a number literal. -/
def numVal (num : Word → Option K) (s : Word) : K := (num s).getD 0

def Sgn.val : Sgn → K
  | .pos => 1
  | .neg => -1

def optSgnVal : Option Sgn → K
  | none => 1
  | some s => s.val

def Term.val (num : Word → Option K) (G : List (Fin n → Word)) (avg : Bool) (w : Fin n → K) : Term → K
  | .num s => numVal num s
  | .name g => groupVal G avg w g
  | .mulL s g => numVal num s * groupVal G avg w g
  | .mulR g s => groupVal G avg w g * numVal num s

def Side.val (num : Word → Option K) (G : List (Fin n → Word)) (avg : Bool) (w : Fin n → K) (s : Side) : K :=
  optSgnVal s.sgn * s.first.val num G avg w + (s.rest.map fun p => p.1.val * p.2.val num G avg w).sum

def Cmp.holds : Cmp → K → K → Prop
  | .le, a, b => a ≤ b
  | .ge, a, b => b ≤ a
  | .eqeq, a, b => a = b
  | .eq, a, b => a = b

def Cmp.isInequality : Cmp → Bool
  | .le => true
  | .ge => true
  | .eqeq => false
  | .eq => false

/-- The constraint holds for the weights `w`. -/
def Constraint.Holds (num : Word → Option K) (G : List (Fin n → Word)) (avg : Bool) (c : Constraint) (w : Fin n → K) : Prop :=
  c.op.holds (c.lhs.val num G avg w) (c.rhs.val num G avg w)

/-- A row `(a, b)` of the returned matrices, as a condition on the weights. -/
def RowHolds (isInequality : Bool) (a : Fin n → K) (b : K) (w : Fin n → K) : Prop :=
  if isInequality then ∑ j, a j * w j ≤ b else ∑ j, a j * w j = b

end meaning

/-! ### well-formedness -/

section wf
variable {K : Type} {n : Nat}

/-- `g` is the name of a group or an asset. -/
def IsName (G : List (Fin n → Word)) (g : Word) : Prop := ∃ row ∈ G, ∃ j, row j = g

/-- `s` is a number literal, and not at the same time the name of a group. -/
def IsNum (num : Word → Option K) (G : List (Fin n → Word)) (s : Word) : Prop := num s ≠ none ∧ ¬ IsName G s

def Term.WF (num : Word → Option K) (G : List (Fin n → Word)) : Term → Prop
  | .num s => IsNum num G s ∧ Atom s
  | .name g => IsName G g ∧ Atom g
  | .mulL s g => IsNum num G s ∧ Atom s ∧ IsName G g ∧ Atom g
  | .mulR g s => IsNum num G s ∧ Atom s ∧ IsName G g ∧ Atom g

def Side.WF (num : Word → Option K) (G : List (Fin n → Word)) (s : Side) : Prop :=
  s.first.WF num G ∧ ∀ p ∈ s.rest, p.2.WF num G

def Constraint.WF (num : Word → Option K) (G : List (Fin n → Word)) (c : Constraint) : Prop := c.lhs.WF num G ∧ c.rhs.WF num G

/-- The numbers of the term can be read and its names exist. -/
def Term.Known (num : Word → Option K) (G : List (Fin n → Word)) : Term → Prop
  | .num s => num s ≠ none
  | .name g => IsName G g
  | .mulL s g => num s ≠ none ∧ IsName G g
  | .mulR g s => num s ≠ none ∧ IsName G g

def Side.Known (num : Word → Option K) (G : List (Fin n → Word)) (s : Side) : Prop :=
  s.first.Known num G ∧ ∀ p ∈ s.rest, p.2.Known num G

end wf

/-- The text names an unknown group. -/
def groupError {α : Type} : Except Err α → Bool
  | .error .group => true
  | _ => false

end Skfolio.Equations
