import Verif.Vine.Model

/-! What the values in a vine mean, independently of left and right. -/
set_option autoImplicit false

namespace Skfolio.Vine

/-- The variables of a node: those of the assets below it. -/
def vars : Node → Finset ℕ
  | .root i => {i}
  | .edge l r => vars l ∪ vars r

/-- The only element of a set with one element. -/
def only (s : Finset ℕ) : ℕ := s.sup id

/-- The variable that the first node has and the second has not. -/
def ownVar (l r : Node) : ℕ := only (vars l \ vars r)

/-- The conditional distribution function, in a vine, of the variable `a` of a node given its other variables, at the point `x` of the unit cube. If the node is an edge between nodes with variables `D, a` and `D, b`, the copula of the
edge couples `F(a | D)` and `F(b | D)`, and its partial derivatives are `F(a | b, D)` and `F(b | a, D)`. -/
def condCdf {K : Type} (cop : Node → Cop K) (x : ℕ → K) : Node → ℕ → K
  | .root i, _ => x i
  | .edge l r, a => (cop (.edge l r)).partialDerivative (decide (a = ownVar r l)) (condCdf cop x l (ownVar l r), condCdf cop x r (ownVar r l))

/-- The nodes of a vine below a node, with the node itself. -/
inductive Below : Node → Node → Prop where
  | self (m : Node) : Below m m
  | left (m l r : Node) : Below m l → Below m (.edge l r)
  | right (m l r : Node) : Below m r → Below m (.edge l r)

/-- The point `x` with the variables `0, …, n - 1` is what sampling from a vine shall give: a conditioned variable has the value it is conditioned on, and the others are determined one after the other, each by its uniform number. `steps` lists the
variables that are not conditioned with a node each, in the order of the uniform numbers `rand`: the conditional distribution function of the variable, given the other variables of the node, takes the value of the uniform number, and those
other variables are conditioned or determined before. The nodes belong to the vine with the given last edges. -/
structure IsSample {K : Type} (cop : Node → Cop K) (edges : List Node) (n : ℕ) (cond : ℕ → Option K) (rand : List K) (x : ℕ → K) (steps : List (ℕ × Node)) : Prop where
  conditioned : ∀ i < n, ∀ t, cond i = some t → x i = t
  all : ∀ i, i ∈ steps.map Prod.fst ↔ i < n ∧ cond i = none
  once : (steps.map Prod.fst).Nodup
  length : steps.length = rand.length
  nodes : ∀ e ∈ steps, (∃ m ∈ edges, Below e.2 m) ∧ e.1 ∈ vars e.2
  known : ∀ pre e post, steps = pre ++ e :: post → ∀ i ∈ vars e.2, i ≠ e.1 → (cond i).isSome ∨ i ∈ pre.map Prod.fst
  uniform : steps.map (fun e => condCdf cop x e.2 e.1) = rand

end Skfolio.Vine
