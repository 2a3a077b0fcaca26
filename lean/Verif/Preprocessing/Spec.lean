import Verif.Preprocessing.Model
import Mathlib.Algebra.BigOperators.Fin
import Mathlib.Analysis.SpecialFunctions.Log.Basic

/-! Specification for C33. -/
set_option autoImplicit false

namespace Skfolio.Preprocessing

section
variable {ι K : Type} [Field K] {c : Nat}

/-- A table of prices without missing values: labels and prices. -/
def table {n : Nat} (label : Fin n → ι) (price : Fin n → Fin c → K) : List (Row ι K c) := List.ofFn fun t => (label t, fun a => some (price t a))

/-- The last price of asset `a` known at time `t`: the price at the latest time not after `t` at which there is one. -/
def LastKnown (rows : List (Row ι K c)) (a : Fin c) (t : Nat) (p : K) : Prop :=
  ∃ u r, u ≤ t ∧ rows[u]? = some r ∧ r.2 a = some p ∧ ∀ v r', u < v → v ≤ t → rows[v]? = some r' → r'.2 a = none

/-- Asset `a` has no price up to and including time `t`. -/
def NotYetListed (rows : List (Row ι K c)) (a : Fin c) (t : Nat) : Prop := ∀ u r, u ≤ t → rows[u]? = some r → r.2 a = none

end

end Skfolio.Preprocessing
