import Verif.Copula.KendallSpec
import Verif.Copula.RotationModel
import Mathlib.Data.Real.Sqrt
import Mathlib.Algebra.BigOperators.Fin

/-! Kendall's tau of a sample, and what the fit of a copula should give, independently of the code. -/
set_option autoImplicit false

namespace Skfolio.Copula

/-- The pairs of places of a sample, each once. -/
def places (n : ℕ) : Finset (Fin n × Fin n) := Finset.univ.filter fun p => p.1 < p.2

open Classical in
/-- The number of pairs of observations with a property. -/
noncomputable def countPairs (X : List (ℝ × ℝ)) (P : ℝ × ℝ → ℝ × ℝ → Prop) : ℕ := ((places X.length).filter fun p => P X[p.1] X[p.2]).card

/-- Both coordinates change in the same direction, in opposite directions. -/
def Concordant (a b : ℝ × ℝ) : Prop := a.1 < b.1 ∧ a.2 < b.2 ∨ b.1 < a.1 ∧ b.2 < a.2
def Discordant (a b : ℝ × ℝ) : Prop := a.1 < b.1 ∧ b.2 < a.2 ∨ b.1 < a.1 ∧ a.2 < b.2

/-- `t` is Kendall's tau of the sample, with the correction for ties. -/
def IsSampleTau (X : List (ℝ × ℝ)) (t : ℝ) : Prop :=
  (∃ a ∈ X, ∃ b ∈ X, a.1 ≠ b.1) ∧ (∃ a ∈ X, ∃ b ∈ X, a.2 ≠ b.2) ∧
  t = (countPairs X Concordant - countPairs X Discordant) / Real.sqrt (countPairs X (fun a b => a.1 ≠ b.1) * countPairs X (fun a b => a.2 ≠ b.2))

/-- The quarter turns exchange concordance and discordance. -/
def Rotation.sign : Rotation → ℝ
  | .r0 | .r180 => 1
  | .r90 | .r270 => -1

end Skfolio.Copula
