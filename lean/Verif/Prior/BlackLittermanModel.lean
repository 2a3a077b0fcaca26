import Mathlib.LinearAlgebra.Matrix.NonsingularInverse
import Mathlib.Algebra.Order.Field.Basic

/-!
Model of the computation of `BlackLitterman.fit`, `src/skfolio/prior/_black_litterman.py` L225-266, from the prior moments, the picking matrix and the views.
The parsing of views is that of C09-C11. Numbers are those of a linearly ordered field.
-/
set_option autoImplicit false

namespace Skfolio.Prior

open Matrix

section
variable {K : Type} [Field K] [LinearOrder K] {n m : Nat}

inductive BLErr where
  /-- "all values of view_confidences must be between 0 and 1" -/
  | confidences
  /-- `LinAlgError` of `np.linalg.solve` -/
  | singular

/-- The inputs. -/
structure BL (K : Type) (n m : Nat) where
  mu : Fin n → K
  covariance : Matrix (Fin n) (Fin n) K
  picking : Matrix (Fin m) (Fin n) K
  views : Fin m → K
  tau : K
  riskFreeRate : K
  confidences : Option (Fin m → K)

/-- L242: `view_confidences[view_confidences == 0] = 1e-16`. -/
def effectiveConfidence (c : K) : K := if c = 0 then 1 / 10 ^ 16 else c

/-- `omega`, L225-253. `np.diag(np.diag(M))` keeps the diagonal. -/
def omega (b : BL K n m) : Except BLErr (Matrix (Fin m) (Fin m) K) :=
  match b.confidences with
  | none => .ok (diagonal fun i => ((b.tau • b.picking) * b.covariance * b.pickingᵀ) i i)
  | some c =>
    if (∃ i, c i < 0) ∨ ∃ i, c i > 1 then .error .confidences
    else .ok (diagonal fun i => (of (fun i j => b.tau * (1 / effectiveConfidence (c i) - 1) * b.picking i j) * b.covariance * b.pickingᵀ) i i)

/-- `np.linalg.solve(a, b)`: the unique solution, or `LinAlgError` if `a` is singular. -/
noncomputable def solve {k : Type} (a : Matrix (Fin m) (Fin m) K) (b : Matrix (Fin m) k K) : Except BLErr (Matrix (Fin m) k K) :=
  if a.det = 0 then .error .singular else .ok (a⁻¹ * b)

/-- `_v`, L256. -/
def vMat (b : BL K n m) : Matrix (Fin n) (Fin m) K := (b.tau • b.covariance) * b.pickingᵀ

/-- `_a`, L257. -/
def aMat (b : BL K n m) (om : Matrix (Fin m) (Fin m) K) : Matrix (Fin m) (Fin m) K := b.picking * vMat b + om

/-- `_b`, L258, as a column. -/
def bVec (b : BL K n m) : Matrix (Fin m) Unit K := fun i _ => b.views i - (b.picking *ᵥ b.mu) i

/-- L255-264: posterior mean and covariance. -/
noncomputable def posterior (b : BL K n m) : Except BLErr ((Fin n → K) × Matrix (Fin n) (Fin n) K) := do
  let om ← omega b
  let x ← solve (aMat b om) (bVec b)
  let y ← solve (aMat b om) (vMat b)ᵀ
  return (fun i => b.mu i + (vMat b * x) i () + b.riskFreeRate, b.covariance + b.tau • b.covariance - vMat b * y)

/-- What `fit` leaves in the parameter `view_confidences` when it is an array of floats: `np.asarray` does not copy, L237-242. -/
def confidencesAfterFit (b : BL K n m) : Option (Fin m → K) := b.confidences.map fun c i => effectiveConfidence (c i)

end

end Skfolio.Prior
