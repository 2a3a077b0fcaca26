import Mathlib.LinearAlgebra.Matrix.NonsingularInverse
import Mathlib.Algebra.Order.Field.Basic
import Mathlib.Data.Finset.Lattice.Fold

/-! Model of `ShrunkMu.fit`, `src/skfolio/moments/expected_returns/_shrunk_mu.py` L193-243, and of `EquilibriumMu.fit`. -/
set_option autoImplicit false

namespace Skfolio.Moments

open Matrix

variable {K : Type} [Field K] [LinearOrder K] {n T : Nat}

inductive ShrunkMethod where
  | jamesStein
  | bayesStein
  | bodnarOkhrin

structure ShrunkFit (K : Type) (n : Nat) where
  mu : Fin n → K
  target : Fin n → K
  alpha : K
  beta : K

/-- `np.mean(X, axis=0)`. -/
def sampleMu (x : Fin T → Fin n → K) (i : Fin n) : K := (∑ t, x t i) / T

/-- `np.linalg.inv`; `none` is `LinAlgError`. -/
noncomputable def inv? (c : Matrix (Fin n) (Fin n) K) : Option (Matrix (Fin n) (Fin n) K) := if c.det = 0 then none else some c⁻¹

/-- The shrinkage target, L204-212; `none` is `LinAlgError`. -/
noncomputable def shrunkTarget (volWeighted : Bool) (mu : Fin (n + 1) → K) (cov : Matrix (Fin (n + 1)) (Fin (n + 1)) K) : Option (Fin (n + 1) → K) :=
  if volWeighted then (inv? cov).map fun inv _ => (∑ i, (∑ j, inv i j) * mu i) / (∑ i, ∑ j, inv i j)
  else some fun _ => (∑ i, mu i) / (n + 1 : Nat)

/-- The coefficients `alpha_` and `beta_`, L214-242, given the eigenvalues of the covariance (`np.linalg.eigvals`). -/
noncomputable def shrunkCoefficients (method : ShrunkMethod) (T : Nat) (mu target : Fin (n + 1) → K) (cov : Matrix (Fin (n + 1)) (Fin (n + 1)) K) (eigs : Fin (n + 1) → K) : Option (K × K) :=
  let diff := mu - target
  match method with
  | .jamesStein =>
    let beta := (∑ i, eigs i - 2 * Finset.univ.sup' ⟨0, Finset.mem_univ 0⟩ eigs) / (∑ i, diff i ^ 2) / T
    some (1 - beta, beta)
  | .bayesStein => (inv? cov).map fun inv =>
    let beta : K := ((n + 1 : Nat) + 2) / (T * (diff ⬝ᵥ inv *ᵥ diff) + ((n + 1 : Nat) + 2))
    (1 - beta, beta)
  | .bodnarOkhrin => (inv? cov).map fun inv =>
    let u := mu ⬝ᵥ inv *ᵥ mu
    let v := mu ⬝ᵥ inv *ᵥ target
    let w := target ⬝ᵥ inv *ᵥ target
    let alpha : K := ((u - (n + 1 : Nat) / (T - (n + 1 : Nat))) * w - v ^ 2) / (u * w - v ^ 2)
    (alpha, (1 - alpha) * v / u)

/-- `fit` for `n + 1` assets and `T` observations. The covariance estimator is a parameter: `cov` is its estimate. -/
noncomputable def shrunkMu (method : ShrunkMethod) (volWeighted : Bool) (x : Fin T → Fin (n + 1) → K) (cov : Matrix (Fin (n + 1)) (Fin (n + 1)) K) (eigs : Fin (n + 1) → K) : Option (ShrunkFit K (n + 1)) :=
  (shrunkTarget volWeighted (sampleMu x) cov).bind fun target =>
    (shrunkCoefficients method T (sampleMu x) target cov eigs).map fun c =>
      ⟨fun i => c.1 * sampleMu x i + c.2 * target i, target, c.1, c.2⟩

/-- `EquilibriumMu.fit`, `src/skfolio/moments/expected_returns/_equilibrium_mu.py` L117-134. -/
def equilibriumMu (riskAversion : K) (weights : Option (Fin n → K)) (cov : Matrix (Fin n) (Fin n) K) : Fin n → K :=
  (riskAversion • cov) *ᵥ (match weights with
    | none => fun _ => 1 / n
    | some w => w)

end Skfolio.Moments
