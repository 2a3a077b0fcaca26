import Verif.Convex.RiskModel
import Mathlib.Logic.Equiv.Fin.Basic
import Mathlib.Analysis.Real.Sqrt

/-!
Model of the uncertainty sets and of the worst-case variance.

* `_worst_case_variance_risk`, `src/skfolio/optimization/convex/_base.py` L1650-1697.
* `EmpiricalMuUncertaintySet.fit` and `EmpiricalCovarianceUncertaintySet.fit`, `src/skfolio/uncertainty_set/_empirical.py` L92-137, L207-259.
* `commutation_matrix`, `src/skfolio/utils/stats.py` L403-421.
* The shapes of `BootstrapMuUncertaintySet.fit` and `BootstrapCovarianceUncertaintySet.fit`, `_bootstrap.py` L151-158, L290-300; `stationary_bootstrap` is in Verif/Selection/Model.lean.

Not modelled: the quantile of the chi-squared distribution (an input), `scipy.linalg.sqrtm` (a contract).
-/
set_option autoImplicit false

namespace Skfolio.Uncertainty

open Skfolio.Convex

section
variable {n T : Nat}

/-- `cp.vec(x, order="F")` and `reshape(.., order="F")`: position `i + n * j` holds the entry `(i, j)`. -/
def vecF {K : Type} (X : Fin n → Fin n → K) : Fin (n * n) → K := fun p => X p.modNat p.divNat

/-- `cp.hstack([z1, z2])`, L1683-1685: the matrix with the blocks `x`, `w`, `w.T`, `factor`. -/
def block (X : Fin n → Fin n → ℝ) (w : Fin n → ℝ) (k : ℝ) : Fin n ⊕ Unit → Fin n ⊕ Unit → ℝ
  | .inl i, .inl j => X i j
  | .inl i, .inr _ => w i
  | .inr _, .inl j => w j
  | .inr _, .inr _ => k

/-- The constraint `M >> 0`: the quadratic form is nonnegative. -/
def semidefinite {ι : Type} [Fintype ι] (M : ι → ι → ℝ) : Prop := ∀ z : ι → ℝ, 0 ≤ ∑ a, ∑ b, z a * M a b * z b

/-- `_worst_case_variance_risk`, L1678-1697; `R` is `sqrtm(covariance_uncertainty_set.sigma)`. -/
noncomputable def worstCaseVarianceRisk (cov : Fin n → Fin n → ℝ) (kappa : ℝ) (R : Fin (n * n) → Fin (n * n) → ℝ) (w : Fin n → ℝ) (k s : ℝ) : Program ℝ where
  Aux := (Fin n → Fin n → ℝ) × (Fin n → Fin n → ℝ)
  feasible := fun a => (∀ i j, a.1 i j = a.1 j i) ∧ (∀ i j, a.2 i j = a.2 j i) ∧ semidefinite (fun x y => block a.1 w k x y * s) ∧ semidefinite fun i j => a.2 i j * s
  risk := fun a => kappa * Real.sqrt (∑ p, (∑ q, R p q * (vecF a.1 q + vecF a.2 q)) ^ 2) + ∑ i, ∑ j, cov i j * (a.1 j i + a.2 j i)

/-! ### Shapes -/

section
variable {F : Type} [Field F]

/-- `np.diag(np.diag(x))`. -/
def onlyDiagonal {ι : Type} [DecidableEq ι] (x : ι → ι → F) : ι → ι → F := fun i j => if i = j then x i i else 0

/-- `EmpiricalMuUncertaintySet.fit`, _empirical.py L128-137. -/
def empiricalMuShape (cov : Fin n → Fin n → F) (observations : Nat) (diagonal : Bool) : Fin n → Fin n → F :=
  let sigma := fun i j => cov i j / (observations : F)
  if diagonal then onlyDiagonal sigma else sigma

/-- `commutation_matrix`, stats.py L415-421, for a matrix of shape `(m, n)`: row `p` has a 1 in the column at position `p` of `row.reshape((m, n), order="F").ravel()`; position `p` of `ravel` is the entry `(p / n, p % n)`, which in column order is the number `p / n + m * (p % n)`. -/
def commutation (m n : Nat) : Fin (m * n) → Fin (m * n) → F := fun p q => if q.val = p.val / n + m * (p.val % n) then 1 else 0

/-- `np.kron(x, x)`: rows and columns are numbered `n * a + b`. -/
def kron (x : Fin n → Fin n → F) : Fin (n * n) → Fin (n * n) → F := fun p q => x p.divNat q.divNat * x p.modNat q.modNat

/-- `EmpiricalCovarianceUncertaintySet.fit`, _empirical.py L243-256. -/
def empiricalCovShape (cov : Fin n → Fin n → F) (observations : Nat) (diagonal : Bool) : Fin (n * n) → Fin (n * n) → F :=
  let sigma := empiricalMuShape cov observations diagonal
  onlyDiagonal fun p q => ∑ r, (observations : F) * ((if p = r then 1 else 0) + commutation n n p r) * kron sigma r q

/-- `np.cov(x.T)`: rows of `x` are the samples. -/
def npCov {ι : Type} {B : Nat} (x : Fin B → ι → F) : ι → ι → F := fun p q =>
  (∑ b, (x b p - (∑ c, x c p) / (B : F)) * (x b q - (∑ c, x c q) / (B : F))) / ((B : F) - 1)

/-- The shape of `BootstrapMuUncertaintySet.fit`, _bootstrap.py L150-158. -/
def bootstrapMuShape {B : Nat} (mus : Fin B → Fin n → F) (mu : Fin n → F) (diagonal : Bool) : Fin n → Fin n → F :=
  let sigma := npCov fun b i => mus b i - mu i
  if diagonal then onlyDiagonal sigma else sigma

/-- The shape of `BootstrapCovarianceUncertaintySet.fit`, _bootstrap.py L290-300. -/
def bootstrapCovShape {B : Nat} (covs : Fin B → Fin n → Fin n → F) (covariance : Fin n → Fin n → F) (diagonal : Bool) : Fin (n * n) → Fin (n * n) → F :=
  let sigma := npCov fun b => vecF fun i j => covs b i j - covariance i j
  if diagonal then onlyDiagonal sigma else sigma

end

end

end Skfolio.Uncertainty
