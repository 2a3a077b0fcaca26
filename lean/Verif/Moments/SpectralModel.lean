import Verif.Moments.CorrModel
import Mathlib.Data.Fin.Tuple.Sort
import Mathlib.Analysis.Real.Pi.Bounds

/-
Model of `DenoiseCovariance` and `DetoneCovariance`, `src/skfolio/moments/covariance/_denoise_covariance.py` L107-182 and
`_detone_covariance.py` L107-159. `prior` is the covariance of the inner estimator. `eigh` is `np.linalg.eigh` (contract `Numerics`).

numpy gives NaN where Lean's division by zero gives 0. The models name these cases: `none` for the objective of the fit, the exception `nan`
for a correlation that cannot be normalised. (With `nearest=True` the NaN is refused by `cov_nearest`, with `nearest=False` it is stored.)
-/
set_option autoImplicit false

namespace Skfolio.Moments

open Matrix

variable {n : Nat}

inductive SpectralErr where
  /-- NaN, in the objective (refused by `KernelDensity.score_samples`) or in the correlation. -/
  | nan
  | moments (e : MomentErr)

/-- `indices = e_val.argsort()[::-1]`, denoise L148, detone L148 (`Tuple.sort` is a stable argsort; numpy's need not be stable). -/
noncomputable def argsortDesc (l : Fin n → ℝ) (k : Fin n) : Fin n := Tuple.sort l k.rev

/-- `e_val[indices], e_vec[:, indices]`, denoise L149, detone L149. -/
noncomputable def sortEigh (lv : (Fin n → ℝ) × Matrix (Fin n) (Fin n) ℝ) : (Fin n → ℝ) × Matrix (Fin n) (Fin n) ℝ :=
  (fun k => lv.1 (argsortDesc lv.1 k), fun i k => lv.2 i (argsortDesc lv.1 k))

/-- `e_vec @ np.diag(e_val) @ e_vec.T`. -/
noncomputable def recompose (l : Fin n → ℝ) (v : Matrix (Fin n) (Fin n) ℝ) : Matrix (Fin n) (Fin n) ℝ := v * diagonal l * vᵀ

/-- `cov_to_corr(corr)` followed by `corr_to_cov(corr, std)` and `_set_covariance`: denoise L179-181, detone L156-158. NaN if a diagonal
element is not positive. -/
noncomputable def finish (isPD : Matrix (Fin n) (Fin n) ℝ → Bool) (eigh : Matrix (Fin n) (Fin n) ℝ → (Fin n → ℝ) × Matrix (Fin n) (Fin n) ℝ)
    (nearest higham : Bool) (maxIter : Nat) (corr : Matrix (Fin n) (Fin n) ℝ) (std : Fin n → ℝ) :
    Except SpectralErr (Matrix (Fin n) (Fin n) ℝ) :=
  open Classical in
  if ∃ i, corr i i ≤ 0 then .error .nan
  else
    match setCovariance isPD eigh nearest higham maxIter (corrToCov (covToCorr corr).1 std) with
    | .error e => .error (.moments e)
    | .ok r => .ok r

/-! ### denoise -/

/-- `e_min`, L152-153. -/
noncomputable def eMin (q var : ℝ) : ℝ := var * (1 - Real.sqrt (1 / q)) ^ 2
/-- `e_max`, L152-154. -/
noncomputable def eMax (q var : ℝ) : ℝ := var * (1 + Real.sqrt (1 / q)) ^ 2

/-- `np.linspace(e_min, e_max, 1000)`, L156. -/
noncomputable def grid (q var : ℝ) (k : Fin 1000) : ℝ := eMin q var + (k : ℝ) * ((eMax q var - eMin q var) / 999)

/-- `pdf_0` at one point, L157-161: the Marchenko-Pastur density. `inf * 0` is NaN at 0. -/
noncomputable def pdf0 (q var x : ℝ) : Option ℝ :=
  open Classical in
  if x = 0 then none
  else some (q / (2 * Real.pi * var * x) * Real.sqrt ((eMax q var - x) * (x - eMin q var)))

/-- `_marchenko`, L151-167. `density` is the kernel density estimate of the eigenvalues; L166 evaluates it at the values `pdf_0`. NaN in
`pdf_0` raises. -/
noncomputable def marchenko (density : ℝ → ℝ) (q var : ℝ) : Option ℝ :=
  open Classical in
  if h : ∀ k, (pdf0 q var (grid q var k)).isSome then
    some (∑ k, (density ((pdf0 q var (grid q var k)).get (h k)) - (pdf0 q var (grid q var k)).get (h k)) ^ 2)
  else none

/-- `n_facts`, L173-175: `e_val[::-1]` is increasing, so `searchsorted` counts the elements below the threshold. -/
noncomputable def nFacts (l : Fin n → ℝ) (threshold : ℝ) : Nat :=
  open Classical in n - (Finset.univ.filter fun k => l k < threshold).card

/-- `e_val_`, L176-177: the eigenvalues from position `m` on are replaced by their mean. -/
noncomputable def averageTail (l : Fin n → ℝ) (m : Nat) (k : Fin n) : ℝ :=
  if (k : Nat) < m then l k else (∑ j : Fin n, if (j : Nat) < m then 0 else l j) / ((n : ℝ) - m)

/-- `DenoiseCovariance.fit`, L143-181. `T` is the number of observations, `kde` the kernel density estimate of a list of eigenvalues,
`minimize` the result of `sco.minimize` for an objective that is a number. -/
noncomputable def denoiseFit (isPD : Matrix (Fin n) (Fin n) ℝ → Bool) (eigh : Matrix (Fin n) (Fin n) ℝ → (Fin n → ℝ) × Matrix (Fin n) (Fin n) ℝ)
    (kde : (Fin n → ℝ) → ℝ → ℝ) (minimize : (ℝ → Option ℝ) → ℝ) (nearest higham : Bool) (maxIter : Nat) (T : Nat)
    (prior : Matrix (Fin n) (Fin n) ℝ) : Except SpectralErr (Matrix (Fin n) (Fin n) ℝ) :=
  let q : ℝ := (T : ℝ) / n
  let cs := covToCorr prior
  let lv := sortEigh (eigh cs.1)
  let objective := marchenko (kde lv.1) q
  if (objective (1 / 2)).isNone then .error .nan
  else
    let m := nFacts lv.1 (minimize objective * (1 + Real.sqrt (1 / q)) ^ 2)
    finish isPD eigh nearest higham maxIter (recompose (averageTail lv.1 m) lv.2) cs.2

/-! ### detone -/

/-- `corr - market_corr`, detone L151-155: `market_e_val` and `market_e_vec` are the first `m` of each. -/
noncomputable def detone (corr : Matrix (Fin n) (Fin n) ℝ) (lv : (Fin n → ℝ) × Matrix (Fin n) (Fin n) ℝ) (m : Nat) : Matrix (Fin n) (Fin n) ℝ :=
  fun i j => corr i j - ∑ k : Fin n, if (k : Nat) < m then lv.2 i k * lv.1 k * lv.2 j k else 0

/-- The length of `e_val[:n_markets]`: a negative number counts from the end. -/
def sliceEnd (n : Nat) (m : Int) : Nat := if 0 ≤ m then m.toNat else ((n : Int) + m).toNat

/-- `DetoneCovariance.fit`, L145-158. `n_markets` is not checked. -/
noncomputable def detoneFit (isPD : Matrix (Fin n) (Fin n) ℝ → Bool) (eigh : Matrix (Fin n) (Fin n) ℝ → (Fin n → ℝ) × Matrix (Fin n) (Fin n) ℝ)
    (nearest higham : Bool) (maxIter : Nat) (nMarkets : Int) (prior : Matrix (Fin n) (Fin n) ℝ) : Except SpectralErr (Matrix (Fin n) (Fin n) ℝ) :=
  let cs := covToCorr prior
  finish isPD eigh nearest higham maxIter (detone cs.1 (sortEigh (eigh cs.1)) (sliceEnd n nMarkets)) cs.2

end Skfolio.Moments
