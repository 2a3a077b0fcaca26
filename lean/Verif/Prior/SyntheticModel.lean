import Verif.Moments.WindowModel

/-!
Model of `SyntheticData.fit` and `_check_sample_method`, `src/skfolio/prior/_synthetic_data.py` L144-239. The routing of metadata is in
`Verif.Routing` (C91); real arithmetic.
-/
set_option autoImplicit false

namespace Skfolio.Prior

open Matrix Skfolio.Moments

variable {n : Nat}

inductive SyntheticErr where
  /-- "The distribution_estimator must implement a `sample` method" -/
  | noSample
  /-- "The `sample` method must have `n_samples` as parameter" -/
  | noSampleSize
  /-- an exception of the distribution estimator -/
  | distribution
  /-- no observations -/
  | empty
  | moment (e : WindowErr)

/-- A distribution estimator. `sampleParameters` are the names in the signature of its `sample` method (`none`: there is no such callable); `fitSample x size` fits it
to `x` and samples with `n_samples=size` and the given `sample_args`, which are part of it, as is its random state. -/
structure Distribution (n : Nat) where
  sampleParameters : Option (List String)
  fitSample : List (Fin n → ℝ) → Nat → Option (List (Fin n → ℝ))

/-- `_check_sample_method`, L208-239. -/
def checkSampleMethod (d : Distribution n) : Except SyntheticErr Unit :=
  match d.sampleParameters with
  | none => .error .noSample
  | some ps => if "n_samples" ∈ ps then .ok () else .error .noSampleSize

/-- `np.var(synthetic_data, axis=0)`, L192. -/
noncomputable def colVar (rows : List (Fin n → ℝ)) (i : Fin n) : ℝ := (rows.map fun r => (r i - colMean rows i) ^ 2).sum / rows.length

/-- L190-195. `noise t` is the `t`-th element of `np.random.randn(len(synthetic_data), 1)`, one column that is broadcast over the constant ones. -/
noncomputable def addNoise (noise : Nat → ℝ) (rows : List (Fin n → ℝ)) : List (Fin n → ℝ) :=
  open Classical in
  if ∃ i, colVar rows i < 1 / 10 ^ 14 then
    rows.mapIdx fun t r i => if colVar rows i < 1 / 10 ^ 14 then r i + 1 / 10 ^ 6 * noise t else r i
  else rows

/-- The `PriorModel` (without `cholesky`); `covariance` is `none` for NaN. -/
structure SyntheticPrior (n : Nat) where
  mu : Fin n → ℝ
  covariance : Option (Matrix (Fin n) (Fin n) ℝ)
  returns : List (Fin n → ℝ)

/-- `EmpiricalPrior().fit`, `prior/_empirical.py` L130-202 with the defaults `EmpiricalMu()` and `EmpiricalCovariance()`, which are `window_size=None`, `ddof=1`,
`nearest=True`, `higham=False`, `higham_max_iteration=100`. -/
noncomputable def defaultPrior (isPD : Matrix (Fin n) (Fin n) ℝ → Bool) (eigh : Matrix (Fin n) (Fin n) ℝ → (Fin n → ℝ) × Matrix (Fin n) (Fin n) ℝ)
    (rows : List (Fin n → ℝ)) : Except SyntheticErr (SyntheticPrior n) :=
  match empiricalMu none rows with
  | none => .error .empty
  | some mu =>
    match empiricalCovariance isPD eigh true false 100 1 none rows with
    | .error e => .error (.moment e)
    | .ok cov => .ok ⟨mu, cov, rows⟩

/-- `SyntheticData.fit`, L144-205. -/
noncomputable def syntheticFit (isPD : Matrix (Fin n) (Fin n) ℝ → Bool) (eigh : Matrix (Fin n) (Fin n) ℝ → (Fin n → ℝ) × Matrix (Fin n) (Fin n) ℝ)
    (d : Distribution n) (nSamples : Nat) (noise : Nat → ℝ) (x : List (Fin n → ℝ)) : Except SyntheticErr (SyntheticPrior n) :=
  match checkSampleMethod d with
  | .error e => .error e
  | .ok () =>
    match d.fitSample x nSamples with
    | none => .error .distribution
    | some rows => defaultPrior isPD eigh (addNoise noise rows)

end Skfolio.Prior
