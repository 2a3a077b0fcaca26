import Verif.Moments.CorrModel
import Verif.Equations.Model
import Mathlib.Analysis.SpecialFunctions.Log.Basic

/-
Model of `ImpliedCovariance`, `src/skfolio/moments/covariance/_implied_covariance.py` L210-457.

The regressor refuses numbers that are not finite, as those of scikit-learn do.

Observations are numbered from 0; a table of `n` rows is a function on row numbers of which the rows below `n` are used. The linear
regressor is any function that takes the training features, the training targets and the features to predict from. Metadata routing and
the prior covariance estimator are not modelled: `prior` is the covariance that the latter has estimated. `volatility_risk_premium_adj` is
the array after `input_to_array` (C72).
-/
set_option autoImplicit false

namespace Skfolio.Moments

open Matrix
open Skfolio.Equations (Word)

/-- The exceptions of `fit`: missing assets L263-267, the shape of `implied_vol` L444-453, negative `implied_vol` L455, the risk premium
L293-302, the window L306-310, the folds L339-346, shapes L356-357, the regressor's `ValueError` when a logarithm is not a finite number,
and those of `_set_covariance`. -/
inductive ImpliedErr where
  | missingAssets
  | shape
  | negative
  | premium
  | window
  | folds
  | sampleShapes
  | notFinite
  | moments (e : MomentErr)

/-! ### samples of the regression -/

/-- `np.arange(start, stop, step)`. -/
def arange (start stop step : Nat) : List Nat := (List.range ((stop - start + step - 1) / step)).map fun k => start + k * step

/-- `np.std(x, ddof=1)` of `w` numbers. -/
noncomputable def sampleStd (w : Nat) (x : Nat → ℝ) : ℝ :=
  Real.sqrt ((∑ t ∈ Finset.range w, (x t - (∑ s ∈ Finset.range w, x s) / w) ^ 2) / ((w : ℝ) - 1))

/-- `_compute_realised_vol`, L385-399, for one asset: the last `chunks * w` returns in rows of `w`. -/
noncomputable def computeRealisedVol (n w : Nat) (x : Nat → ℝ) : List ℝ :=
  let chunks := n / w
  (List.range chunks).map fun k => sampleStd w fun t => x (n - chunks * w + (k * w + t))

/-- `_compute_implied_vol`, L402-410, for one asset. -/
def computeImpliedVol (n w : Nat) (v : Nat → ℝ) : List ℝ :=
  let chunks := n / w
  (arange (n - (chunks - 1) * w - 1) n w).map v

/-- `X_train`, `y_train` and `X_pred` of one asset, L361-374. (`X_pred` is `X[[-1]]`, an `IndexError` if there is no fold, which the
check on the number of folds excludes; here `(0, 0)`.) -/
noncomputable def regressionData (n w : Nat) (x v : Nat → ℝ) : List (ℝ × ℝ) × List ℝ × (ℝ × ℝ) :=
  let rv := (computeRealisedVol n w x).map Real.log
  let iv := (computeImpliedVol n w v).map Real.log
  let X := iv.zip rv
  (X.dropLast, rv.tail, X.getLast?.getD (0, 0))

/-- `_predict_realised_vols` for one asset, L369-382. -/
noncomputable def predictVol (reg : List (ℝ × ℝ) → List ℝ → ℝ × ℝ → ℝ) (n w : Nat) (x v : Nat → ℝ) : ℝ :=
  let d := regressionData n w x v
  Real.exp (reg d.1 d.2.1 d.2.2)

/-! ### fit -/

/-- `implied_vol` as given: its shape, the names of its columns (of a data frame), its numbers, and whether `check_array` returns the
caller's own buffer (a numpy array of floats in C order). -/
structure Vol where
  rows : Nat
  cols : Nat
  names : Option (List Word)
  val : Nat → Nat → ℝ
  sameBuffer : Bool

/-- L258-273: the columns of `implied_vol` are selected and ordered by the names of the columns of `X`, if both have names. `safe_indexing`
copies. -/
def alignVol {m : Nat} (names : Option (Fin m → Word)) (vol : Vol) : Except ImpliedErr Vol :=
  match names, vol.names with
  | some names, some volNames =>
    if ∀ i, names i ∈ volNames then
      .ok { rows := vol.rows, cols := m, names := none, sameBuffer := false,
            val := fun t i => if h : i < m then vol.val t (volNames.idxOf (names ⟨i, h⟩)) else 0 }
    else .error .missingAssets
  | _, _ => .ok vol

/-- `check_implied_vol`, L413-457. `check_non_negative` gets the shape `(n_observations, n_assets)`, L455, and not `implied_vol`. -/
noncomputable def checkVol (n m : Nat) (vol : Vol) : Except ImpliedErr Unit :=
  if ¬ (vol.rows = n ∧ vol.cols = m) then .error .shape
  else if min (n : ℝ) (m : ℝ) < 0 then .error .negative
  else .ok ()

/-- The parameters of the estimator. -/
structure ImpliedParams (m : Nat) where
  annualizedFactor : ℝ
  windowSize : Nat
  premium : Option (Fin m → ℝ)
  nearest : Bool
  higham : Bool
  highamMaxIteration : Nat

/-- `pred_realised_vols_`, L280-322. `v` is `implied_vol` divided by the square root of the annualization factor. -/
noncomputable def predVols {m : Nat} (reg : List (ℝ × ℝ) → List ℝ → ℝ × ℝ → ℝ) (p : ImpliedParams m) (n : Nat) (x : Nat → Fin m → ℝ)
    (v : Nat → Nat → ℝ) : Except ImpliedErr (Fin m → ℝ) :=
  open Classical in
  match p.premium with
  | some adj => if ∃ i, adj i ≤ 0 then .error .premium else .ok fun i => v (n - 1) i / adj i
  | none =>
    if p.windowSize < 3 then .error .window
    else if n / p.windowSize < 3 then .error .folds
    else if ∃ i : Fin m, (computeRealisedVol n p.windowSize (x · i)).length ≠ (computeImpliedVol n p.windowSize (v · i)).length then
      .error .sampleShapes
    else if ∃ i : Fin m, ∃ s ∈ computeRealisedVol n p.windowSize (x · i) ++ computeImpliedVol n p.windowSize (v · i), s ≤ 0 then
      .error .notFinite                                          -- NaN or -inf from `np.log`
    else .ok fun i => predictVol reg n p.windowSize (x · i) (v · i)

/-- `fit`, L256-327: `pred_realised_vols_` and `covariance_` (or the exception), and what the caller's `implied_vol` holds afterwards:
`implied_vol /= np.sqrt(...)`, L278, writes to the caller's buffer if `check_array` has returned it. -/
noncomputable def impliedFit {m : Nat} (isPD : Matrix (Fin m) (Fin m) ℝ → Bool)
    (eigh : Matrix (Fin m) (Fin m) ℝ → (Fin m → ℝ) × Matrix (Fin m) (Fin m) ℝ) (reg : List (ℝ × ℝ) → List ℝ → ℝ × ℝ → ℝ)
    (p : ImpliedParams m) (prior : Matrix (Fin m) (Fin m) ℝ) (n : Nat) (names : Option (Fin m → Word)) (x : Nat → Fin m → ℝ) (vol : Vol) :
    Except ImpliedErr ((Fin m → ℝ) × Matrix (Fin m) (Fin m) ℝ) × Vol :=
  let corr := (covToCorr prior).1
  match alignVol names vol with
  | .error e => (.error e, vol)
  | .ok vol1 =>
    match checkVol n m vol1 with
    | .error e => (.error e, vol)
    | .ok () =>
      let v := fun t i => vol1.val t i / Real.sqrt p.annualizedFactor
      let after := if vol1.sameBuffer then { vol with val := v } else vol
      match predVols reg p n x v with
      | .error e => (.error e, after)
      | .ok vols =>
        match setCovariance isPD eigh p.nearest p.higham p.highamMaxIteration (corrToCov corr vols) with
        | .error e => (.error (.moments e), after)
        | .ok cov => (.ok (vols, cov), after)

end Skfolio.Moments
