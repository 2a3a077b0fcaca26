import Verif.Moments.DistanceModel
import Verif.Moments.CorrModel
import Verif.Copula.FitModel

/-!
Model of `PearsonDistance.fit`, `KendallDistance.fit`, `SpearmanDistance.fit` and `CovarianceDistance.fit`, `src/skfolio/distance/_distance.py` L73-347, with `_corr_to_distance` on matrices with NaN.

The correlations are those of numpy and pandas, by their definitions. Simplified: exact arithmetic, in which 0 / 0 is NaN (`none`); the returns are finite (`validate_data`); `power` is positive.
-/
set_option autoImplicit false

namespace Skfolio.Distance

open Skfolio.ModelSelection (Flt)
open Skfolio.Copula (kendalltau)
open Skfolio.Moments (covToCorr)

variable {T n : Nat}

/-! ### `_corr_to_distance`, L549-586 -/

/-- `np.power(x, p)` of a float: NaN for a negative base and an exponent that is not an integer. -/
noncomputable def npPower (p x : ℝ) : Option ℝ :=
  open Classical in
  if x < 0 ∧ ¬∃ z : ℤ, p = z then none else some (x ^ p)

/-- Python's `min` of three numbers: nothing is less than NaN nor greater, the first of them is kept. -/
noncomputable def pyMin3 (a b c : Option ℝ) : Option ℝ :=
  let m := fun x y : Option ℝ => match x, y with
    | some x, some y => if y < x then some y else some x
    | x, _ => x
  m (m a b) c

/-- `_corr_to_distance`, L578-586. -/
noncomputable def corrToDistanceNan (absolute : Bool) (power : ℝ) (corr : Fin n → Fin n → Option ℝ) : (Fin n → Fin n → Option ℝ) × (Fin n → Fin n → Option ℝ) :=
  let abs1 := fun x : ℝ => if absolute then |x| else x
  let corr2 := fun i j => (corr i j).bind fun x => npPower power (abs1 x)
  let scaler := (pyMin3 (npPower power (abs1 (-1))) (npPower power (abs1 0)) (npPower power (abs1 1))).map fun m => 1 / (1 - m)
  (corr2, fun i j => scaler.bind fun s => (corr2 i j).map fun c => Real.sqrt (min (max (s * (1 - c)) 0) 1))

/-! ### the correlations -/

/-- The mean of a column. -/
noncomputable def colMean (x : Fin T → ℝ) : ℝ := (∑ t, x t) / T

/-- `np.cov` of two columns, `ddof = 1`. -/
noncomputable def colCov (x y : Fin T → ℝ) : ℝ := (∑ t, (x t - colMean x) * (y t - colMean y)) / ((T : ℝ) - 1)

/-- One entry of `np.corrcoef`: `c / stddev[:, None] / stddev[None, :]`, clipped to `[-1, 1]`; NaN with a column of variance 0 or with one observation. -/
noncomputable def pearson (x y : Fin T → ℝ) : Option ℝ :=
  if T ≤ 1 ∨ colCov x x = 0 ∨ colCov y y = 0 then none
  else some (min (max (colCov x y / Real.sqrt (colCov x x) / Real.sqrt (colCov y y)) (-1)) 1)

open Classical in
/-- `rank_1d` of pandas: the average rank, from 1. -/
noncomputable def rank (x : Fin T → ℝ) (t : Fin T) : ℝ :=
  (Finset.univ.filter fun s => x s < x t).card + ((Finset.univ.filter fun s => x s = x t).card + 1) / 2

/-- One entry of `nancorr_spearman` of pandas. -/
noncomputable def spearman (x y : Fin T → ℝ) : Option ℝ :=
  let mean := ((T : ℝ) + 1) / 2
  let vx := fun t => rank x t - mean
  let vy := fun t => rank y t - mean
  let divisor := Real.sqrt ((∑ t, vx t * vx t) * ∑ t, vy t * vy t)
  if divisor ≠ 0 then some ((∑ t, vx t * vy t) / divisor) else none

/-- scipy's `kendalltau(a, b)[0]`. -/
noncomputable def kendall (x y : Fin T → ℝ) : Option ℝ :=
  match kendalltau (List.ofFn fun t => (x t, y t)) with
  | .fin r => some r
  | _ => none

/-- What `np.corrcoef` and `DataFrame.corr().to_numpy()` return. -/
inductive Corr (n : Nat) where
  /-- An array without dimensions. -/
  | scalar (r : Option ℝ)
  | matrix (r : Fin n → Fin n → Option ℝ)

inductive Method where
  | pearson | kendall | spearman
  deriving DecidableEq

/-- L88, L160, L232. `np.corrcoef` of one variable is the number `c / c`. `DataFrame.corr(method="kendall")` computes the upper triangle, with 1 on the diagonal; `nancorr_spearman` the lower triangle. -/
noncomputable def correlations (X : Fin T → Fin n → ℝ) : Method → Corr n
  | .pearson => if h : n = 1 then .scalar ((pearson (fun t => X t ⟨0, by omega⟩) fun t => X t ⟨0, by omega⟩).map fun _ => 1) else .matrix fun i j => pearson (fun t => X t i) fun t => X t j
  | .kendall => .matrix fun i j => if i = j then some 1 else if i ≤ j then kendall (fun t => X t i) fun t => X t j else kendall (fun t => X t j) fun t => X t i
  | .spearman => .matrix fun i j => if j ≤ i then spearman (fun t => X t i) fun t => X t j else spearman (fun t => X t j) fun t => X t i

/-! ### the estimators -/

/-- `codependence_` and `distance_`. -/
inductive Fitted (n : Nat) where
  | scalar (codependence distance : Option ℝ)
  | matrix (codependence distance : Fin n → Fin n → Option ℝ)

/-- `PearsonDistance.fit`, `KendallDistance.fit`, `SpearmanDistance.fit`: L87-94, L159-166, L231-238. -/
noncomputable def sampleDistance (m : Method) (absolute : Bool) (power : ℝ) (X : Fin T → Fin n → ℝ) : Fitted n :=
  match correlations X m with
  | .scalar r =>
    let d := corrToDistanceNan (n := 1) absolute power fun _ _ => r
    .scalar (d.1 0 0) (d.2 0 0)
  | .matrix r =>
    let d := corrToDistanceNan absolute power r
    .matrix d.1 d.2

/-- `CovarianceDistance.fit`, L331-347, from the matrix of the covariance estimator; 0 / 0 where a variance is 0 (a positive semidefinite matrix has a row of zeros there). -/
noncomputable def covarianceDistance (absolute : Bool) (power : ℝ) (cov : Matrix (Fin n) (Fin n) ℝ) : Fitted n :=
  let d := corrToDistanceNan absolute power fun i j => if 0 < cov i i ∧ 0 < cov j j then some ((covToCorr cov).1 i j) else none
  .matrix d.1 d.2

end Skfolio.Distance
