import Verif.Copula.ArchimedeanModel
import Verif.Copula.TailModel
import Verif.Copula.Digamma
import Verif.ModelSelection.Model

/-!
Model of `fit` of the bivariate copulas with `itau=True`: the parameter by inversion of Kendall's tau.

`src/skfolio/distribution/copula/_clayton.py` L178-225, `_gumbel.py` L179-225, `_joe.py` L184-241, `_gaussian.py` L147-192, `_student_t.py` L175-243, `_utils.py` L237-269, `_base.py` L44-79.

Simplified: the arithmetic is that of the reals; the floats of the model are reals, NaN and the infinities, which Kendall's tau needs. The data is finite. `so.brentq` and `so.minimize_scalar` are
parameters. `_EULER_GAMMA` is the constant it approximates.
-/
set_option autoImplicit false

namespace Skfolio.Copula

open Skfolio.ModelSelection (Flt selectRotation)

inductive FitErr where
  /-- `validate_data`: no observation. -/
  | empty
  /-- "X must be in the interval `[0, 1]`". -/
  | range
  /-- `ZeroDivisionError` of `2.0 / (2.0 - theta)`. -/
  | division
  /-- `ValueError` of `brentq`: the function is NaN. -/
  | notNumber
  /-- `RuntimeError`: an optimiser failed. -/
  | failed
  deriving DecidableEq

/-- `_validate_X`, `_base.py` L68-79, with two finite columns. -/
noncomputable def validateMargins (X : List (ℝ × ℝ)) : Except FitErr (List (ℝ × ℝ)) :=
  if X = [] then .error .empty
  else if ∀ x ∈ X, (0 ≤ x.1 ∧ x.1 ≤ 1) ∧ 0 ≤ x.2 ∧ x.2 ≤ 1 then .ok (X.map fun x => (clipMarginal x.1, clipMarginal x.2))
  else .error .range

/-! ### `st.kendalltau(X[:, 0], X[:, 1]).statistic`, scipy's tau-b -/

/-- The sum over the pairs of entries at different places. -/
def pairSum {A : Type} (f : A → A → ℝ) : List A → ℝ
  | [] => 0
  | a :: l => (l.map (f a)).sum + pairSum f l

/-- The sign of a difference. -/
noncomputable def sgn (a b : ℝ) : ℝ := if a < b then 1 else if b < a then -1 else 0

/-- Concordant less discordant pairs, over the geometric mean of the numbers of the pairs without a tie in one column; NaN if a column has ties only. -/
noncomputable def kendalltau (X : List (ℝ × ℝ)) : Flt ℝ :=
  let s := pairSum (fun a b => sgn a.1 b.1 * sgn a.2 b.2) X
  let nx := pairSum (fun a b => sgn a.1 b.1 ^ 2) X
  let ny := pairSum (fun a b => sgn a.2 b.2 ^ 2) X
  if nx = 0 ∨ ny = 0 then .nan else .fin (max (-1) (min 1 (s / Real.sqrt nx / Real.sqrt ny)))

/-- L191-194: the argument `kendall_tau`, or the tau of the data. -/
noncomputable def chosenTau (kendall_tau : Option (Flt ℝ)) (X : List (ℝ × ℝ)) : Flt ℝ :=
  match kendall_tau with
  | none => kendalltau X
  | some t => t

/-- `min(abs(kendall_tau), 0.9999)`: Python's `min` keeps its first argument if that is NaN. `none` is NaN. -/
noncomputable def absTau : Flt ℝ → Option ℝ
  | .nan => none
  | .ninf | .pinf => some (9999 / 10000)
  | .fin t => some (if 9999 / 10000 < |t| then 9999 / 10000 else |t|)

/-- `np.clip`. -/
noncomputable def clip (lo hi x : ℝ) : ℝ := min (max x lo) hi

/-- `-np.sum(_base_sample_scores(X, theta))`; NaN for a NaN. -/
noncomputable def negLogLik (score : ℝ → ℝ × ℝ → ℝ) (theta : Option ℝ) (X : List (ℝ × ℝ)) : Flt ℝ :=
  match theta with
  | none => .nan
  | some t => .fin (-(X.map (score t)).sum)

/-- `theta_` (`none` is NaN) and `rotation_`. -/
structure FittedCopula where
  theta : Option ℝ
  rotation : Rotation

/-- `_select_rotation_itau` with the parameter. -/
noncomputable def withRotation (score : ℝ → ℝ × ℝ → ℝ) (theta : Option ℝ) (X : List (ℝ × ℝ)) : FittedCopula :=
  ⟨theta, (selectRotation (negLogLik score theta) X).getD .r0⟩

/-! ### Clayton -/

/-- `_THETA_BOUNDS`, `_clayton.py` L27. -/
noncomputable def claytonLo : ℝ := 1 / 10000
noncomputable def claytonHi : ℝ := 50

/-- L208-214. -/
noncomputable def claytonTheta (tau : Flt ℝ) : Option ℝ := (absTau tau).map fun t => clip claytonLo claytonHi (2 * t / (1 - t))

/-- `ClaytonCopula.fit`, L199-218. -/
noncomputable def fitClayton (kendall_tau : Option (Flt ℝ)) (X : List (ℝ × ℝ)) : Except FitErr FittedCopula := do
  let X ← validateMargins X
  return withRotation claytonScore (claytonTheta (chosenTau kendall_tau X)) X

/-! ### Gumbel -/

/-- `_THETA_BOUNDS`, `_gumbel.py` L27. -/
noncomputable def gumbelLo : ℝ := 10001 / 10000
noncomputable def gumbelHi : ℝ := 80

/-- L208-215. -/
noncomputable def gumbelTheta (tau : Flt ℝ) : Option ℝ := (absTau tau).map fun t => clip gumbelLo gumbelHi (1 / (1 - t))

/-- `GumbelCopula.fit`, L200-218. -/
noncomputable def fitGumbel (kendall_tau : Option (Flt ℝ)) (X : List (ℝ × ℝ)) : Except FitErr FittedCopula := do
  let X ← validateMargins X
  return withRotation gumbelScore (gumbelTheta (chosenTau kendall_tau X)) X

/-! ### Joe -/

/-- `_THETA_BOUNDS`, `_joe.py` L29. -/
noncomputable def joeLo : ℝ := 1005 / 1000
noncomputable def joeHi : ℝ := 20

/-- `_tau_diff`, L476-507; `none` is the `ZeroDivisionError`. -/
noncomputable def tauDiff (theta tau : ℝ) : Option ℝ :=
  if 2 - theta = 0 then none else some (1 + 2 / (2 - theta) * ((1 - Real.eulerMascheroniConstant) - digamma (2 / theta + 1)) - tau)

/-- `fa * fb > 0`, `abs(fa) < abs(fb)` and the call of `brentq`, L214-231. With an infinite tau both differences are `-inf`; with a NaN `brentq` is called and raises. -/
noncomputable def joeTheta (brentq : (ℝ → Option ℝ) → ℝ → ℝ → Except FitErr ℝ) : Flt ℝ → Except FitErr ℝ
  | .nan => .error .notNumber
  | .ninf | .pinf => .ok joeHi
  | .fin t =>
    match tauDiff joeLo |t|, tauDiff joeHi |t| with
    | some fa, some fb => if fa * fb > 0 then (if |fa| < |fb| then .ok joeLo else .ok joeHi) else brentq (fun x => tauDiff x |t|) joeLo joeHi
    | _, _ => .error .division

/-- `JoeCopula.fit`, L203-234. -/
noncomputable def fitJoe (brentq : (ℝ → Option ℝ) → ℝ → ℝ → Except FitErr ℝ) (kendall_tau : Option (Flt ℝ)) (X : List (ℝ × ℝ)) : Except FitErr FittedCopula := do
  let X ← validateMargins X
  let theta ← joeTheta brentq (chosenTau kendall_tau X)
  return withRotation joeScore (some theta) X

/-! ### the elliptical copulas -/

/-- `_RHO_BOUNDS`, `_base.py` L23. -/
noncomputable def rhoHi : ℝ := 999 / 1000

/-- `np.clip(np.sin((np.pi * kendall_tau) / 2.0), ...)`: the sine of an infinity is NaN. `_gaussian.py` L174-178, `_student_t.py` L202-206. -/
noncomputable def rhoOfTau : Flt ℝ → Option ℝ
  | .fin t => some (clip (-rhoHi) rhoHi (Real.sin (Real.pi * t / 2)))
  | _ => none

/-- `GaussianCopula.fit`, L167-178: `rho_`. -/
noncomputable def fitGaussian (kendall_tau : Option (Flt ℝ)) (X : List (ℝ × ℝ)) : Except FitErr (Option ℝ) := do
  let X ← validateMargins X
  return rhoOfTau (chosenTau kendall_tau X)

/-- `StudentTCopula.fit`, L194-222: `dof_` and `rho_`. `minimize` is `minimize_scalar` of the negative log-likelihood in the degrees of freedom, `none` if it fails. -/
noncomputable def fitStudent (minimize : Option ℝ → List (ℝ × ℝ) → Option ℝ) (kendall_tau : Option (Flt ℝ)) (X : List (ℝ × ℝ)) : Except FitErr (ℝ × Option ℝ) := do
  let X ← validateMargins X
  let rho := rhoOfTau (chosenTau kendall_tau X)
  match minimize rho X with
  | none => .error .failed
  | some dof => return (dof, rho)

end Skfolio.Copula
