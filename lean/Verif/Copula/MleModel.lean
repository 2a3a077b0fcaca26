import Verif.Copula.FitModel
import Verif.Copula.EllipticalModel

/-!
Model of `fit` of the bivariate copulas with `itau=False`: maximum likelihood, and of `score`.

`src/skfolio/distribution/copula/_clayton.py` L220-223 and L395-413, `_gumbel.py` L220-223 and L401-419, `_joe.py` L236-239 and L418-436, `_gaussian.py` L180-191 and L352-370, `_student_t.py` L194-243 and
L421-442, `_utils.py` L272-338, and `src/skfolio/distribution/_base.py` L90-105.

Simplified: the arithmetic is that of the reals and the data is finite, so that no likelihood is NaN. `so.minimize_scalar` and `so.minimize` are parameters, which return the minimiser and the minimum (`result.x`, `result.fun`) or
fail (`not result.success`). The warning for a rotation whose minimisation fails is not modelled.
-/
set_option autoImplicit false

namespace Skfolio.Copula

open Skfolio.ModelSelection (Flt selectThetaRotation)

/-- `_neg_log_likelihood`: `-np.sum(_base_sample_scores(X=X, theta=theta))`. -/
noncomputable def negLogLikelihood (score : ℝ → ℝ × ℝ → ℝ) (theta : ℝ) (X : List (ℝ × ℝ)) : ℝ := -(X.map (score theta)).sum

/-- `fit` of the Archimedean copulas with `itau=False`: `_select_theta_and_rotation_mle` over the bounds of the parameter. -/
noncomputable def fitMle (score : ℝ → ℝ × ℝ → ℝ) (lo hi : ℝ) (minimize : (ℝ → ℝ) → ℝ → ℝ → Option (ℝ × ℝ)) (X : List (ℝ × ℝ)) : Except FitErr FittedCopula := do
  let X ← validateMargins X
  match selectThetaRotation (fun Y => (minimize (fun theta => negLogLikelihood score theta Y) lo hi).map fun r => (r.1, Flt.fin r.2)) X with
  | none => .error .failed
  | some (theta, rotation) => return ⟨some theta, rotation⟩

/-- `ClaytonCopula(itau=False).fit`, L220-223. -/
noncomputable def fitClaytonMle := fitMle claytonScore claytonLo claytonHi

/-- `GumbelCopula(itau=False).fit`, L220-223. -/
noncomputable def fitGumbelMle := fitMle gumbelScore gumbelLo gumbelHi

/-- `JoeCopula(itau=False).fit`, L236-239. -/
noncomputable def fitJoeMle := fitMle joeScore joeLo joeHi

/-- `score` of a fitted Archimedean copula: the sum of `score_samples`, which turns the data (`_clayton.py` L365-369). -/
noncomputable def scoreOf (score : ℝ → ℝ × ℝ → ℝ) (f : FittedCopula) (X : List (ℝ × ℝ)) : Except FitErr (Option ℝ) := do
  let X ← validateMargins X
  return f.theta.map fun theta => (X.map fun x => score theta (applyRotation f.rotation x)).sum

/-- `GaussianCopula(itau=False).fit`, L180-191. -/
noncomputable def fitGaussianMle (ndtri : ℝ → ℝ) (minimize : (ℝ → ℝ) → ℝ → ℝ → Option (ℝ × ℝ)) (X : List (ℝ × ℝ)) : Except FitErr ℝ := do
  let X ← validateMargins X
  match minimize (fun rho => negLogLikelihood (gaussianScore ndtri) rho X) (-rhoHi) rhoHi with
  | none => .error .failed
  | some r => return r.1

/-- `score` of a fitted Gaussian copula. -/
noncomputable def gaussianScoreOf (ndtri : ℝ → ℝ) (rho : ℝ) (X : List (ℝ × ℝ)) : Except FitErr ℝ := do
  let X ← validateMargins X
  return (X.map (gaussianScore ndtri rho)).sum

/-- `_DOF_BOUNDS`, `_student_t.py` L22. -/
noncomputable def dofLo : ℝ := 2
noncomputable def dofHi : ℝ := 50

/-- `_neg_log_likelihood`, `_student_t.py` L421-442. -/
noncomputable def studentNegLogLikelihood (stdtrit : ℝ → ℝ → ℝ) (dof rho : ℝ) (X : List (ℝ × ℝ)) : ℝ := -(X.map (studentScore stdtrit dof rho)).sum

/-- `StudentTCopula.fit`, L194-243: `dof_` and `rho_`. A correlation that is NaN is reported as a failure here. -/
noncomputable def fitStudentMle (stdtrit : ℝ → ℝ → ℝ) (minimize : (ℝ → ℝ) → ℝ → ℝ → Option (ℝ × ℝ)) (lbfgs : (ℝ × ℝ → ℝ) → ℝ × ℝ → ℝ × ℝ → ℝ × ℝ → Option (ℝ × ℝ)) (itau : Bool)
    (kendall_tau : Option (Flt ℝ)) (X : List (ℝ × ℝ)) : Except FitErr (ℝ × ℝ) := do
  let X ← validateMargins X
  match rhoOfTau (chosenTau kendall_tau X) with
  | none => .error .failed
  | some rho =>
    if itau then
      match minimize (fun dof => studentNegLogLikelihood stdtrit dof rho X) dofLo dofHi with
      | none => .error .failed
      | some r => return (r.1, rho)
    else
      match lbfgs (fun p => studentNegLogLikelihood stdtrit p.1 p.2 X) (3, rho) (dofLo, dofHi) (-rhoHi, rhoHi) with
      | none => .error .failed
      | some r => return r

/-- `score` of a fitted Student copula. -/
noncomputable def studentScoreOf (stdtrit : ℝ → ℝ → ℝ) (p : ℝ × ℝ) (X : List (ℝ × ℝ)) : Except FitErr ℝ := do
  let X ← validateMargins X
  return (X.map (studentScore stdtrit p.1 p.2)).sum

end Skfolio.Copula
