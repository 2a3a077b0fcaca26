import Verif.Copula.RotationModel
import Mathlib.Algebra.Order.Field.Basic

/-
Model of the selection of distributions: `aic` and `bic`, `src/skfolio/distribution/_base.py` L122-199; the `fit` and `n_params` of the
univariate distributions, `distribution/univariate/_base.py` L39-42, `_gaussian.py` L103-136, `_student_t.py` L115-144, `_johnson_su.py`
L118-152, `_normal_inverse_gaussian.py` L119-153; `select_univariate_dist`, `distribution/univariate/_selection.py` L19-85;
`select_bivariate_copula`, `distribution/copula/_selection.py` L23-113; the use of `kendall_tau` in the `fit` of the copulas; the selection of
rotations, `distribution/copula/_utils.py` L237-335.

Numbers are floats: NaN, infinities or numbers of an ordered field (no rounding). Arbitrary functions: the fits of scipy, the total
log-likelihood, Kendall's test, the logarithm. Candidates are cloned before they are fitted, so they are values here.
-/
set_option autoImplicit false

namespace Skfolio.ModelSelection

open Skfolio.Copula (Rotation applyRotation)

variable {K : Type} [Field K] [LinearOrder K]

/-- A float. -/
inductive Flt (K : Type) where
  | nan | ninf | pinf
  | fin (x : K)
  deriving DecidableEq

/-- `a < b` for floats: false with a NaN. -/
def Flt.lt : Flt K → Flt K → Bool
  | .nan, _ | _, .nan => false
  | .ninf, .ninf => false
  | .ninf, _ => true
  | _, .ninf => false
  | .pinf, _ => false
  | .fin _, .pinf => true
  | .fin a, .fin b => decide (a < b)

/-- `a >= b` for floats: false with a NaN. -/
def Flt.ge : Flt K → Flt K → Bool
  | .nan, _ | _, .nan => false
  | a, b => !a.lt b

/-- Python's `min(results, key=results.get)` for a dictionary in the order of insertion: keep the first, replace it by each one that is
smaller. -/
def pyMin {A : Type} : List (A × Flt K) → Option A
  | [] => none
  | x :: xs => some (xs.foldl (fun best y => if y.2.lt best.2 then y else best) x).1

/-- `2 * (n_params - log_likelihood)`, `_base.py` L160-161. -/
def aic (k : Nat) : Flt K → Flt K
  | .nan => .nan
  | .ninf => .pinf
  | .pinf => .ninf
  | .fin l => .fin (2 * (k - l))

/-- `-2 * log_likelihood + n_params * np.log(n)`, L197-199. -/
def bic (ln : Nat → K) (n k : Nat) : Flt K → Flt K
  | .nan => .nan
  | .ninf => .pinf
  | .pinf => .ninf
  | .fin l => .fin (-2 * l + k * ln n)

inductive Criterion where
  | aic | bic

/-- The criterion of a fitted estimator on `n` observations. -/
def Criterion.value (c : Criterion) (ln : Nat → K) (n k : Nat) (score : Flt K) : Flt K :=
  match c with
  | .aic => ModelSelection.aic k score
  | .bic => ModelSelection.bic ln n k score

inductive Err where
  | columns
  | candidate
  | bothFixed
  | attribute
  | empty
  | fitting
  deriving DecidableEq

/-! ### univariate distributions -/

inductive Family where
  | gaussian | studentT | johnsonSU | normalInverseGaussian
  deriving DecidableEq

/-- The number of keys of `_scipy_params`. -/
def Family.size : Family → Nat
  | .gaussian => 2
  | .studentT => 3
  | .johnsonSU => 4
  | .normalInverseGaussian => 4

/-- An estimator: its family, `loc` and `scale` (`None`: to be fitted). -/
structure Dist (K : Type) where
  family : Family
  loc : Option K
  scale : Option K

/-- A candidate that is, or is not, an instance of `BaseUnivariateDist`. -/
inductive Candidate (A : Type) where
  | good (a : A)
  | foreign

/-- A fitted distribution: the estimator and the values of its `_scipy_params`. -/
structure FittedDist (K : Type) where
  dist : Dist K
  params : List K

/-- `n_params`: the number of keys of `_scipy_params`. -/
def FittedDist.nParams (f : FittedDist K) : Nat := f.dist.family.size

/-- `fit`: all families but Student's t refuse two fixed parameters. `scipyFit` is the `fit` of scipy with the fixed parameters. -/
def Dist.fit {X : Type} (scipyFit : Family → Option K → Option K → X → Option (List K)) (d : Dist K) (x : X) : Except Err (FittedDist K) :=
  match d.family, d.loc, d.scale with
  | .gaussian, some _, some _ => .error .bothFixed
  | .johnsonSU, some _, some _ => .error .bothFixed
  | .normalInverseGaussian, some _, some _ => .error .bothFixed
  | _, _, _ =>
    match scipyFit d.family d.loc d.scale x with
    | none => .error .fitting
    | some ps => .ok ⟨d, ps⟩

/-- A data set: the number of columns, the number of rows and the rest. -/
structure Data (X : Type) where
  columns : Nat
  rows : Nat
  values : X

/-- The loop over the candidates and the choice, in both selections: `evaluate` fits a candidate and computes its criterion. -/
def select {C A : Type} (evaluate : C → Except Err (A × Flt K)) (candidates : List C) : Except Err A :=
  match candidates.mapM evaluate with
  | .error e => .error e
  | .ok results =>
    match pyMin results with
    | none => .error .empty
    | some f => .ok f

/-- L70-82: the body of the loop. -/
def evaluateDist {X : Type} (scipyFit : Family → Option K → Option K → Data X → Option (List K)) (score : FittedDist K → Data X → Flt K)
    (ln : Nat → K) (x : Data X) (c : Criterion) : Candidate (Dist K) → Except Err (FittedDist K × Flt K)
  | .foreign => .error .candidate
  | .good d =>
    match d.fit scipyFit x with
    | .error e => .error e
    | .ok f => .ok (f, c.value ln x.rows f.nParams (score f x))

/-- `select_univariate_dist` with a list of candidates, L65-85. -/
def selectUnivariate {X : Type} (scipyFit : Family → Option K → Option K → Data X → Option (List K)) (score : FittedDist K → Data X → Flt K)
    (ln : Nat → K) (x : Data X) (candidates : List (Candidate (Dist K))) (c : Criterion) : Except Err (FittedDist K) :=
  if x.columns ≠ 1 then .error .columns else select (evaluateDist scipyFit score ln x c) candidates

/-! ### copulas -/

inductive CopulaFamily where
  | independent | gaussian | studentT | clayton | gumbel | joe
  deriving DecidableEq

/-- `_n_params`. -/
def CopulaFamily.nParams : CopulaFamily → Nat
  | .independent => 0
  | .gaussian => 1
  | .studentT => 2
  | .clayton => 1
  | .gumbel => 1
  | .joe => 1

/-- An estimator of a copula; `itau` and `tau` (`kendall_tau`) have no meaning for the independent copula, which has no such attributes. -/
structure Cop (K : Type) where
  family : CopulaFamily
  itau : Bool
  tau : Option (Flt K)

structure FittedCop (K P : Type) where
  cop : Cop K
  params : P

/-- How a copula is fitted: `indep`, `rho` of Kendall's tau (Gaussian copula with `itau`), or by a function of the data and, except for
maximum likelihood without initial guess, of Kendall's tau. -/
structure Fits (K X P : Type) where
  kendall : X → Flt K × Flt K
  indep : P
  rho : Flt K → P
  other : CopulaFamily → Bool → Flt K → X → Option P

/-- `fit` of the copulas, `_gaussian.py` L167-192, `_student_t.py` L194-241 and alike. -/
def Cop.fit {X P : Type} (F : Fits K X P) (c : Cop K) (x : X) : Except Err (FittedCop K P) :=
  match c.family with
  | .independent => .ok ⟨c, F.indep⟩
  | f =>
    let tau := match c.tau with
      | none => (F.kendall x).1
      | some t => t
    if f = .gaussian ∧ c.itau then .ok ⟨c, F.rho tau⟩
    else
      match F.other f c.itau tau x with
      | none => .error .fitting
      | some p => .ok ⟨c, p⟩

/-- L91-109: the body of the loop. -/
def evaluateCop {X P : Type} (F : Fits K (Data X) P) (score : CopulaFamily → P → Data X → Flt K) (ln : Nat → K) (x : Data X) (c : Criterion)
    (tau : Flt K) : Candidate (Cop K) → Except Err (FittedCop K P × Flt K)
  | .foreign => .error .candidate
  | .good d =>
    if d.family = .independent then .error .attribute
    else
      let d := if d.itau && d.tau.isNone then { d with tau := some tau } else d
      match d.fit F x with
      | .error e => .error e
      | .ok f => .ok (f, c.value ln x.rows f.cop.family.nParams (score f.cop.family f.params x))

/-- `select_bivariate_copula` with a list of candidates, L82-113. -/
def selectCopula {X P : Type} (F : Fits K (Data X) P) (score : CopulaFamily → P → Data X → Flt K) (ln : Nat → K) (x : Data X)
    (candidates : List (Candidate (Cop K))) (c : Criterion) (level : Flt K) : Except Err (FittedCop K P) :=
  if x.columns ≠ 2 then .error .columns
  else
    if (F.kendall x).2.ge level then .ok ⟨⟨.independent, false, none⟩, F.indep⟩
    else select (evaluateCop F score ln x c (F.kendall x).1) candidates

/-! ### rotations -/

/-- `CopulaRotation` in the order of its definition. -/
def rotations : List Rotation := [.r0, .r90, .r180, .r270]

/-- `_select_rotation_itau`, `_utils.py` L237-268. -/
def selectRotation (func : List (K × K) → Flt K) (X : List (K × K)) : Option Rotation :=
  pyMin (rotations.map fun r => (r, func (X.map (applyRotation r))))

/-- `_select_theta_and_rotation_mle`, L271-335. `minimize` gives the minimiser and the minimum, or fails. -/
def selectThetaRotation (minimize : List (K × K) → Option (K × Flt K)) (X : List (K × K)) : Option (K × Rotation) :=
  pyMin (rotations.filterMap fun r => (minimize (X.map (applyRotation r))).map fun tf => ((tf.1, r), tf.2))

end Skfolio.ModelSelection
