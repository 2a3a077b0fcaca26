import Verif.Copula.RotationModel
import Mathlib.Analysis.SpecialFunctions.Gamma.Basic
import Mathlib.Analysis.SpecialFunctions.Pow.Real

/-!
Model of the Gaussian and of the Student's t copula, `src/skfolio/distribution/copula/_gaussian.py`, `_student_t.py`.

The distribution functions of the normal and of the t distribution and their inverses (`scipy.special.ndtr`, `ndtri`, `stdtr`, `stdtrit`) are parameters; `Spec.lean` says what is assumed about them.
The distribution functions of the copulas themselves are computed by `scipy.stats.multivariate_normal` and `multivariate_t` and are not modelled.
-/
set_option autoImplicit false

namespace Skfolio.Copula

/-! ### Gaussian -/

/-- `GaussianCopula.partial_derivative`, `_gaussian.py` L251-259; `ndtr` and `ndtri` are the standard normal distribution function and its inverse. -/
noncomputable def gaussianPartial (ndtr ndtri : ℝ → ℝ) (ρ : ℝ) (firstMargin : Bool) (x : ℝ × ℝ) : ℝ :=
  let x := marginSwap firstMargin x
  ndtr ((ndtri x.1 - ρ * ndtri x.2) / Real.sqrt (1 - ρ ^ 2))

/-- `GaussianCopula.inverse_partial_derivative`, `_gaussian.py` L309-315. -/
noncomputable def gaussianInverse (ndtr ndtri : ℝ → ℝ) (ρ : ℝ) (firstMargin : Bool) (x : ℝ × ℝ) : ℝ :=
  let x := marginSwap firstMargin x
  ndtr (ndtri x.1 * Real.sqrt (1 - ρ ^ 2) + ρ * ndtri x.2)

/-- `_base_sample_scores`, `_gaussian.py` L376-410: the logarithm of the density. `np.log1p(a)` is `log (1 + a)`. -/
noncomputable def gaussianScore (ndtri : ℝ → ℝ) (ρ : ℝ) (x : ℝ × ℝ) : ℝ :=
  let u := ndtri x.1
  let v := ndtri x.2
  (-1 / 2) * Real.log (1 + -ρ ^ 2) - ρ * (1 / 2 * ρ * (u ^ 2 + v ^ 2) - u * v) / (1 - ρ ^ 2)

/-! ### Student's t -/

/-- `StudentTCopula.partial_derivative`, `_student_t.py` L301-315; `stdtr` and `stdtrit` take the degrees of freedom first. -/
noncomputable def studentPartial (stdtr stdtrit : ℝ → ℝ → ℝ) (ν ρ : ℝ) (firstMargin : Bool) (x : ℝ × ℝ) : ℝ :=
  let x := marginSwap firstMargin x
  let u := stdtrit ν x.1
  let v := stdtrit ν x.2
  stdtr (ν + 1) ((u - ρ * v) / Real.sqrt ((1 - ρ ^ 2) * (ν + v ^ 2) / (ν + 1)))

/-- `StudentTCopula.inverse_partial_derivative`, `_student_t.py` L366-377. -/
noncomputable def studentInverse (stdtr stdtrit : ℝ → ℝ → ℝ) (ν ρ : ℝ) (firstMargin : Bool) (x : ℝ × ℝ) : ℝ :=
  let x := marginSwap firstMargin x
  let p := stdtrit (ν + 1) x.1
  let v := stdtrit ν x.2
  stdtr ν (p * Real.sqrt ((ν + v ^ 2) / (ν + 1) * (1 - ρ ^ 2)) + ρ * v)

/-- `_sample_scores`, `_student_t.py` L441-486; `gammaln` is the logarithm of the Gamma function. -/
noncomputable def studentScore (stdtrit : ℝ → ℝ → ℝ) (ν ρ : ℝ) (w : ℝ × ℝ) : ℝ :=
  let x := stdtrit ν w.1
  let y := stdtrit ν w.2
  let a := 1 - ρ ^ 2
  Real.log (Real.Gamma ((ν + 2) / 2)) + Real.log (Real.Gamma (ν / 2)) - 2 * Real.log (Real.Gamma ((ν + 1) / 2)) - Real.log a / 2
    + (ν + 1) / 2 * (Real.log (1 + x ^ 2 / ν) + Real.log (1 + y ^ 2 / ν)) - (ν + 2) / 2 * Real.log (1 + (x ^ 2 - 2 * ρ * x * y + y ^ 2) / a / ν)

end Skfolio.Copula
