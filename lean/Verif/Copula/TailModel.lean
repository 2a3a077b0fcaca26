import Verif.Copula.ArchimedeanModel
import Verif.Copula.EllipticalModel

/-!
Model of the tail dependence coefficients, `lower_tail_dependence` and `upper_tail_dependence` of the six copulas (`src/skfolio/distribution/copula/_clayton.py` L371-385, `_gumbel.py` L377-391,
`_joe.py` L394-408, `_gaussian.py` L336-344, `_student_t.py` L403-413, `_independent.py` L183-191), and of `BaseBivariateCopula.tail_concentration`, `_base.py` L269-315.
-/
set_option autoImplicit false

namespace Skfolio.Copula

/-- `_clayton.py` L371-377. -/
noncomputable def claytonLower (θ : ℝ) (r : Rotation) : ℝ := if r = .r0 then (2 : ℝ) ^ (-1 / θ) else 0
/-- `_clayton.py` L379-385. -/
noncomputable def claytonUpper (θ : ℝ) (r : Rotation) : ℝ := if r = .r180 then (2 : ℝ) ^ (-1 / θ) else 0

/-- `_gumbel.py` L377-383. -/
noncomputable def gumbelLower (θ : ℝ) (r : Rotation) : ℝ := if r = .r180 then 2 - (2 : ℝ) ^ (1 / θ) else 0
/-- `_gumbel.py` L385-391. -/
noncomputable def gumbelUpper (θ : ℝ) (r : Rotation) : ℝ := if r = .r0 then 2 - (2 : ℝ) ^ (1 / θ) else 0

/-- `_joe.py` L394-400. -/
noncomputable def joeLower (θ : ℝ) (r : Rotation) : ℝ := if r = .r180 then 2 - (2 : ℝ) ^ (1 / θ) else 0
/-- `_joe.py` L402-408. -/
noncomputable def joeUpper (θ : ℝ) (r : Rotation) : ℝ := if r = .r0 then 2 - (2 : ℝ) ^ (1 / θ) else 0

/-- `_gaussian.py` L336-344. -/
def gaussianLower : ℝ := 0
def gaussianUpper : ℝ := 0

/-- `_independent.py` L183-191, and the distribution function, L65-83. -/
def independentLower : ℝ := 0
def independentUpper : ℝ := 0
def independentCdf (x : ℝ × ℝ) : ℝ := x.1 * x.2

/-- `_student_t.py` L403-408. -/
noncomputable def studentLower (stdtr : ℝ → ℝ → ℝ) (ν ρ : ℝ) : ℝ := 2 * stdtr (ν + 1) (-Real.sqrt ((ν + 1) * (1 - ρ) / (1 + ρ)))
/-- `_student_t.py` L410-413. -/
noncomputable def studentUpper (stdtr : ℝ → ℝ → ℝ) (ν ρ : ℝ) : ℝ := studentLower stdtr ν ρ

/-- `UNIFORM_MARGINAL_EPSILON`, `_base.py` L22. -/
noncomputable def marginalEpsilon : ℝ := 1 / 10 ^ 9

/-- The `np.clip` of `_validate_X`, `_base.py` L78. -/
noncomputable def clipMarginal (q : ℝ) : ℝ := min (max q marginalEpsilon) (1 - marginalEpsilon)

/-- A division of floats; `none` is NaN or an infinity. -/
noncomputable def floatDiv (a b : ℝ) : Option ℝ := if b = 0 then none else some (a / b)

/-- `tail_concentration` of one quantile, `_base.py` L303-315; `none` outside is the `ValueError`. -/
noncomputable def copulaConcentration (cdf : ℝ × ℝ → ℝ) (q : ℝ) : Option (Option ℝ) :=
  if 0 ≤ q ∧ q ≤ 1 then
    let c := cdf (clipMarginal q, clipMarginal q)
    some (if q ≤ 1 / 2 then floatDiv c q else floatDiv (1 - 2 * q + c) (1 - q))
  else none

end Skfolio.Copula
