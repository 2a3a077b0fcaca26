import Mathlib.Analysis.Real.Sqrt
import Mathlib.LinearAlgebra.Matrix.Defs
import Mathlib.Algebra.BigOperators.Fin
import Mathlib.Algebra.Field.Rat

/-! Model of `src/skfolio/optimization/naive/_naive.py` and of the weight generators of `src/skfolio/utils/stats.py`.

Numpy divisions by zero give infinities and NaN; here they give `none` (no finite weights). -/
set_option autoImplicit false

namespace Skfolio.Naive

variable {n : Nat}

/-- `w / sum(w)`: `none` if the sum is zero. -/
noncomputable def normalise (w : Fin n → ℝ) : Option (Fin n → ℝ) := if ∑ i, w i = 0 then none else some fun i => w i / ∑ j, w j

/-- `InverseVolatility.fit`, `_naive.py` L101-104, given the covariance of the prior. `np.sqrt` of a negative number is NaN and `1/0` is infinite: `none`. -/
noncomputable def inverseVolatility (cov : Matrix (Fin n) (Fin n) ℝ) : Option (Fin n → ℝ) :=
  if ∀ i, 0 < cov i i then normalise fun i => 1 / √(cov i i) else none

/-- `EqualWeighted.fit`, `_naive.py` L144-148: `np.ones(n_assets) / n_assets`. `validate_data` rejects data without assets. -/
noncomputable def equalWeighted (n : Nat) : Option (Fin n → ℝ) := if n = 0 then none else some fun _ => 1 / n

/-- `rand_weights_dirichlet`, `utils/stats.py` L126-142, used by `Random.fit`, `_naive.py` L188-192: `np.random.dirichlet` normalises independent exponential draws, here the parameter `draws`. -/
noncomputable def randWeightsDirichlet (draws : Fin n → ℝ) : Option (Fin n → ℝ) := normalise draws

/-- `rand_weights`, `utils/stats.py` L145-166: uniform draws, some of which are set to zero. `np.random.choice(n, zeros, replace=False)` (an error if `zeros > n`) is the parameter `chosen`. -/
noncomputable def randWeights (draws : Fin n → ℝ) (zeros : Nat) (chosen : Finset (Fin n)) : Option (Fin n → ℝ) :=
  let k := if 0 < zeros then fun i => if i ∈ chosen then 0 else draws i else draws
  normalise k

end Skfolio.Naive
