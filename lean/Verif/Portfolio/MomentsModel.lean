import Verif.Portfolio.ArithModel
import Verif.Moments.WindowModel
import Verif.Measures.ScaleTheorems

/-!
Model of the properties of `portfolio/_portfolio.py` that go from the moments of the assets to those of the portfolio: `diversification` L683-688,
`sric` L690-703, `expected_returns_from_assets` L729-747 (in `ArithModel`), `variance_from_assets` L749-763. Real arithmetic.
-/
set_option autoImplicit false

namespace Skfolio.Portfolio.FromAssets

open Skfolio.Portfolio.Arith Skfolio.Measures

variable {P : Type} {n : Nat}

/-- `variance_from_assets`: `weights @ assets_covariance @ weights.T`. `none` is the error of `@` on shapes that do not match. -/
noncomputable def varianceFromAssets (p : Ptf ℝ P) (cov : Matrix (Fin n) (Fin n) ℝ) : Option ℝ :=
  if p.weights.length = n then some (∑ i : Fin n, ∑ j : Fin n, p.weights.getD i 0 * cov i j * p.weights.getD j 0) else none

/-- `np.std` with its default `ddof=0`. -/
noncomputable def npStd (xs : List ℝ) : ℝ := Real.sqrt (mean (xs.map fun x => (x - mean xs) ^ 2))

/-- A column of `np.asarray(self.X)`. No entry is missing in a portfolio that could be built (C24): the default of `getD` is not reached. -/
def column (X : Panel ℝ) (i : Nat) : List ℝ := X.rows.map fun r => (r.getD i none).getD 0

/-- `diversification`, L683-688; `none` is the NaN or infinity of a portfolio without variance. -/
noncomputable def diversification (p : Ptf ℝ P) : Option ℝ :=
  if standardDeviation p.returns = 0 then none
  else some ((∑ i ∈ Finset.range p.X.nAssets, p.weights.getD i 0 * npStd (column p.X i)) / standardDeviation p.returns)

/-- `sric`, L690-703, as a function of the Sharpe ratio; `none` for the division by a zero ratio. -/
noncomputable def sric (p : Ptf ℝ P) (sharpe : ℝ) : Option ℝ :=
  if (p.returns.length : ℝ) * sharpe = 0 then none else some (sharpe - (p.X.nAssets : ℝ) / ((p.returns.length : ℝ) * sharpe))

end Skfolio.Portfolio.FromAssets
