import Verif.Copula.RotationModel
import Mathlib.Analysis.SpecialFunctions.Pow.Real

/-!
Model of the base functions of the Clayton, Gumbel and Joe copulas, `src/skfolio/distribution/copula/_clayton.py`, `_gumbel.py`, `_joe.py`.

`np.power` is the real power of a positive number. On the border of the square numpy's conventions for infinities apply: there a power with a negative exponent or a logarithm is
infinite and the distribution function is zero; the public methods clip their data to the inside (`_validate_X`, `_base.py` L66-79).
-/
set_option autoImplicit false

namespace Skfolio.Copula

/-! ### Clayton -/

/-- `_base_cdf`, `_clayton.py` L451-458. -/
noncomputable def claytonCdf (θ : ℝ) (x : ℝ × ℝ) : ℝ := if x.1 = 0 ∨ x.2 = 0 then 0 else (x.1 ^ (-θ) + x.2 ^ (-θ) - 1) ^ (-1 / θ)

/-- `_base_partial_derivative`, `_clayton.py` L461-498. -/
noncomputable def claytonPartial (θ : ℝ) (firstMargin : Bool) (x : ℝ × ℝ) : ℝ :=
  let x := marginSwap firstMargin x
  (1 + x.2 ^ θ * (x.1 ^ (-θ) - 1)) ^ (-(1 + 1 / θ))

/-- `_base_inverse_partial_derivative`, `_clayton.py` L501-539. -/
noncomputable def claytonInverse (θ : ℝ) (firstMargin : Bool) (x : ℝ × ℝ) : ℝ :=
  let x := marginSwap firstMargin x
  (1 + x.2 ^ (-θ) * (x.1 ^ (-θ / (θ + 1)) - 1)) ^ (-1 / θ)

/-- `_base_sample_scores`, `_clayton.py` L416-448: the logarithm of the density. `np.log1p(a)` is `log (1 + a)` and `np.expm1(a)` is `exp a - 1`. -/
noncomputable def claytonScore (θ : ℝ) (x : ℝ × ℝ) : ℝ :=
  let a := Real.log x.1
  let b := Real.log x.2
  Real.log (1 + θ) - (2 + 1 / θ) * Real.log (1 + ((Real.exp (-θ * a) - 1) + (Real.exp (-θ * b) - 1))) - (1 + θ) * (a + b)

/-! ### Gumbel -/

/-- `_base_cdf`, `_gumbel.py` L454-461. -/
noncomputable def gumbelCdf (θ : ℝ) (x : ℝ × ℝ) : ℝ :=
  if x.1 = 0 ∨ x.2 = 0 then 0 else Real.exp (-((-Real.log x.1) ^ θ + (-Real.log x.2) ^ θ) ^ (1 / θ))

/-- `_base_partial_derivative`, `_gumbel.py` L464-507. -/
noncomputable def gumbelPartial (θ : ℝ) (firstMargin : Bool) (x : ℝ × ℝ) : ℝ :=
  let x := marginSwap firstMargin x
  let a := -Real.log x.1
  let b := -Real.log x.2
  Real.exp (-(a ^ θ + b ^ θ) ^ (1 / θ)) * ((a / b) ^ θ + 1) ^ (1 / θ - 1) / x.2

/-- `_base_sample_scores`, `_gumbel.py` L422-451. -/
noncomputable def gumbelScore (θ : ℝ) (x : ℝ × ℝ) : ℝ :=
  let a := -Real.log x.1
  let b := -Real.log x.2
  let s := max ((a ^ θ + b ^ θ) ^ (1 / θ)) (1 / 10 ^ 10)
  (-s) + Real.log (s + θ - 1) + (1 - 2 * θ) * Real.log s + (θ - 1) * Real.log (a * b) + (a + b)

/-- One step of the loop of `_base_inverse_partial_derivative`, `_gumbel.py` L552-554. -/
noncomputable def gumbelStep (θ s x : ℝ) : ℝ := max (x * (s - (θ - 1) * (Real.log x - 1)) / (θ + x - 1)) x

/-- `_base_inverse_partial_derivative`, `_gumbel.py` L510-560, after `k` steps. The code makes at most 50 steps and stops early when no entry of the array moves by 1e-8. -/
noncomputable def gumbelInverse (θ : ℝ) (k : Nat) (firstMargin : Bool) (x : ℝ × ℝ) : ℝ :=
  let x := marginSwap firstMargin x
  let p := -Real.log x.1
  let v := -Real.log x.2
  let s := v + p + Real.log v * (θ - 1)
  let y := (gumbelStep θ s)^[k] v
  Real.exp (-(y ^ θ - v ^ θ) ^ (1 / θ))

/-! ### Joe -/

/-- `_base_cdf`, `_joe.py` L510-514. -/
noncomputable def joeCdf (θ : ℝ) (x : ℝ × ℝ) : ℝ := 1 - ((1 - x.1) ^ θ + (1 - x.2) ^ θ - (1 - x.1) ^ θ * (1 - x.2) ^ θ) ^ (1 / θ)

/-- `_base_partial_derivative`, `_joe.py` L517-546. -/
noncomputable def joePartial (θ : ℝ) (firstMargin : Bool) (x : ℝ × ℝ) : ℝ :=
  let x := marginSwap firstMargin x
  let a := (1 - x.1) ^ θ
  let b := (1 - x.2) ^ θ
  (1 + a / b - a) ^ (1 / θ - 1) * (1 - a)

/-- `_base_sample_scores`, `_joe.py` L439-473. -/
noncomputable def joeScore (θ : ℝ) (x : ℝ × ℝ) : ℝ :=
  let a := Real.log (1 - x.1)
  let b := Real.log (1 - x.2)
  let d := Real.exp (a * θ) + Real.exp (b * θ) - Real.exp ((a + b) * θ)
  (1 / θ - 2) * Real.log d + (a + b) * (θ - 1) + Real.log (θ - 1 + d)

/-- One step of the loop of `_base_inverse_partial_derivative`, `_joe.py` L594-602. -/
noncomputable def joeStep (θ p y x : ℝ) : ℝ :=
  let k := (x - 1) * y
  let w := ((1 / y - 1) * x + 1) ^ (1 / θ)
  min (max (x - θ * (k - x) * (p * (-k + x) + k * w) / ((y - 1) * k - θ * y) / w) 0) 1

/-- `_base_inverse_partial_derivative`, `_joe.py` L549-609, after `k` steps; see `gumbelInverse`. -/
noncomputable def joeInverse (θ : ℝ) (k : Nat) (firstMargin : Bool) (x : ℝ × ℝ) : ℝ :=
  let x := marginSwap firstMargin x
  let p := x.1
  let v := x.2
  let y := (1 - v) ^ θ
  let x0 := ((1 - v) * ((1 - p) ^ (1 / θ - 1) - 1) / y + 1) ^ (θ / (1 - θ))
  1 - ((joeStep θ p y)^[k] x0) ^ (1 / θ)

end Skfolio.Copula
