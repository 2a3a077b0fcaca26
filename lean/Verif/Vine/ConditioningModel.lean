import Verif.Vine.Model
import Mathlib.Data.EReal.Basic
import Mathlib.Analysis.SpecialFunctions.Log.Basic

/-!
The conditioning values of `VineCopula.sample` (V L676-838) and what becomes of the samples after the propagation (V L598-643). V is `distribution/multivariate/_vine_copula.py`.
-/
set_option autoImplicit false

namespace Skfolio.Vine

/-- The fitted marginal distribution of an asset: its distribution function and its quantile function. -/
structure Marginal where
  cdf : ℝ → ℝ
  ppf : ℝ → ℝ

/-- What `fit` stores about an asset: `_log_transform[i]`, and `marginal_distributions_[i]` if `fit_marginals`. -/
structure Asset where
  log : Bool
  marginal : Option Marginal

/-- The exceptions of `_init_conditioning` for the value of an asset; `overflow` is the `OverflowError` of `rng.uniform` for a range that is not finite. -/
inductive CondError where
  | tupleLength | boundsOrder | notNumber | arrayShape | overflow
  deriving DecidableEq

/-- A value of the dictionary `conditioning`. A bound is a number, plus or minus infinity, or `None`. -/
inductive CondValue where
  | tuple (bounds : List (Option EReal))
  | number (v : ℝ)
  | text
  | array (ndim : ℕ) (values : List ℝ)

/-- The entry of `conditioning_clean`: bounds, or the value of every sample. -/
inductive Clean where
  | bounds (lo hi : EReal)
  | values (v : List ℝ)

/-- `np.log1p` on the extended numbers; `none` is NaN. -/
noncomputable def log1p (x : EReal) : Option EReal :=
  if x = ⊤ then some ⊤ else if x < -1 then none else if x = -1 then some ⊥ else some ((Real.log (1 + x.toReal) : ℝ) : EReal)

/-- The transformation of a bound by `np.log1p`, V L793-797: an infinite bound on its own side is left alone (`inf` there is `-inf` for the lower and `inf` for the upper bound). -/
noncomputable def logBound (a : Asset) (inf x : EReal) : Option EReal := if a.log then (if x = inf then some x else log1p x) else some x

/-- The bounds as probabilities, V L799-806; `none` is NaN or infinite. The distribution function is 0 at minus infinity (which is `log1p(-1)`) and 1 at infinity. -/
noncomputable def uniformBound (a : Asset) (inf : EReal) (u : ℝ) (x : EReal) : Option ℝ :=
  match a.marginal with
  | some m => if x = inf then some u else if x = ⊥ then some 0 else if x = ⊤ then some 1 else some (m.cdf x.toReal)
  | none => if x = ⊤ ∨ x = ⊥ then none else some x.toReal

/-- The probability of a value, V L818-823 and L834-838; `none` is NaN. `log1p(-1)` is minus infinity, whose probability is taken as 0. -/
noncomputable def uniformValue (a : Asset) (v : ℝ) : Option ℝ :=
  (if a.log then log1p v else some (v : EReal)).bind fun x => match a.marginal with
    | some m => some (if x = ⊥ then 0 else m.cdf x.toReal)
    | none => if x = ⊥ then none else some x.toReal

/-- The loop body of `_init_conditioning`, V L775-836, for one asset: the entries of `conditioning_clean` and of `uniform_cond_samples`. `draws` are the numbers of `[0, 1)` that `rng.uniform` scales. The checks of the keys of the dictionary are not
modelled. -/
noncomputable def initOne (a : Asset) (nSamples : ℕ) (draws : List ℝ) : CondValue → Except CondError (Clean × List (Option ℝ))
  | .tuple [lo, hi] =>
    let lo := lo.getD ⊥
    let hi := hi.getD ⊤
    if hi ≤ lo then .error .boundsOrder
    else match (logBound a ⊥ lo).bind (uniformBound a ⊥ 0), (logBound a ⊤ hi).bind (uniformBound a ⊤ 1) with
      | some uLo, some uHi => .ok (.bounds lo hi, draws.map fun t => some (uLo + (uHi - uLo) * t))
      | _, _ => .error .overflow
  | .tuple _ => .error .tupleLength
  | .number v => .ok (.values (List.replicate nSamples v), List.replicate nSamples (uniformValue a v))
  | .text => .error .notNumber
  | .array ndim values => if ndim ≠ 1 ∨ values.length ≠ nSamples then .error .arrayShape else .ok (.values values, values.map (uniformValue a))

/-- The reversal of the log transformation, V L617-633: linear above `log 3`. -/
noncomputable def backTransform (y : ℝ) : ℝ := if y ≤ Real.log 3 then Real.exp y - 1 else Real.exp (Real.log 3) + (y - Real.log 3) - 1

/-- From the value of the root node to the scale of the returns, V L600-633. -/
noncomputable def toReturn (a : Asset) (eps u : ℝ) : ℝ :=
  let x := match a.marginal with
    | some m => m.ppf (clip eps u)
    | none => clip eps u
  if a.log then backTransform x else x

/-- `np.clip` with bounds that may be infinite. -/
noncomputable def clipBounds (lo hi : EReal) (x : ℝ) : ℝ := if hi < x then hi.toReal else if x < lo then lo.toReal else x

/-- The conditioning values forced back, V L635-643, for the `j`-th sample. -/
noncomputable def forceBack (c : Clean) (j : ℕ) (x : ℝ) : ℝ :=
  match c with
  | .bounds lo hi => clipBounds lo hi x
  | .values v => v.getD j 0

end Skfolio.Vine
