import Mathlib.Data.Real.Basic

/-! Model of the rotation helpers of `src/skfolio/distribution/copula/_utils.py`. The functions act row by row on arrays with two columns; the model has one row, a pair. -/
set_option autoImplicit false

namespace Skfolio.Copula

/-- `CopulaRotation`, L21-49. -/
inductive Rotation where
  | r0
  | r90
  | r180
  | r270
  deriving DecidableEq, Repr

section
variable {K : Type} [Ring K]

/-- `_apply_copula_rotation`, L341-380. -/
def applyRotation (r : Rotation) (x : K × K) : K × K :=
  match r with
  | .r0 => x
  | .r90 => (x.2, 1 - x.1)
  | .r180 => (1 - x.1, 1 - x.2)
  | .r270 => (1 - x.2, x.1)

/-- `_apply_margin_swap`, L383-406: the code swaps if `first_margin` is true (the docstring says the opposite). -/
def marginSwap (firstMargin : Bool) (x : K × K) : K × K := if firstMargin then (x.2, x.1) else x

/-- `_apply_rotation_cdf`, L409-449. -/
def rotationCdf (func : K × K → K) (r : Rotation) (x : K × K) : K :=
  let cdf := func (applyRotation r x)
  match r with
  | .r0 => cdf
  | .r90 => x.2 - cdf
  | .r180 => (x.1 + x.2) - 1 + cdf
  | .r270 => x.1 - cdf

/-- `_apply_rotation_partial_derivatives`, L452-509. -/
def rotationPartial (func : Bool → K × K → K) (r : Rotation) (firstMargin : Bool) (x : K × K) : K :=
  let rx := applyRotation r x
  match r with
  | .r0 => func firstMargin rx
  | .r90 => if firstMargin then func (!firstMargin) rx else 1 - func (!firstMargin) rx
  | .r180 => 1 - func firstMargin rx
  | .r270 => if firstMargin then 1 - func (!firstMargin) rx else func (!firstMargin) rx

end

/-- `_select_rotation_itau`, L237-269: `min` over a dict in the order of the enum; the first minimum. -/
noncomputable def selectRotationItau {X : Type} (func : X → ℝ) (rotate : Rotation → X) : Rotation :=
  [Rotation.r90, .r180, .r270].foldl (fun best r => if func (rotate r) < func (rotate best) then r else best) .r0

end Skfolio.Copula
