import Verif.Moments.CorrModel

/-! Model of `GerberCovariance.fit`, `src/skfolio/moments/covariance/_gerber_covariance.py` L119-158. The window (`X[-window_size:]`) has been applied: `x` is what remains. -/
set_option autoImplicit false

namespace Skfolio.Moments

open Matrix

variable {T n : Nat}

/-- `X.std(axis=0)`, the population standard deviation. -/
noncomputable def std (x : Fin T → Fin n → ℝ) (i : Fin n) : ℝ := Real.sqrt ((∑ t, (x t i - (∑ t, x t i) / T) ^ 2) / T)

/-- `u`, L141, as 0 or 1. -/
noncomputable def up (x : Fin T → Fin n → ℝ) (thr : ℝ) : Matrix (Fin T) (Fin n) ℝ := fun t i => if x t i ≥ std x i * thr then 1 else 0

/-- `d`, L142. -/
noncomputable def down (x : Fin T → Fin n → ℝ) (thr : ℝ) : Matrix (Fin T) (Fin n) ℝ := fun t i => if x t i ≤ -(std x i) * thr then 1 else 0

/-- `n`, L143. -/
noncomputable def neutral (x : Fin T → Fin n → ℝ) (thr : ℝ) : Matrix (Fin T) (Fin n) ℝ :=
  fun t i => if ¬ (x t i ≥ std x i * thr) ∧ ¬ (x t i ≤ -(std x i) * thr) then 1 else 0

/-- `h`, L147-149. -/
noncomputable def hMat (x : Fin T → Fin n → ℝ) (thr : ℝ) : Matrix (Fin n) (Fin n) ℝ :=
  let u := up x thr
  let d := down x thr
  let concordant := uᵀ * u + dᵀ * d
  let discordant := uᵀ * d + dᵀ * u
  concordant - discordant

/-- `corr`, L150-154. -/
noncomputable def gerberCorr (psdVariant : Bool) (x : Fin T → Fin n → ℝ) (thr : ℝ) : Matrix (Fin n) (Fin n) ℝ :=
  let h := hMat x thr
  fun i j => if psdVariant then h i j / (T - ((neutral x thr)ᵀ * neutral x thr) i j) else h i j / (Real.sqrt (h i i) * Real.sqrt (h j j))

inductive GerberErr where
  /-- "The threshold must be between 0 and 1" -/
  | threshold
  | moment (e : MomentErr)

/-- `fit`, L119-158. -/
noncomputable def gerberFit (isPD : Matrix (Fin n) (Fin n) ℝ → Bool) (eigh : Matrix (Fin n) (Fin n) ℝ → (Fin n → ℝ) × Matrix (Fin n) (Fin n) ℝ) (nearest higham : Bool) (maxIter : Nat)
    (psdVariant : Bool) (thr : ℝ) (x : Fin T → Fin n → ℝ) : Except GerberErr (Matrix (Fin n) (Fin n) ℝ) :=
  open Classical in
  if ¬ (1 > thr ∧ thr > 0) then .error .threshold
  else match setCovariance isPD eigh nearest higham maxIter (corrToCov (gerberCorr psdVariant x thr) (std x)) with
    | .error e => .error (.moment e)
    | .ok c => .ok c

end Skfolio.Moments
