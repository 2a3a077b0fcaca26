import Verif.Moments.CorrModel
import Mathlib.Algebra.BigOperators.Fin

/-!
Model of `EmpiricalMu.fit`, `src/skfolio/moments/expected_returns/_empirical_mu.py` L44-64; `EWMu.fit`, `_ew_mu.py` L50-70;
`EmpiricalCovariance.fit`, `moments/covariance/_empirical_covariance.py` L80-101; `EWCovariance.fit`, `_ew_covariance.py` L82-110.

The exponentially weighted mean and covariance are those of pandas (`ewm(alpha).mean()` and `.cov()` with their defaults `adjust=True`,
`bias=False`), modelled by the recursions that pandas runs, without missing values (`validate_data` refuses them). `np.cov` is modelled by
its formula; for one asset it returns an array without dimensions. Real arithmetic; `none` stands for NaN.
-/
set_option autoImplicit false

namespace Skfolio.Moments

open Matrix

variable {n : Nat}

/-- `X[-window_size:]`, or `X` for `None`: Python's slice, in particular all of `X` for 0 and `X` without its first `k` rows for `-k`. -/
def lastRows {A : Type} (window : Option Int) (rows : List A) : List A :=
  match window with
  | none => rows
  | some w => if 0 < w then rows.drop (rows.length - w.toNat) else rows.drop (-w).toNat

/-- `np.mean` of a column. -/
noncomputable def colMean (rows : List (Fin n → ℝ)) (i : Fin n) : ℝ := (rows.map (· i)).sum / rows.length

/-- `EmpiricalMu.fit`. -/
noncomputable def empiricalMu (window : Option Int) (rows : List (Fin n → ℝ)) : Option (Fin n → ℝ) :=
  let x := lastRows window rows
  if x = [] then none else some (colMean x)

inductive WindowErr where
  | alpha
  | empty
  | shape
  | notSymmetric
  | moment (e : MomentErr)

/-- One step of the exponentially weighted mean: the state is `old_wt` and the mean. -/
noncomputable def ewmStep (q : ℝ) (s : ℝ × ℝ) (cur : ℝ) : ℝ × ℝ :=
  let old := s.1 * q
  (old + 1, (old * s.2 + cur) / (old + 1))

/-- The last exponentially weighted mean of a column. -/
noncomputable def ewmMean (alpha : ℝ) : List ℝ → Option ℝ
  | [] => none
  | x :: xs => some (xs.foldl (ewmStep (1 - alpha)) (1, x)).2

/-- `EWMu.fit`: pandas refuses `alpha` outside `(0, 1]`, and `iloc[-1]` fails without rows. -/
noncomputable def ewMu (alpha : ℝ) (window : Option Int) (rows : List (Fin n → ℝ)) : Except WindowErr (Fin n → ℝ) :=
  open Classical in
  let x := lastRows window rows
  if ¬ (0 < alpha ∧ alpha ≤ 1) then .error .alpha
  else if x = [] then .error .empty
  else .ok fun i => (ewmMean alpha (x.map (· i))).getD 0

/-- The state of the exponentially weighted covariance. -/
structure EwmState where
  meanX : ℝ
  meanY : ℝ
  cov : ℝ
  sumWt : ℝ
  sumWt2 : ℝ
  oldWt : ℝ

/-- One step of the exponentially weighted covariance. -/
noncomputable def ewmCovStep (q : ℝ) (s : EwmState) (cur : ℝ × ℝ) : EwmState :=
  let old := s.oldWt * q
  let mx := (old * s.meanX + cur.1) / (old + 1)
  let my := (old * s.meanY + cur.2) / (old + 1)
  { meanX := mx, meanY := my,
    cov := (old * (s.cov + (s.meanX - mx) * (s.meanY - my)) + (cur.1 - mx) * (cur.2 - my)) / (old + 1),
    sumWt := s.sumWt * q + 1, sumWt2 := s.sumWt2 * (q * q) + 1, oldWt := old + 1 }

/-- The last exponentially weighted covariance of two columns, with the correction of the bias; NaN if the denominator is not positive. -/
noncomputable def ewmCov (alpha : ℝ) : List (ℝ × ℝ) → Option ℝ
  | [] => none
  | x :: xs =>
    let s := xs.foldl (ewmCovStep (1 - alpha)) ⟨x.1, x.2, 0, 1, 1, 1⟩
    open Classical in
    if s.sumWt * s.sumWt - s.sumWt2 ≤ 0 then none
    else some (s.sumWt * s.sumWt / (s.sumWt * s.sumWt - s.sumWt2) * s.cov)

/-- `_set_covariance` of a matrix that may be NaN everywhere: the sanity check lets NaN pass, `cov_nearest` refuses it as not symmetric. -/
noncomputable def setMaybe (isPD : Matrix (Fin n) (Fin n) ℝ → Bool) (eigh : Matrix (Fin n) (Fin n) ℝ → (Fin n → ℝ) × Matrix (Fin n) (Fin n) ℝ)
    (nearest higham : Bool) (maxIter : Nat) : Option (Matrix (Fin n) (Fin n) ℝ) → Except WindowErr (Option (Matrix (Fin n) (Fin n) ℝ))
  | none => if nearest then .error .notSymmetric else .ok none
  | some c =>
    match setCovariance isPD eigh nearest higham maxIter c with
    | .error e => .error (.moment e)
    | .ok c => .ok (some c)

/-- `EWCovariance.fit`. The denominators of all pairs are equal, so all entries are NaN or none is. -/
noncomputable def ewCovariance (isPD : Matrix (Fin n) (Fin n) ℝ → Bool) (eigh : Matrix (Fin n) (Fin n) ℝ → (Fin n → ℝ) × Matrix (Fin n) (Fin n) ℝ)
    (nearest higham : Bool) (maxIter : Nat) (alpha : ℝ) (window : Option Int) (rows : List (Fin n → ℝ)) :
    Except WindowErr (Option (Matrix (Fin n) (Fin n) ℝ)) :=
  open Classical in
  let x := lastRows window rows
  if ¬ (0 < alpha ∧ alpha ≤ 1) then .error .alpha
  else if x = [] then .error .empty
  else
    setMaybe isPD eigh nearest higham maxIter
      (if ∀ i j, (ewmCov alpha (x.map fun r => (r i, r j))).isSome then some (fun i j => (ewmCov alpha (x.map fun r => (r i, r j))).getD 0) else none)

/-- `np.cov(X.T, ddof)`: NaN or infinite if the number of observations is not larger than `ddof`. -/
noncomputable def npCov (ddof : Int) (rows : List (Fin n → ℝ)) : Option (Matrix (Fin n) (Fin n) ℝ) :=
  if (rows.length : Int) - ddof ≤ 0 then none
  else some fun i j => (rows.map fun r => (r i - colMean rows i) * (r j - colMean rows j)).sum / ((rows.length : ℝ) - ddof)

/-- `EmpiricalCovariance.fit`: for one asset, `np.diag` of the array without dimensions fails. -/
noncomputable def empiricalCovariance (isPD : Matrix (Fin n) (Fin n) ℝ → Bool) (eigh : Matrix (Fin n) (Fin n) ℝ → (Fin n → ℝ) × Matrix (Fin n) (Fin n) ℝ)
    (nearest higham : Bool) (maxIter : Nat) (ddof : Int) (window : Option Int) (rows : List (Fin n → ℝ)) :
    Except WindowErr (Option (Matrix (Fin n) (Fin n) ℝ)) :=
  if n = 1 then .error .shape
  else setMaybe isPD eigh nearest higham maxIter (npCov ddof (lastRows window rows))

end Skfolio.Moments
