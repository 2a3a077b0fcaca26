import Verif.Convex.MeanRiskModel

/-!
Model of the cache of CVXPY expressions across the fits of one estimator: `cache_method` (`src/skfolio/utils/tools.py` L118-124 and L264-307), `_clear_models_cache` (`optimization/convex/_base.py`
L569, L659-661, L1183) and `_cvx_drawdown` (L1415-1483).
-/
set_option autoImplicit false

namespace Skfolio.Convex

section
variable {n T : Nat}

/-- The measures whose programs call `_cvx_drawdown`, L1941, L1970, L2000, L2036, L2076. -/
def usesDrawdown : RiskMeasure → Bool
  | .maxDrawdown | .averageDrawdown | .cdar | .edar | .ulcerIndex => true
  | _ => false

/-- `_cvx_cache["__cvx_drawdown"]`: the keys of the calls made. A key is the hash of `(prior_model, w, factor)`; these are new objects in every fit, so a key is given by the number of the fit (hash collisions
are not modelled). `none`: there is no entry of this name. The other entries of the cache only avoid building an expression twice and are not modelled. -/
abbrev Cache := Option (List Nat)

/-- `__cvx_drawdown` through `cache_method`: the entry is created, and the key added. -/
def remember (c : Cache) (fit : Nat) : Cache :=
  let keys := c.getD []
  if fit ∈ keys then some keys else some (fit :: keys)

/-- `_cvx_drawdown`, L1480-1483: whether the constraints on the drawdowns are returned, and the cache after the call. -/
def cvxDrawdown (c : Cache) (fit : Nat) : Bool × Cache := (c.isNone, remember c fit)

/-- The calls for the risk measures in use, in order: for each, whether it returned the constraints. -/
def riskCalls (c : Cache) (fit : Nat) : List RiskMeasure → List Bool × Cache
  | [] => ([], c)
  | r :: l =>
    if usesDrawdown r then
      let (b, c') := cvxDrawdown c fit
      let (bs, c'') := riskCalls c' fit l
      (b :: bs, c'')
    else riskCalls c fit l

/-- The constraints on the drawdowns are in the problem. -/
def constrained (c : Cache) (fit : Nat) (used : List RiskMeasure) : Bool := (riskCalls c fit used).1.any id

/-- A fit of the estimator: the measures in use, and whether `_solve_problem` came to its end (L1183) or raised. -/
structure Fit where
  used : List RiskMeasure
  success : Bool

/-- The cache after the fits of an estimator; it starts empty (L569). -/
def cacheAfter : List Fit → Cache
  | [] => none
  | f :: earlier => if f.success then none else (riskCalls (cacheAfter earlier) earlier.length f.used).2

/-! ### The problem with a shared variable -/

/-- The variables of a drawdown risk besides `v`. -/
def OwnVars (T : Nat) : RiskMeasure → Type
  | .maxDrawdown => ℝ
  | .cdar => ℝ × (Fin T → ℝ)
  | .edar => ℝ × ℝ × (Fin T → ℝ)
  | _ => Unit

/-- The constraints of a drawdown risk besides those on `v`, L1942-1943, L2003-2006, L2039-2047. -/
def ownFeasible (s : ℝ) (r : RiskMeasure) (v : Fin (T + 1) → ℝ) (a : OwnVars T r) : Prop :=
  match r, a with
  | .maxDrawdown, (u : ℝ) => ∀ t : Fin T, u * s ≥ v t.succ * s
  | .cdar, (x : ℝ × (Fin T → ℝ)) => (∀ t, 0 ≤ x.2 t) ∧ ∀ t : Fin T, x.2 t * s ≥ v t.succ * s - x.1 * s
  | .edar, (x : ℝ × ℝ × (Fin T → ℝ)) => 0 ≤ x.2.1 ∧ (∑ t, x.2.2 t) * s ≤ x.2.1 * s ∧ ∀ t : Fin T, ExpCone (v t.succ * s - x.1 * s) (x.2.1 * s) (x.2.2 t * s)
  | _, _ => True

/-- The value of a drawdown risk, L1944, L1971, L2002, L2037-2038, L2077. -/
noncomputable def ownRisk (m : MeanRisk n T) (r : RiskMeasure) (v : Fin (T + 1) → ℝ) (a : OwnVars T r) : ℝ :=
  match r, a with
  | .maxDrawdown, (u : ℝ) => u
  | .averageDrawdown, _ => (∑ t : Fin T, v t.succ) / (T : ℝ)
  | .cdar, (x : ℝ × (Fin T → ℝ)) => x.1 + 1 / ((T : ℝ) * (1 - m.cdarBeta)) * ∑ t, x.2 t
  | .edar, (x : ℝ × ℝ × (Fin T → ℝ)) => x.1 + x.2.1 * Real.log (1 / ((T : ℝ) * (1 - m.edarBeta)))
  | .ulcerIndex, _ => Real.sqrt (∑ t : Fin T, v t.succ ^ 2) / Real.sqrt (T : ℝ)
  | _, _ => 0

/-- The drawdown risks in use are at most `limit`, in the problem as it is built: one variable `v` for all of them, with or without its constraints. -/
def sharedAtMost (m : MeanRisk n T) (withConstraints : Bool) (used : List RiskMeasure) (w : Fin n → ℝ) (k : ℝ) (limit : RiskMeasure → ℝ) : Prop :=
  ∃ v : Fin (T + 1) → ℝ, (withConstraints = true → drawdownFeasible m.data w k m.scale v) ∧
    ∀ r ∈ used, usesDrawdown r = true → ∃ a, ownFeasible m.scale r v a ∧ ownRisk m r v a ≤ limit r

end

end Skfolio.Convex
