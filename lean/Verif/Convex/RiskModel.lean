import Verif.Measures.Spec
import Mathlib.Algebra.BigOperators.Fin
import Mathlib.Algebra.BigOperators.Field

/-!
Model of the risk programs of `src/skfolio/optimization/convex/_base.py`: for given weights `w` and scale `k` (`factor`), every
risk measure is a small convex program over auxiliary variables. A CVXPY constraint is a proposition about the values of the variables,
an expression is its value. Solver tolerances and float rounding are not modelled.
-/
set_option autoImplicit false

namespace Skfolio.Convex

section
variable {K : Type} [Field K] [LinearOrder K] {n T : Nat}

/-- What the risk programs read from the prior model and from the estimator's parameters (after `_clean_input`): `T` observations of `n` assets. -/
structure Data (K : Type) (n T : Nat) where
  returns : Fin T → Fin n → K
  mu : Fin n → K
  previousWeights : Fin n → K
  transactionCosts : Fin n → K
  managementFees : Fin n → K
  riskFreeRate : K

/-- `min_acceptable_return`: `None`, a number or one number per asset (L1405-1411). -/
inductive Mar (K : Type) (n : Nat) where
  | default
  | scalar (c : K)
  | vector (m : Fin n → K)

/-- A risk: the auxiliary variables, the constraints on them and the risk expression. -/
structure Program (K : Type) where
  Aux : Type
  feasible : Aux → Prop
  risk : Aux → K

/-- `_cvx_returns`, L1320-1338. -/
def ptfReturns (d : Data K n T) (w : Fin n → K) (t : Fin T) : K := ∑ i, d.returns t i * w i

/-- `_cvx_transaction_cost`, L1237-1284: the constant 0 if all costs are 0, else the 1-norm (a scalar cost is the constant vector). -/
def transactionCost (d : Data K n T) (w : Fin n → K) (k : K) : K :=
  ∑ i, |d.transactionCosts i * (d.previousWeights i * k - w i)|

/-- `_cvx_management_fee`, L1286-1317. -/
def managementFee (d : Data K n T) (w : Fin n → K) : K := ∑ i, d.managementFees i * w i

/-- The minimum acceptable return of asset `i`, L1404-1411. -/
def marOf (d : Data K n T) : Mar K n → Fin n → K
  | .default, i => d.mu i
  | .scalar c, _ => c
  | .vector m, i => m i

/-- `_cvx_min_acceptable_return`, L1380-1413: `(returns - min_acceptable_return) @ w`. -/
def ptfMar (d : Data K n T) (w : Fin n → K) (m : Mar K n) (t : Fin T) : K := ∑ i, (d.returns t i - marOf d m i) * w i

/-- `__cvx_drawdown`, L1415-1454: the constraints on `v`, a vector of `T + 1` values. `s` is `_scale_constraints`. -/
def drawdownFeasible (d : Data K n T) (w : Fin n → K) (k s : K) (v : Fin (T + 1) → K) : Prop :=
  (∀ t : Fin T, v t.succ * s ≥ v t.castSucc * s - ptfReturns d w t * s + transactionCost d w k * s + managementFee d w * s) ∧
  (∀ t : Fin T, v t.succ * s ≥ 0) ∧ v 0 * s = 0

/-- `_mean_absolute_deviation_risk`, L1520-1553. -/
def madRisk (d : Data K n T) (w : Fin n → K) (m : Mar K n) (s : K) : Program K where
  Aux := Fin T → K
  feasible := fun v => (∀ t, 0 ≤ v t) ∧ ∀ t, ptfMar d w m t * s ≥ -v t * s
  risk := fun v => 2 * (∑ t, v t) / (T : K)

/-- `_first_lower_partial_moment_risk`, L1555-1597. -/
def flpmRisk (d : Data K n T) (w : Fin n → K) (m : Mar K n) (k s : K) : Program K where
  Aux := Fin T → K
  feasible := fun v => (∀ t, 0 ≤ v t) ∧ ∀ t, d.riskFreeRate * k * s - ptfMar d w m t * s ≤ v t * s
  risk := fun v => (∑ t, v t) / (T : K)

/-- `_semi_variance_risk`, L1700-1735. -/
def semiVarianceRisk (d : Data K n T) (w : Fin n → K) (m : Mar K n) (s : K) : Program K where
  Aux := Fin T → K
  feasible := fun v => (∀ t, 0 ≤ v t) ∧ ∀ t, ptfMar d w m t * s ≥ -v t * s
  risk := fun v => (∑ t, v t ^ 2) / ((T : K) - 1)

/-- `_worst_realization_risk`, L1780-1815. -/
def worstRealizationRisk (d : Data K n T) (w : Fin n → K) (k s : K) : Program K where
  Aux := K
  feasible := fun v => ∀ t, -ptfReturns d w t * s + transactionCost d w k * s + managementFee d w * s ≤ v * s
  risk := fun v => v

/-- `_cvar_risk`, L1817-1860: the variables are `alpha` and `v`. -/
def cvarRisk (d : Data K n T) (w : Fin n → K) (k s beta : K) : Program K where
  Aux := K × (Fin T → K)
  feasible := fun x => (∀ t, 0 ≤ x.2 t) ∧
    ∀ t, ptfReturns d w t * s - transactionCost d w k * s - managementFee d w * s + x.1 * s + x.2 t * s ≥ 0
  risk := fun x => x.1 + 1 / ((T : K) * (1 - beta)) * ∑ t, x.2 t

/-- `_max_drawdown_risk`, L1919-1945: the variables are `v` of the drawdown and `u`. -/
def maxDrawdownRisk (d : Data K n T) (w : Fin n → K) (k s : K) : Program K where
  Aux := (Fin (T + 1) → K) × K
  feasible := fun x => drawdownFeasible d w k s x.1 ∧ ∀ t : Fin T, x.2 * s ≥ x.1 t.succ * s
  risk := fun x => x.2

/-- `_average_drawdown_risk`, L1947-1972. -/
def averageDrawdownRisk (d : Data K n T) (w : Fin n → K) (k s : K) : Program K where
  Aux := Fin (T + 1) → K
  feasible := drawdownFeasible d w k s
  risk := fun v => (∑ t : Fin T, v t.succ) / (T : K)

/-- `_cdar_risk`, L1974-2008: the variables are `v`, `alpha` and `z`. -/
def cdarRisk (d : Data K n T) (w : Fin n → K) (k s beta : K) : Program K where
  Aux := (Fin (T + 1) → K) × K × (Fin T → K)
  feasible := fun x => drawdownFeasible d w k s x.1 ∧ (∀ t, 0 ≤ x.2.2 t) ∧ ∀ t : Fin T, x.2.2 t * s ≥ x.1 t.succ * s - x.2.1 * s
  risk := fun x => x.2.1 + 1 / ((T : K) * (1 - beta)) * ∑ t, x.2.2 t

/-- `_ulcer_index_risk`, L2051-2079, squared: the code takes `norm(v[1:], 2) / sqrt(T)`. -/
def ulcerSquaredRisk (d : Data K n T) (w : Fin n → K) (k s : K) : Program K where
  Aux := Fin (T + 1) → K
  feasible := drawdownFeasible d w k s
  risk := fun v => (∑ t : Fin T, v t.succ ^ 2) / (T : K)

/-- `_gini_mean_difference_risk`, L2081-2133: the variables are `x`, `y` and `z`. The second constraint has no scale. -/
def giniRisk (d : Data K n T) (w : Fin n → K) (k s : K) : Program K where
  Aux := (Fin T → K) × (Fin T → K) × (Fin T → K)
  feasible := fun a =>
    (∀ t, ptfReturns d w t * s - transactionCost d w k * s - managementFee d w * s = a.2.2 t * s) ∧
    ∀ i j : Fin T, a.2.2 i * (Skfolio.Measures.owaGmdWeight T (j : Nat) / 2) ≤ a.1 j + a.2.1 i
  risk := fun a => 2 * ∑ t, (a.1 t + a.2.1 t)

end

end Skfolio.Convex
