import Verif.Uncertainty.Ellipsoid
import Verif.Convex.RatioFindings
import Mathlib.Data.Fin.VecNotation
import Mathlib.Tactic.FinCases

/-!
**C63**: with an uncertainty set of expected returns, the expected return of `MeanRisk` is the least one over the set.

The model is `MeanRisk` of Verif/Convex/MeanRiskModel.lean, in which `uncertainty` are the radius and the square root of the shape (`_cvx_mu_uncertainty_set`, _base.py L1185-1206).
-/
set_option autoImplicit false

namespace Skfolio.Uncertainty

open Skfolio.Convex

section
variable {n T : Nat}

/-- Expected return of a portfolio if the expected returns of the assets are `mu`: after transaction costs and fees. -/
noncomputable def returnUnder (m : MeanRisk n T) (mu w : Fin n → ℝ) : ℝ :=
  (∑ i, w i * mu i) - (∑ i, |m.data.transactionCosts i| * |w i - m.data.previousWeights i|) - ∑ i, w i * m.data.managementFees i

/-- The expected returns in the uncertainty set around those of the prior. -/
def Plausible (m : MeanRisk n T) (kappa : ℝ) (S : Matrix (Fin n) (Fin n) ℝ) (mu : Fin n → ℝ) : Prop := mu ∈ Ellipsoid kappa S (m.overwrite.getD m.data.mu)

/-- **C63.** The expected return that `MeanRisk` uses is the least over the uncertainty set. -/
theorem C63_worst_case (m : MeanRisk n T) (kappa : ℝ) (hk : 0 ≤ kappa) (R S : Matrix (Fin n) (Fin n) ℝ) (hR : IsRoot R S) (hS : IsUnit S.det) (hu : m.uncertainty = some (kappa, R)) (w : Fin n → ℝ) :
    IsLeast {y | ∃ mu, Plausible m kappa S mu ∧ y = returnUnder m mu w} (netExpectedReturn m w) := by
  have h := least_on_ball kappa hk R hR.symmetric (m.overwrite.getD m.data.mu) w
  rw [← ellipsoid_eq kappa R S _ hR hS] at h
  have e : netExpectedReturn m w = ((∑ i, m.overwrite.getD m.data.mu i * w i) - kappa * Real.sqrt (∑ l, (∑ i, R l i * w i) ^ 2)) - (∑ i, |m.data.transactionCosts i| * |w i - m.data.previousWeights i|) - ∑ i, w i * m.data.managementFees i := by
    unfold netExpectedReturn muUncertainty
    rw [hu]
    simp only [mul_comm (w _) (m.overwrite.getD m.data.mu _)]
    ring
  obtain ⟨⟨mu, hmu, hv⟩, hmin⟩ := h
  dsimp only at hv
  constructor
  · refine ⟨mu, hmu, ?_⟩
    rw [e, ← hv, returnUnder]
    simp only [mul_comm (w _) (mu _)]
  · rintro _ ⟨mu', hmu', rfl⟩
    have := hmin ⟨mu', hmu', rfl⟩
    dsimp only at this
    rw [e, returnUnder]
    simp only [mul_comm (w _) (mu' _)]
    linarith

/-- **C63.** A minimum return is kept for every plausible vector of expected returns, and a portfolio that keeps it for all of them is not excluded by the constraint. -/
theorem C63_min_return (m : MeanRisk n T) (kappa : ℝ) (hk : 0 ≤ kappa) (R S : Matrix (Fin n) (Fin n) ℝ) (hR : IsRoot R S) (hS : IsUnit S.det) (hu : m.uncertainty = some (kappa, R)) (hs : 0 < m.scale) (w : Fin n → ℝ) :
    returnConstraint m w 1 ↔ ∀ x ∈ m.minReturns, ∀ mu, Plausible m kappa S mu → x ≤ returnUnder m mu w := by
  obtain ⟨⟨mu, hmu, hv⟩, hmin⟩ := C63_worst_case m kappa hk R S hR hS hu w
  have e := expected_one m w
  unfold returnConstraint
  constructor
  · intro h x hx mu' hmu'
    have h1 := h x hx
    rw [mul_one, ge_iff_le, mul_le_mul_iff_left₀ hs, e] at h1
    exact h1.trans (hmin ⟨mu', hmu', rfl⟩)
  · intro h x hx
    rw [mul_one, ge_iff_le, mul_le_mul_iff_left₀ hs, e, hv]
    exact h x hx mu hmu

/-- **C63.** Maximisation of the expected return is a maximisation of the least return over the uncertainty set: whatever the expected returns turn out to be within the set, every other
feasible portfolio has plausible expected returns under which it does no better. -/
theorem C63_maximize_return (m : MeanRisk n T) (kappa : ℝ) (hk : 0 ≤ kappa) (R S : Matrix (Fin n) (Fin n) ℝ) (hR : IsRoot R S) (hS : IsUnit S.det) (hu : m.uncertainty = some (kappa, R)) (hso : 0 < m.scaleObjective)
    (ho : m.objective = .maximizeReturn) (h1 : m.l1Coef = 0) (h2 : m.l2Coef = 0) (cs : List (Constraint ℝ n)) (w : Fin n → ℝ) (k : ℝ) (a : (riskProgram m m.riskMeasure w k).Aux) (h : IsOptimum m cs w k a)
    (w' : Fin n → ℝ) (a' : (riskProgram m m.riskMeasure w' 1).Aux) (h' : Feasible m cs w' 1 a') (mu : Fin n → ℝ) (hmu : Plausible m kappa S mu) :
    ∃ mu', Plausible m kappa S mu' ∧ returnUnder m mu' w' ≤ returnUnder m mu (returnedWeights w k) := by
  have hk1 : k = 1 := h.1.factor (by rw [ho]; decide)
  subst hk1
  have hw : returnedWeights w 1 = w := by
    funext i
    simp [returnedWeights]
  rw [hw]
  have hopt := h.2 w' 1 a' h'
  unfold objectiveValue at hopt
  simp only [ho, regularization, h1, h2, zero_mul, add_zero, sub_zero, neg_le_neg_iff] at hopt
  rw [mul_le_mul_iff_left₀ hso, expected_one, expected_one] at hopt
  obtain ⟨⟨mu', hmu', hv⟩, -⟩ := C63_worst_case m kappa hk R S hR hS hu w'
  refine ⟨mu', hmu', ?_⟩
  rw [← hv]
  exact hopt.trans ((C63_worst_case m kappa hk R S hR hS hu w).2 ⟨mu, hmu, rfl⟩)

/-! A concrete case: two assets, shape `diag(1/100, 4/100)`, radius 2. -/

noncomputable def ellipse : Matrix (Fin 2) (Fin 2) ℝ := Matrix.diagonal ![1 / 100, 4 / 100]
noncomputable def ellipseRoot : Matrix (Fin 2) (Fin 2) ℝ := Matrix.diagonal ![1 / 10, 2 / 10]

theorem ellipse_root : IsRoot ellipseRoot ellipse := by
  constructor
  · simp [ellipseRoot]
  · unfold ellipse ellipseRoot
    rw [Matrix.diagonal_mul_diagonal]
    congr 1
    funext i
    fin_cases i <;> norm_num

theorem ellipse_unit : IsUnit ellipse.det := by
  unfold ellipse
  rw [Matrix.det_diagonal, Fin.prod_univ_two]
  norm_num

/-- Equal weights, expected returns 2% and 0: in the worst case the expected return is `1% - 2 * sqrt(0.05² + 0.1²)`. -/
example : IsLeast {y | ∃ mu, Plausible { twoAssets (2 / 100) 0 longOnly with uncertainty := some (2, ellipseRoot) } 2 ellipse mu ∧ y = returnUnder (twoAssets (2 / 100) 0 longOnly) mu ![1 / 2, 1 / 2]} (1 / 100 - 2 * Real.sqrt (1 / 80)) := by
  have h := C63_worst_case { twoAssets (2 / 100) 0 longOnly with uncertainty := some (2, ellipseRoot) } 2 (by norm_num) ellipseRoot ellipse ellipse_root ellipse_unit rfl ![1 / 2, 1 / 2]
  have e : netExpectedReturn { twoAssets (2 / 100) 0 longOnly with uncertainty := some (2, ellipseRoot) } ![1 / 2, 1 / 2] = 1 / 100 - 2 * Real.sqrt (1 / 80) := by
    simp [netExpectedReturn, muUncertainty, twoAssets, ellipseRoot, Fin.sum_univ_two, Matrix.diagonal]
    norm_num
  rw [← e]
  exact h

end

end Skfolio.Uncertainty
