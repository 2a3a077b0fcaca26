import Verif.Convex.TradeOffTheorems
import Verif.Convex.RobustTheorems

/-!
**C119.** More caution gives more cautious portfolios: the size of the uncertainty set of the expected returns, the radius of the Wasserstein ball and the transaction costs.
-/
set_option autoImplicit false

namespace Skfolio.Convex

open Skfolio.Measures

section
variable {n T : Nat}

/-! ### Specification -/

/-- The uncertainty of the expected return of a portfolio, in units of the radius of the set: the length of `S w`, `S` being a square root of the shape matrix. -/
noncomputable def spread (S : Fin n → Fin n → ℝ) (w : Fin n → ℝ) : ℝ := Real.sqrt (∑ l, (∑ i, S l i * w i) ^ 2)

/-- The problem with an uncertainty set of the radius `kappa` and the shape `S`. -/
def withUncertainty (m : MeanRisk n T) (kappa : ℝ) (S : Fin n → Fin n → ℝ) : MeanRisk n T := { m with uncertainty := some (kappa, S) }

/-- The problem without an uncertainty set. -/
def withoutUncertainty (m : MeanRisk n T) : MeanRisk n T := { m with uncertainty := none }

/-- The problem with the same transaction cost for all assets. -/
def withCosts (m : MeanRisk n T) (c : ℝ) : MeanRisk n T := { m with data := { m.data with transactionCosts := fun _ => c } }

/-- What is traded. -/
noncomputable def traded (m : MeanRisk n T) (w : Fin n → ℝ) : ℝ := ∑ i, |w i - m.data.previousWeights i|

/-- The problem with another radius of the ball. -/
def withRadius (m : Robust n T) (ε : ℝ) : Robust n T := { m with radius := ε }

/-- `V` is the worst disutility (in the limit) of the portfolio under the distributions of the ball of radius `ε`. -/
def IsWorst (m : Robust n T) (ε : ℝ) (w : Fin n → ℝ) (V : ℝ) : Prop := IsLUB {y | ∃ P, InBall m.returns ε P ∧ y = disutility P m.cvarBeta m.riskAversion w} V

/-! ### The uncertainty set of the expected returns -/

theorem expected_uncertainty (m : MeanRisk n T) (kappa : ℝ) (S : Fin n → Fin n → ℝ) (w : Fin n → ℝ) :
    netExpectedReturn (withUncertainty m kappa S) w = netExpectedReturn (withoutUncertainty m) w - kappa * spread S w := by
  unfold netExpectedReturn
  change _ - kappa * spread S w = _ - 0 - kappa * spread S w
  rw [sub_zero]
  rfl

theorem criterion_uncertainty (m : MeanRisk n T) (R : (Fin n → ℝ) → ℝ) (ho : m.objective = .maximizeReturn ∨ m.objective = .maximizeUtility) (kappa : ℝ) (S : Fin n → Fin n → ℝ) (w : Fin n → ℝ) :
    criterion (withUncertainty m kappa S) R w = criterion (withoutUncertainty m) R w + kappa * spread S w := by
  have e := expected_uncertainty m kappa S w
  have o1 : (withUncertainty m kappa S).objective = m.objective := rfl
  have o2 : (withoutUncertainty m).objective = m.objective := rfl
  have r1 : (withUncertainty m kappa S).riskAversion = m.riskAversion := rfl
  have r2 : (withoutUncertainty m).riskAversion = m.riskAversion := rfl
  unfold criterion
  rw [o1, o2, r1, r2, e]
  rcases ho with ho | ho <;> rw [ho] <;> ring

section
variable (P : Partition ℝ) (m : MeanRisk n T) (hs : 0 < m.scale) (hso : 0 < m.scaleObjective) (hT : 2 ≤ T) (hb : BetasOk m) (cs : List (Constraint ℝ n)) (R : (Fin n → ℝ) → ℝ)
  (hR : IsRiskOf P m m.riskMeasure R)
include hs hso hT hb hR

/-- **C119.** A greater uncertainty set gives a portfolio whose expected return is no more uncertain, at the price of a criterion (by the plain expected returns) that is no better: `MAXIMIZE_RETURN` and
`MAXIMIZE_UTILITY`, without limits on the expected return. -/
theorem C119_uncertainty (ho : m.objective = .maximizeReturn ∨ m.objective = .maximizeUtility) (ha0 : 0 ≤ m.riskAversion) (hmin : m.minReturns = []) (S : Fin n → Fin n → ℝ) (c₁ c₂ : ℝ) (hc : c₁ < c₂)
    (w₁ w₂ : Fin n → ℝ) (k₁ k₂ : ℝ) (a₁ : (riskProgram m m.riskMeasure w₁ k₁).Aux) (a₂ : (riskProgram m m.riskMeasure w₂ k₂).Aux)
    (h₁ : IsOptimum (withUncertainty m c₁ S) cs w₁ k₁ a₁) (h₂ : IsOptimum (withUncertainty m c₂ S) cs w₂ k₂ a₂) :
    spread S (returnedWeights w₂ k₂) ≤ spread S (returnedWeights w₁ k₁) ∧
      (0 ≤ c₁ → criterion (withoutUncertainty m) R (returnedWeights w₁ k₁) + penalty m (returnedWeights w₁ k₁) ≤ criterion (withoutUncertainty m) R (returnedWeights w₂ k₂) + penalty m (returnedWeights w₂ k₂)) := by
  have hr : m.objective ≠ .maximizeRatio := by rcases ho with ho | ho <;> rw [ho] <;> decide
  obtain rfl : k₁ = 1 := h₁.1.factor hr
  obtain rfl : k₂ = 1 := h₂.1.factor hr
  rw [returned_one, returned_one]
  have hret : ∀ c w, returnConstraint (withUncertainty m c S) w 1 := by
    intro c w x hx
    have hx : x ∈ m.minReturns := hx
    rw [hmin] at hx
    cases hx
  have hf₁ : Feasible (withUncertainty m c₂ S) cs w₁ 1 a₁ := ⟨h₁.1.factor, h₁.1.tracking, h₁.1.turnover, h₁.1.weight, hret _ _, h₁.1.risks, h₁.1.aux, fun h => absurd h hr⟩
  have hf₂ : Feasible (withUncertainty m c₁ S) cs w₂ 1 a₂ := ⟨h₂.1.factor, h₂.1.tracking, h₂.1.turnover, h₂.1.weight, hret _ _, h₂.1.risks, h₂.1.aux, fun h => absurd h hr⟩
  have g₁ := optimum_criterion P (withUncertainty m c₁ S) hs hso hT hb cs R hR hr ha0 w₁ a₁ h₁ w₂ a₂ hf₂
  have g₂ := optimum_criterion P (withUncertainty m c₂ S) hs hso hT hb cs R hR hr ha0 w₂ a₂ h₂ w₁ a₁ hf₁
  rw [criterion_uncertainty m R ho, criterion_uncertainty m R ho] at g₁ g₂
  have e : ∀ c w, penalty (withUncertainty m c S) w = penalty m w := fun _ _ => rfl
  rw [e, e] at g₁ g₂
  exact parametric (F₁ := criterion (withoutUncertainty m) R w₁ + penalty m w₁) (F₂ := criterion (withoutUncertainty m) R w₂ + penalty m w₂) hc (by linarith) (by linarith)

/-- **C119.** A greater uncertainty set never gives a better worst case: the criterion, by the worst expected returns of the set, is no better. With limits on the (worst) expected return too, and for every objective other
than the ratio. -/
theorem C119_uncertainty_value (hr : m.objective ≠ .maximizeRatio) (ha0 : 0 ≤ m.riskAversion) (S : Fin n → Fin n → ℝ) (c₁ c₂ : ℝ) (hc : c₁ ≤ c₂)
    (w₁ w₂ : Fin n → ℝ) (k₁ k₂ : ℝ) (a₁ : (riskProgram m m.riskMeasure w₁ k₁).Aux) (a₂ : (riskProgram m m.riskMeasure w₂ k₂).Aux)
    (h₁ : IsOptimum (withUncertainty m c₁ S) cs w₁ k₁ a₁) (h₂ : IsOptimum (withUncertainty m c₂ S) cs w₂ k₂ a₂) :
    criterion (withUncertainty m c₁ S) R (returnedWeights w₁ k₁) + penalty m (returnedWeights w₁ k₁) ≤ criterion (withUncertainty m c₂ S) R (returnedWeights w₂ k₂) + penalty m (returnedWeights w₂ k₂) := by
  obtain rfl : k₁ = 1 := h₁.1.factor hr
  obtain rfl : k₂ = 1 := h₂.1.factor hr
  rw [returned_one, returned_one]
  have hle : netExpectedReturn (withUncertainty m c₂ S) w₂ ≤ netExpectedReturn (withUncertainty m c₁ S) w₂ := by
    rw [expected_uncertainty, expected_uncertainty]
    have h0 : 0 ≤ spread S w₂ := Real.sqrt_nonneg _
    have := mul_le_mul_of_nonneg_right hc h0
    linarith
  have hret : returnConstraint (withUncertainty m c₁ S) w₂ 1 := by
    intro x hx
    have := h₂.1.return' x hx
    rw [expected_one] at this ⊢
    exact this.trans (mul_le_mul_of_nonneg_right hle hs.le)
  have hf₂ : Feasible (withUncertainty m c₁ S) cs w₂ 1 a₂ := ⟨h₂.1.factor, h₂.1.tracking, h₂.1.turnover, h₂.1.weight, hret, h₂.1.risks, h₂.1.aux, fun h => absurd h hr⟩
  refine (optimum_criterion P (withUncertainty m c₁ S) hs hso hT hb cs R hR hr ha0 w₁ a₁ h₁ w₂ a₂ hf₂).trans (add_le_add_left ?_ _)
  unfold criterion
  change (match m.objective with
    | .minimizeRisk => R w₂
    | .maximizeReturn => -netExpectedReturn (withUncertainty m c₁ S) w₂
    | .maximizeUtility => -(netExpectedReturn (withUncertainty m c₁ S) w₂ - m.riskAversion * R w₂)
    | .maximizeRatio => 0) ≤ (match m.objective with
    | .minimizeRisk => R w₂
    | .maximizeReturn => -netExpectedReturn (withUncertainty m c₂ S) w₂
    | .maximizeUtility => -(netExpectedReturn (withUncertainty m c₂ S) w₂ - m.riskAversion * R w₂)
    | .maximizeRatio => 0)
  cases m.objective <;> simp only <;> linarith

end

/-- **C119.** An uncertainty set of radius 0 changes nothing (the ratio excepted, whose normalisation is an inequality when there is an uncertainty set). -/
theorem C119_no_uncertainty (m : MeanRisk n T) (hr : m.objective ≠ .maximizeRatio) (S : Fin n → Fin n → ℝ) (cs : List (Constraint ℝ n)) (w : Fin n → ℝ) (k : ℝ) (a : (riskProgram m m.riskMeasure w k).Aux) :
    IsOptimum (withUncertainty m 0 S) cs w k a ↔ IsOptimum (withoutUncertainty m) cs w k a := by
  have he : ∀ w' k', expectedReturn (withUncertainty m 0 S) w' k' = expectedReturn (withoutUncertainty m) w' k' := by
    intro w' k'
    unfold expectedReturn
    change _ - 0 * Real.sqrt _ = _ - 0
    rw [zero_mul]
    rfl
  have hf : ∀ w' k' (a' : (riskProgram m m.riskMeasure w' k').Aux), Feasible (withUncertainty m 0 S) cs w' k' a' ↔ Feasible (withoutUncertainty m) cs w' k' a' := by
    intro w' k' a'
    constructor
    · refine fun h => ⟨h.factor, h.tracking, h.turnover, h.weight, fun x hx => ?_, h.risks, h.aux, fun h => absurd h hr⟩
      rw [← he]
      exact h.return' x hx
    · refine fun h => ⟨h.factor, h.tracking, h.turnover, h.weight, fun x hx => ?_, h.risks, h.aux, fun h => absurd h hr⟩
      rw [he]
      exact h.return' x hx
  have hv : ∀ w' k' (a' : (riskProgram m m.riskMeasure w' k').Aux), objectiveValue (withUncertainty m 0 S) w' k' a' = objectiveValue (withoutUncertainty m) w' k' a' := by
    intro w' k' a'
    unfold objectiveValue
    simp only [he]
    rfl
  constructor
  · refine fun h => ⟨(hf w k a).1 h.1, fun w' k' a' h' => ?_⟩
    exact (hv w k a).symm.le.trans ((h.2 w' k' a' ((hf w' k' a').2 h')).trans (hv w' k' a').le)
  · refine fun h => ⟨(hf w k a).2 h.1, fun w' k' a' h' => ?_⟩
    exact (hv w k a).le.trans ((h.2 w' k' a' ((hf w' k' a').1 h')).trans (hv w' k' a').symm.le)

/-! ### Transaction costs -/

theorem expected_costs (m : MeanRisk n T) (c : ℝ) (hc : 0 ≤ c) (w : Fin n → ℝ) : netExpectedReturn (withCosts m c) w = netExpectedReturn (withCosts m 0) w - c * traded m w := by
  unfold netExpectedReturn traded
  change _ - (∑ i, |c| * |w i - m.data.previousWeights i|) - _ - _ = _ - (∑ i, |(0 : ℝ)| * |w i - m.data.previousWeights i|) - _ - _ - _
  simp only [abs_of_nonneg hc, abs_zero, zero_mul, Finset.sum_const_zero, ← Finset.mul_sum]
  change (∑ i, w i * m.overwrite.getD m.data.mu i) - _ - (∑ i, w i * m.data.managementFees i) - muUncertainty m w = (∑ i, w i * m.overwrite.getD m.data.mu i) - 0 - (∑ i, w i * m.data.managementFees i) - muUncertainty m w - _
  ring

theorem comparable_costs (P : Partition ℝ) (m : MeanRisk n T) (hmip : isMip m.weights = false) (hmin : m.minReturns = []) (hlim : ∀ r, m.riskLimits r = none) (c c' : ℝ) (v : Fin n → ℝ) (h : Within P (withCosts m c) v) :
    Comparable P (withCosts m c') v := by
  have hno : ∀ r x, (withCosts m c').riskLimits r = some x → False := by
    intro r x hx
    have hx : m.riskLimits r = some x := hx
    rw [hlim r] at hx
    cases hx
  refine ⟨⟨h.limits, h.cardinality, ⟨h.returns.turnover, fun x hx => ?_⟩, h.tracking, fun r x hx => (hno r x hx).elim⟩, fun r _ x hx => (hno r x hx).elim, fun hm => ?_⟩
  · have hx : x ∈ m.minReturns := hx
    rw [hmin] at hx
    cases hx
  · have hm : isMip m.weights = true := hm
    rw [hmip] at hm
    cases hm

section
variable (P : Partition ℝ) (m : MeanRisk n T) (hs : 0 < m.scale) (hso : 0 < m.scaleObjective) (hT : 2 ≤ T) (hb : BetasOk m) (cs : List (Constraint ℝ n))
  (hcs : getWeightConstraints m.weights (factorIsVariable m) true m.scale = .ok cs) (hmip : isMip m.weights = false) (hmin : m.minReturns = []) (hlim : ∀ r, m.riskLimits r = none)
  (c₁ c₂ : ℝ) (h0 : 0 ≤ c₁) (hc : c₁ < c₂)
include hs hso hT hb hcs hmip hmin hlim h0 hc

/-- **C119.** Greater transaction costs give a portfolio that trades no more, at the price of an expected return before costs (less penalty) that is no greater: `MAXIMIZE_RETURN` without limits on risk and return. -/
theorem C119_costs (ho : m.objective = .maximizeReturn) (R₁ R₂ : (Fin n → ℝ) → ℝ) (hR₁ : IsRiskOf P (withCosts m c₁) m.riskMeasure R₁) (hR₂ : IsRiskOf P (withCosts m c₂) m.riskMeasure R₂) (w₁ w₂ : Fin n → ℝ) (k₁ k₂ : ℝ)
    (a₁ : (riskProgram (withCosts m c₁) m.riskMeasure w₁ k₁).Aux) (a₂ : (riskProgram (withCosts m c₂) m.riskMeasure w₂ k₂).Aux) (h₁ : IsOptimum (withCosts m c₁) cs w₁ k₁ a₁) (h₂ : IsOptimum (withCosts m c₂) cs w₂ k₂ a₂) :
    traded m (returnedWeights w₂ k₂) ≤ traded m (returnedWeights w₁ k₁) ∧
      netExpectedReturn (withCosts m 0) (returnedWeights w₂ k₂) - penalty m (returnedWeights w₂ k₂) ≤ netExpectedReturn (withCosts m 0) (returnedWeights w₁ k₁) - penalty m (returnedWeights w₁ k₁) := by
  obtain ⟨i₁, g₁⟩ := C67_maximize_return P (withCosts m c₁) hs hso hT hb cs hcs R₁ hR₁ ho w₁ k₁ a₁ h₁
  obtain ⟨i₂, g₂⟩ := C67_maximize_return P (withCosts m c₂) hs hso hT hb cs hcs R₂ hR₂ ho w₂ k₂ a₂ h₂
  have g₁ := g₁ _ (comparable_costs P m hmip hmin hlim _ c₁ _ i₂)
  have g₂ := g₂ _ (comparable_costs P m hmip hmin hlim _ c₂ _ i₁)
  generalize returnedWeights w₁ k₁ = v₁ at *
  generalize returnedWeights w₂ k₂ = v₂ at *
  rw [expected_costs m c₁ h0, expected_costs m c₁ h0] at g₁
  rw [expected_costs m c₂ (h0.trans hc.le), expected_costs m c₂ (h0.trans hc.le)] at g₂
  have e : ∀ c v, penalty (withCosts m c) v = penalty m v := fun _ _ => rfl
  rw [e, e] at g₁ g₂
  obtain ⟨r₁, r₂⟩ := parametric (F₁ := penalty m v₁ - netExpectedReturn (withCosts m 0) v₁) (F₂ := penalty m v₂ - netExpectedReturn (withCosts m 0) v₂) (G₁ := traded m v₁) (G₂ := traded m v₂) hc (by linarith) (by linarith)
  exact ⟨r₁, by linarith [r₂ h0]⟩

/-- **C119.** The same for `MAXIMIZE_UTILITY` with a measure of the returns before costs (the variance, the lower partial moments, EVaR, ...): the portfolio trades no more, and its utility before costs (less penalty) is no greater. -/
theorem C119_costs_utility (ho : m.objective = .maximizeUtility) (ha0 : 0 ≤ m.riskAversion) (R : (Fin n → ℝ) → ℝ) (hR : ∀ c, IsRiskOf P (withCosts m c) m.riskMeasure R) (w₁ w₂ : Fin n → ℝ) (k₁ k₂ : ℝ)
    (a₁ : (riskProgram (withCosts m c₁) m.riskMeasure w₁ k₁).Aux) (a₂ : (riskProgram (withCosts m c₂) m.riskMeasure w₂ k₂).Aux) (h₁ : IsOptimum (withCosts m c₁) cs w₁ k₁ a₁) (h₂ : IsOptimum (withCosts m c₂) cs w₂ k₂ a₂) :
    traded m (returnedWeights w₂ k₂) ≤ traded m (returnedWeights w₁ k₁) ∧
      netExpectedReturn (withCosts m 0) (returnedWeights w₂ k₂) - m.riskAversion * R (returnedWeights w₂ k₂) - penalty m (returnedWeights w₂ k₂) ≤
        netExpectedReturn (withCosts m 0) (returnedWeights w₁ k₁) - m.riskAversion * R (returnedWeights w₁ k₁) - penalty m (returnedWeights w₁ k₁) := by
  obtain ⟨i₁, g₁⟩ := C67_maximize_utility P (withCosts m c₁) hs hso hT hb cs hcs R (hR c₁) ho ha0 w₁ k₁ a₁ h₁
  obtain ⟨i₂, g₂⟩ := C67_maximize_utility P (withCosts m c₂) hs hso hT hb cs hcs R (hR c₂) ho ha0 w₂ k₂ a₂ h₂
  have g₁ := g₁ _ (comparable_costs P m hmip hmin hlim _ c₁ _ i₂)
  have g₂ := g₂ _ (comparable_costs P m hmip hmin hlim _ c₂ _ i₁)
  generalize returnedWeights w₁ k₁ = v₁ at *
  generalize returnedWeights w₂ k₂ = v₂ at *
  rw [expected_costs m c₁ h0, expected_costs m c₁ h0] at g₁
  rw [expected_costs m c₂ (h0.trans hc.le), expected_costs m c₂ (h0.trans hc.le)] at g₂
  have e : ∀ c v, penalty (withCosts m c) v = penalty m v := fun _ _ => rfl
  have e' : ∀ c, (withCosts m c).riskAversion = m.riskAversion := fun _ => rfl
  rw [e, e, e'] at g₁ g₂
  obtain ⟨r₁, r₂⟩ := parametric (F₁ := penalty m v₁ + m.riskAversion * R v₁ - netExpectedReturn (withCosts m 0) v₁) (F₂ := penalty m v₂ + m.riskAversion * R v₂ - netExpectedReturn (withCosts m 0) v₂)
    (G₁ := traded m v₁) (G₂ := traded m v₂) hc (by linarith) (by linarith)
  exact ⟨r₁, by linarith [r₂ h0]⟩

end

/-! ### The Wasserstein ball -/

theorem robust_feasible_radius (m : Robust n T) (ε : ℝ) (w : Fin n → ℝ) (p : RobustAux n T) (h : RobustFeasible m w p) : RobustFeasible (withRadius m ε) w p := ⟨h.u, h.v, h.first, h.second, h.norm1, h.norm2⟩

theorem robust_feasible_radius' (m : Robust n T) (ε : ℝ) (w : Fin n → ℝ) (p : RobustAux n T) (h : RobustFeasible (withRadius m ε) w p) : RobustFeasible m w p := ⟨h.u, h.v, h.first, h.second, h.norm1, h.norm2⟩

section
variable (m : Robust n T) (hs : 0 < m.scale) (hso : 0 < m.scaleObjective) (hT : 0 < T) (hb0 : 0 ≤ m.cvarBeta) (hb : m.cvarBeta < 1) (hr : 0 ≤ m.riskAversion) (hret : ∀ i j, -1 ≤ m.returns i j)
  (cs : List (Constraint ℝ n)) (hcs : getWeightConstraints m.weights false true m.scale = .ok cs) (hm : isMip m.weights = false)
include hs hso hT hb0 hb hr hret hcs hm

theorem worst_value (ε : ℝ) (w : Fin n → ℝ) (p : RobustAux n T) (h : RobustOptimum (withRadius m ε) cs w p) (V : ℝ) (hV : IsWorst m ε w V) : V = ε * p.lb + 1 / (T : ℝ) * ∑ i, p.s i := by
  have h1 := (C62_optimal (withRadius m ε) hs hso hT hb0 hb hr hret cs hcs hm w p h).2.1
  have h2 := objective_value (withRadius m ε) hso p
  rw [h2] at h1
  exact hV.unique h1

/-- **C119.** A greater radius of the Wasserstein ball never gives a better worst case: the least worst disutility grows with the radius, and does so ever more slowly (it is concave in the radius). -/
theorem C119_radius (ε₁ ε₂ : ℝ) (hε : ε₁ ≤ ε₂) (w₁ w₂ : Fin n → ℝ) (p₁ p₂ : RobustAux n T) (h₁ : RobustOptimum (withRadius m ε₁) cs w₁ p₁) (h₂ : RobustOptimum (withRadius m ε₂) cs w₂ p₂) (V₁ V₂ : ℝ)
    (hV₁ : IsWorst m ε₁ w₁ V₁) (hV₂ : IsWorst m ε₂ w₂ V₂) :
    V₁ ≤ V₂ ∧ ∀ t, 0 ≤ t → t ≤ 1 → ∀ w p, RobustOptimum (withRadius m ((1 - t) * ε₁ + t * ε₂)) cs w p → ∀ V, IsWorst m ((1 - t) * ε₁ + t * ε₂) w V → (1 - t) * V₁ + t * V₂ ≤ V := by
  have e₁ := worst_value m hs hso hT hb0 hb hr hret cs hcs hm ε₁ w₁ p₁ h₁ V₁ hV₁
  have e₂ := worst_value m hs hso hT hb0 hb hr hret cs hcs hm ε₂ w₂ p₂ h₂ V₂ hV₂
  have least : ∀ ε w p, RobustOptimum (withRadius m ε) cs w p → ∀ w' p', (∀ c ∈ cs, c w' 1) → RobustFeasible m w' p' → ε * p.lb + 1 / (T : ℝ) * ∑ i, p.s i ≤ ε * p'.lb + 1 / (T : ℝ) * ∑ i, p'.s i := by
    intro ε w p h w' p' hc hf
    have := div_le_div_of_nonneg_right (h.2 w' p' hc (robust_feasible_radius m ε w' p' hf)) hso.le
    have i1 := objective_value (withRadius m ε) hso p
    have i2 := objective_value (withRadius m ε) hso p'
    change robustObjective (withRadius m ε) p / m.scaleObjective = _ at i1
    change robustObjective (withRadius m ε) p' / m.scaleObjective = _ at i2
    rw [i1, i2] at this
    exact this
  have lb0 : 0 ≤ p₂.lb := (norm_nonneg _).trans (le_of_mul_le_mul_right (h₂.1.2.norm1 ⟨0, hT⟩) hs)
  refine ⟨?_, fun t t0 t1 w p h V hV => ?_⟩
  · rw [e₁, e₂]
    exact (least ε₁ w₁ p₁ h₁ w₂ p₂ h₂.1.1 (robust_feasible_radius' m _ _ _ h₂.1.2)).trans (by linarith [mul_le_mul_of_nonneg_right hε lb0])
  · have e := worst_value m hs hso hT hb0 hb hr hret cs hcs hm _ w p h V hV
    have g₁ := mul_le_mul_of_nonneg_left (least ε₁ w₁ p₁ h₁ w p h.1.1 (robust_feasible_radius' m _ _ _ h.1.2)) (by linarith : 0 ≤ 1 - t)
    have g₂ := mul_le_mul_of_nonneg_left (least ε₂ w₂ p₂ h₂ w p h.1.1 (robust_feasible_radius' m _ _ _ h.1.2)) t0
    rw [e, e₁, e₂]
    nlinarith [g₁, g₂]

end

end

end Skfolio.Convex
