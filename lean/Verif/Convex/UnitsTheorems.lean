import Verif.Convex.RatioTheorems
import Verif.Convex.FrontierExamples
import Verif.Convex.RatioFindings
import Verif.Convex.RiskBudgetingModel
import Verif.Naive.Theorems

/-! **C113.** The weights do not depend on the unit of the returns. -/
set_option autoImplicit false

namespace Skfolio.Convex

open Skfolio.Measures

section
variable {n T : Nat}

/-- The data in a unit in which every return is `c` times as large: returns, expected returns, costs, fees and the risk-free rate. The previous weights are not returns. -/
def unitsData (c : ℝ) (d : Data ℝ n T) : Data ℝ n T where
  returns := fun t i => c * d.returns t i
  mu := fun i => c * d.mu i
  previousWeights := d.previousWeights
  transactionCosts := fun i => c * d.transactionCosts i
  managementFees := fun i => c * d.managementFees i
  riskFreeRate := c * d.riskFreeRate

/-- The minimum acceptable return in the unit. -/
def unitsMar (c : ℝ) : Mar ℝ n → Mar ℝ n
  | .default => .default
  | .scalar x => .scalar (c * x)
  | .vector v => .vector fun i => c * v i

/-- By how much the objective grows with the unit: a risk of degree 2 (variance, semi-variance) by the square. -/
noncomputable def unitsFactor (c : ℝ) (m : MeanRisk n T) : ℝ :=
  match m.objective with
  | .minimizeRisk => c ^ degree m.riskMeasure
  | .maximizeRatio => c ^ degree m.riskMeasure
  | .maximizeReturn => c
  | .maximizeUtility => c

/-- The problem in the unit: the data, the covariance, the limits that are returns or risks, and the coefficients that weigh returns, risks and weights against each other. The limits on weights stay. -/
noncomputable def inUnits (c : ℝ) (m : MeanRisk n T) : MeanRisk n T :=
  { m with
    data := unitsData c m.data
    cholesky := fun i j => c * m.cholesky i j
    minAcceptableReturn := unitsMar c m.minAcceptableReturn
    riskAversion := m.riskAversion * c / c ^ degree m.riskMeasure
    l1Coef := unitsFactor c m * m.l1Coef
    l2Coef := unitsFactor c m * m.l2Coef
    maxTrackingError := m.maxTrackingError.map (c * ·)
    benchmark := fun t => c * m.benchmark t
    minReturns := m.minReturns.map (c * ·)
    riskLimits := fun r => (m.riskLimits r).map (c ^ degree r * ·)
    uncertainty := m.uncertainty.map fun u => (u.1, fun l i => c * u.2 l i)
    overwrite := m.overwrite.map fun v i => c * v i }

theorem inUnits_inverse (c : ℝ) (hc : c ≠ 0) (m : MeanRisk n T) : inUnits c⁻¹ (inUnits c m) = m := by
  have hf : unitsFactor c⁻¹ (inUnits c m) * unitsFactor c m = 1 := by
    have : ∀ d : ℕ, c⁻¹ ^ d * c ^ d = 1 := fun d => by rw [← mul_pow, inv_mul_cancel₀ hc, one_pow]
    unfold unitsFactor inUnits
    cases m.objective
    · exact inv_mul_cancel₀ hc
    · exact this _
    · exact inv_mul_cancel₀ hc
    · exact this _
  have h1 : ∀ x : ℝ, c⁻¹ * (c * x) = x := fun x => by rw [← mul_assoc, inv_mul_cancel₀ hc, one_mul]
  have h2 : ∀ x : ℝ, unitsFactor c⁻¹ (inUnits c m) * (unitsFactor c m * x) = x := fun x => by rw [← mul_assoc, hf, one_mul]
  have h3 : ∀ (d : ℕ) (x : ℝ), c⁻¹ ^ d * (c ^ d * x) = x := fun d x => by rw [← mul_assoc, ← mul_pow, inv_mul_cancel₀ hc, one_pow, one_mul]
  have hd : unitsData c⁻¹ (unitsData c m.data) = m.data := by
    unfold unitsData
    simp only [h1]
  have hm : unitsMar c⁻¹ (unitsMar c m.minAcceptableReturn) = m.minAcceptableReturn := by
    cases m.minAcceptableReturn <;> simp only [unitsMar, h1]
  have hra : m.riskAversion * c / c ^ degree m.riskMeasure * c⁻¹ / c⁻¹ ^ degree m.riskMeasure = m.riskAversion := by
    have : c ^ degree m.riskMeasure ≠ 0 := pow_ne_zero _ hc
    rw [inv_pow]
    field_simp
  have e1 : ∀ o : Option ℝ, (o.map (c * ·)).map (c⁻¹ * ·) = o := fun o => by cases o <;> simp [h1]
  have e2 : ∀ r, ((m.riskLimits r).map (c ^ degree r * ·)).map (c⁻¹ ^ degree r * ·) = m.riskLimits r := fun r => by
    cases m.riskLimits r <;> simp only [Option.map_none, Option.map_some, h3]
  have e3 : (m.minReturns.map (c * ·)).map (c⁻¹ * ·) = m.minReturns := by
    rw [List.map_map]
    conv_rhs => rw [← List.map_id m.minReturns]
    exact List.map_congr_left fun x _ => h1 x
  have e4 : (m.uncertainty.map fun u => (u.1, fun l i => c * u.2 l i)).map (fun u => (u.1, fun l i => c⁻¹ * u.2 l i)) = m.uncertainty := by
    cases m.uncertainty <;> simp only [Option.map_none, Option.map_some, h1]
  have e5 : (m.overwrite.map fun v i => c * v i).map (fun v i => c⁻¹ * v i) = m.overwrite := by
    cases m.overwrite <;> simp only [Option.map_none, Option.map_some, h1]
  have hl1 : unitsFactor c⁻¹ (inUnits c m) * (inUnits c m).l1Coef = m.l1Coef := h2 _
  have hl2 : unitsFactor c⁻¹ (inUnits c m) * (inUnits c m).l2Coef = m.l2Coef := h2 _
  unfold inUnits at hl1 hl2 ⊢
  simp only [hd, hm, hra, e1, e2, e3, e4, e5, h1] at hl1 hl2 ⊢
  rw [hl1, hl2]

/-! ### The expressions in the unit are those of weights and scale times `c` -/

section
variable (c : ℝ) (d : Data ℝ n T) (w : Fin n → ℝ) (k : ℝ)

theorem ptf_units : ptfReturns (unitsData c d) w = ptfReturns d (scaled c w) := by
  funext t
  exact Finset.sum_congr rfl fun i _ => by simp only [unitsData, scaled]; ring

theorem cost_units : transactionCost (unitsData c d) w k = transactionCost d (scaled c w) (c * k) :=
  Finset.sum_congr rfl fun i _ => by
    congr 1
    simp only [unitsData, scaled]
    ring

theorem fee_units : managementFee (unitsData c d) w = managementFee d (scaled c w) :=
  Finset.sum_congr rfl fun i _ => by simp only [unitsData, scaled]; ring

theorem mar_units (a : Mar ℝ n) : ptfMar (unitsData c d) w (unitsMar c a) = ptfMar d (scaled c w) a := by
  funext t
  refine Finset.sum_congr rfl fun i _ => ?_
  have : marOf (unitsData c d) (unitsMar c a) i = c * marOf d a i := by cases a <;> rfl
  rw [this]
  simp only [unitsData, scaled]
  ring

theorem drawdown_units (s : ℝ) : drawdownFeasible (unitsData c d) w k s = drawdownFeasible d (scaled c w) (c * k) s := by
  funext v
  unfold drawdownFeasible
  rw [ptf_units, cost_units, fee_units]

end

theorem chol_units (c : ℝ) (z : Fin n → Fin n → ℝ) (w : Fin n → ℝ) (j : Fin n) : ∑ i, (c * z i j) * w i = ∑ i, z i j * scaled c w i :=
  Finset.sum_congr rfl fun i _ => by simp only [scaled]; ring

/-- The risk in the unit is the risk of weights and scale times `c`. -/
theorem program_units (c : ℝ) (m : MeanRisk n T) (r : RiskMeasure) (w : Fin n → ℝ) (k : ℝ) : riskProgram (inUnits c m) r w k = riskProgram m r (scaled c w) (c * k) := by
  cases r with
  | meanAbsoluteDeviation =>
    change madRisk (unitsData c m.data) w (unitsMar c m.minAcceptableReturn) m.scale = madRisk m.data (scaled c w) m.minAcceptableReturn m.scale
    unfold madRisk
    rw [mar_units]
  | firstLowerPartialMoment =>
    change flpmRisk (unitsData c m.data) w (unitsMar c m.minAcceptableReturn) k m.scale = flpmRisk m.data (scaled c w) m.minAcceptableReturn (c * k) m.scale
    unfold flpmRisk
    rw [mar_units, show (unitsData c m.data).riskFreeRate * k = m.data.riskFreeRate * (c * k) by simp only [unitsData]; ring]
  | standardDeviation =>
    change standardDeviationRisk (fun i j => c * m.cholesky i j) w m.scale = standardDeviationRisk m.cholesky (scaled c w) m.scale
    unfold standardDeviationRisk
    simp only [chol_units]
  | variance =>
    change varianceRisk (fun i j => c * m.cholesky i j) w m.scale = varianceRisk m.cholesky (scaled c w) m.scale
    unfold varianceRisk standardDeviationRisk
    simp only [chol_units]
  | semiVariance =>
    change semiVarianceRisk (unitsData c m.data) w (unitsMar c m.minAcceptableReturn) m.scale = semiVarianceRisk m.data (scaled c w) m.minAcceptableReturn m.scale
    unfold semiVarianceRisk
    rw [mar_units]
  | semiDeviation =>
    change semiDeviationRisk (unitsData c m.data) w (unitsMar c m.minAcceptableReturn) m.scale = semiDeviationRisk m.data (scaled c w) m.minAcceptableReturn m.scale
    unfold semiDeviationRisk
    rw [mar_units]
  | worstRealization =>
    change worstRealizationRisk (unitsData c m.data) w k m.scale = worstRealizationRisk m.data (scaled c w) (c * k) m.scale
    unfold worstRealizationRisk
    rw [ptf_units, cost_units, fee_units]
  | cvar =>
    change cvarRisk (unitsData c m.data) w k m.scale m.cvarBeta = cvarRisk m.data (scaled c w) (c * k) m.scale m.cvarBeta
    unfold cvarRisk
    rw [ptf_units, cost_units, fee_units]
  | evar =>
    change evarRisk (unitsData c m.data) w m.scale m.evarBeta = evarRisk m.data (scaled c w) m.scale m.evarBeta
    unfold evarRisk
    rw [ptf_units, fee_units]
  | maxDrawdown =>
    change maxDrawdownRisk (unitsData c m.data) w k m.scale = maxDrawdownRisk m.data (scaled c w) (c * k) m.scale
    unfold maxDrawdownRisk
    rw [drawdown_units]
  | averageDrawdown =>
    change averageDrawdownRisk (unitsData c m.data) w k m.scale = averageDrawdownRisk m.data (scaled c w) (c * k) m.scale
    unfold averageDrawdownRisk
    rw [drawdown_units]
  | cdar =>
    change cdarRisk (unitsData c m.data) w k m.scale m.cdarBeta = cdarRisk m.data (scaled c w) (c * k) m.scale m.cdarBeta
    unfold cdarRisk
    rw [drawdown_units]
  | edar =>
    change edarRisk (unitsData c m.data) w k m.scale m.edarBeta = edarRisk m.data (scaled c w) (c * k) m.scale m.edarBeta
    unfold edarRisk
    rw [drawdown_units]
  | ulcerIndex =>
    change ulcerIndexRisk (unitsData c m.data) w k m.scale = ulcerIndexRisk m.data (scaled c w) (c * k) m.scale
    unfold ulcerIndexRisk
    rw [drawdown_units]
  | giniMeanDifference =>
    change giniRisk (unitsData c m.data) w k m.scale = giniRisk m.data (scaled c w) (c * k) m.scale
    unfold giniRisk
    rw [ptf_units, cost_units, fee_units]

section
variable (c : ℝ) (hc : 0 < c) (m : MeanRisk n T)
include hc

/-- A point of the risk program is, in the unit and scaled by `l`, one of risk `(l c)^degree` times as large. -/
theorem program_up_units (r : RiskMeasure) (w : Fin n → ℝ) (k l : ℝ) (hl : 0 < l) (a : (riskProgram m r w k).Aux) (h : (riskProgram m r w k).feasible a) :
    ∃ b, (riskProgram (inUnits c m) r (scaled l w) (l * k)).feasible b ∧ (riskProgram (inUnits c m) r (scaled l w) (l * k)).risk b = (l * c) ^ degree r * (riskProgram m r w k).risk a := by
  rw [program_units]
  have e : scaled c (scaled l w) = scaled (l * c) w := by
    funext i
    simp only [scaled]
    ring
  rw [e, show c * (l * k) = l * c * k by ring]
  exact program_scaled m r w k (l * c) (mul_pos hl hc) a h

theorem expected_units (w : Fin n → ℝ) (k : ℝ) : expectedReturn (inUnits c m) w k = c * expectedReturn m w k := by
  rw [← expected_scaled m c hc]
  unfold expectedReturn
  have e1 : transactionCost (inUnits c m).data w k = transactionCost m.data (scaled c w) (c * k) := cost_units c m.data w k
  have e2 : managementFee (inUnits c m).data w = managementFee m.data (scaled c w) := fee_units c m.data w
  have e3 : ∑ i, returnVector (inUnits c m) i * w i = ∑ i, returnVector m i * scaled c w i := by
    refine Finset.sum_congr rfl fun i _ => ?_
    have : returnVector (inUnits c m) i = c * returnVector m i := by
      unfold returnVector inUnits
      cases m.overwrite <;> rfl
    rw [this]
    simp only [scaled]
    ring
  have e4 : muUncertainty (inUnits c m) w = muUncertainty m (scaled c w) := by
    unfold muUncertainty inUnits
    cases m.uncertainty with
    | none => rfl
    | some u =>
      obtain ⟨kappa, S⟩ := u
      simp only [Option.map_some]
      congr 3
      funext l
      congr 1
      exact Finset.sum_congr rfl fun i _ => by simp only [scaled]; ring
  rw [e1, e2, e3, e4]

theorem tracking_units (w : Fin n → ℝ) (k : ℝ) : trackingError (inUnits c m) w k = c * trackingError m w k := by
  unfold trackingError
  have e : ∀ t, ptfReturns (inUnits c m).data w t - (inUnits c m).benchmark t * k = c * (ptfReturns m.data w t - m.benchmark t * k) := by
    intro t
    have : ptfReturns (inUnits c m).data w = ptfReturns m.data (scaled c w) := ptf_units c m.data w
    rw [this, ptf_scaled]
    change c * _ - c * m.benchmark t * k = _
    ring
  simp only [e]
  rw [sqrt_scaled c hc]
  ring

theorem affine_units : isAffine (inUnits c m) ↔ isAffine m := by
  unfold isAffine
  have h1 : (∀ i, (inUnits c m).data.transactionCosts i = 0) ↔ ∀ i, m.data.transactionCosts i = 0 := by
    refine forall_congr' fun i => ?_
    change c * _ = 0 ↔ _
    rw [mul_eq_zero]
    exact ⟨fun h => h.resolve_left hc.ne', Or.inr⟩
  have h2 : (inUnits c m).uncertainty = none ↔ m.uncertainty = none := by
    change m.uncertainty.map _ = none ↔ _
    rw [Option.map_eq_none_iff]
  rw [h1, h2]

theorem objective_units (w : Fin n → ℝ) (k : ℝ) (a : (riskProgram m m.riskMeasure w k).Aux) (b : (riskProgram (inUnits c m) (inUnits c m).riskMeasure w k).Aux)
    (hab : (riskProgram (inUnits c m) (inUnits c m).riskMeasure w k).risk b = c ^ degree m.riskMeasure * (riskProgram m m.riskMeasure w k).risk a) :
    objectiveValue (inUnits c m) w k b = unitsFactor c m * objectiveValue m w k a := by
  have hp : c ^ degree m.riskMeasure ≠ 0 := (pow_pos hc _).ne'
  have hreg : regularization (inUnits c m) w = unitsFactor c m * regularization m w := by
    unfold regularization
    change unitsFactor c m * m.l1Coef * _ + unitsFactor c m * m.l2Coef * _ = _
    ring
  unfold objectiveValue
  simp only [hab, hreg, expected_units c hc m]
  change (match m.objective with | .maximizeReturn => _ | .minimizeRisk => _ | .maximizeUtility => _ | .maximizeRatio => _) = _
  have e1 : (inUnits c m).scaleObjective = m.scaleObjective := rfl
  have e2 : (inUnits c m).riskAversion = m.riskAversion * c / c ^ degree m.riskMeasure := rfl
  simp only [e1, e2]
  unfold unitsFactor
  cases m.objective
  · ring
  · ring
  · simp only
    field_simp
  · ring

theorem feasible_units (hh : m.objective = .maximizeRatio → homogenizationFactor (fun i => c * m.data.mu i) = c * homogenizationFactor m.data.mu) (cs : List (Constraint ℝ n))
    (w : Fin n → ℝ) (k : ℝ) (a : (riskProgram m m.riskMeasure w k).Aux) (h : Feasible m cs w k a) :
    ∃ b, Feasible (inUnits c m) cs w k b ∧ (riskProgram (inUnits c m) (inUnits c m).riskMeasure w k).risk b = c ^ degree m.riskMeasure * (riskProgram m m.riskMeasure w k).risk a := by
  have hup : ∀ r (a : (riskProgram m r w k).Aux), (riskProgram m r w k).feasible a →
      ∃ b, (riskProgram (inUnits c m) r w k).feasible b ∧ (riskProgram (inUnits c m) r w k).risk b = c ^ degree r * (riskProgram m r w k).risk a := by
    intro r a ha
    have := program_up_units c hc m r w k 1 one_pos a ha
    rwa [show scaled 1 w = w by funext i; simp [scaled], one_mul, one_mul] at this
  obtain ⟨b, hb, he⟩ := hup m.riskMeasure a h.aux
  refine ⟨b, ⟨h.factor, fun x hx => ?_, h.turnover, h.weight, fun x hx => ?_, fun r x hx => ?_, hb, fun hr => ?_⟩, he⟩
  · obtain ⟨y, hy, rfl⟩ := Option.map_eq_some_iff.1 (show m.maxTrackingError.map (c * ·) = some x from hx)
    rw [tracking_units c hc]
    change c * _ * m.scale ≤ c * y * m.scale
    rw [mul_assoc, mul_assoc]
    exact mul_le_mul_of_nonneg_left (h.tracking y hy) hc.le
  · obtain ⟨y, hy, rfl⟩ := List.mem_map.1 (show x ∈ m.minReturns.map (c * ·) from hx)
    rw [expected_units c hc]
    change c * y * k * m.scale ≤ c * _ * m.scale
    have := mul_le_mul_of_nonneg_left (h.return' y hy) hc.le
    calc c * y * k * m.scale = c * (y * k * m.scale) := by ring
      _ ≤ _ := this
      _ = _ := by ring
  · obtain ⟨y, hy, rfl⟩ := Option.map_eq_some_iff.1 (show (m.riskLimits r).map (c ^ degree r * ·) = some x from hx)
    obtain ⟨a1, ha1, ha2⟩ := h.risks r y hy
    obtain ⟨b1, hb1, hb2⟩ := hup r a1 ha1
    refine ⟨b1, hb1, ?_⟩
    rw [hb2]
    change _ * m.scale ≤ _ * k * m.scale
    have := mul_le_mul_of_nonneg_left ha2 (pow_pos hc (degree r)).le
    calc c ^ degree r * (riskProgram m r w k).risk a1 * m.scale = c ^ degree r * ((riskProgram m r w k).risk a1 * m.scale) := by ring
      _ ≤ _ := this
      _ = _ := by ring
  · have hr' : m.objective = .maximizeRatio := hr
    obtain ⟨h1, h2⟩ := h.ratio hr'
    have ehf : homogenizationFactor (inUnits c m).data.mu = c * homogenizationFactor m.data.mu := hh hr'
    have erf : (inUnits c m).data.riskFreeRate = c * m.data.riskFreeRate := rfl
    have es : (inUnits c m).scale = m.scale := rfl
    rw [affine_units c hc, expected_units c hc, ehf, erf, es]
    refine ⟨fun ha => ?_, fun ha => ?_⟩
    · have := h1 ha
      linear_combination c * this
    · have := mul_le_mul_of_nonneg_left (h2 ha) hc.le
      rw [ge_iff_le]
      calc c * homogenizationFactor m.data.mu * m.scale = c * (homogenizationFactor m.data.mu * m.scale) := by ring
        _ ≤ _ := this
        _ = _ := by ring

theorem factor_pos : 0 < unitsFactor c m := by
  unfold unitsFactor
  cases m.objective <;> first | exact hc | exact pow_pos hc _

theorem optimum_units (hh : m.objective = .maximizeRatio → homogenizationFactor (fun i => c * m.data.mu i) = c * homogenizationFactor m.data.mu) (cs : List (Constraint ℝ n))
    (w : Fin n → ℝ) (k : ℝ) (h : ∃ a, IsOptimum m cs w k a) : ∃ b, IsOptimum (inUnits c m) cs w k b := by
  obtain ⟨a, ha, hmin⟩ := h
  obtain ⟨b, hb, he⟩ := feasible_units c hc m hh cs w k a ha
  refine ⟨b, hb, fun w' k' b' hb' => ?_⟩
  have hh' : (inUnits c m).objective = .maximizeRatio → homogenizationFactor (fun i => c⁻¹ * (inUnits c m).data.mu i) = c⁻¹ * homogenizationFactor (inUnits c m).data.mu := by
    intro hr
    have e1 : (fun i => c⁻¹ * (inUnits c m).data.mu i) = m.data.mu := by
      funext i
      change c⁻¹ * (c * _) = _
      rw [← mul_assoc, inv_mul_cancel₀ hc.ne', one_mul]
    have e2 : homogenizationFactor (inUnits c m).data.mu = c * homogenizationFactor m.data.mu := hh hr
    rw [e1, e2, ← mul_assoc, inv_mul_cancel₀ hc.ne', one_mul]
  obtain ⟨a', ha', he'⟩ := feasible_units c⁻¹ (inv_pos.2 hc) (inUnits c m) hh' cs w' k' b' hb'
  have hobj := objective_units c⁻¹ (inv_pos.2 hc) (inUnits c m) w' k' b' a' he'
  have hf : unitsFactor c⁻¹ (inUnits c m) = (unitsFactor c m)⁻¹ := by
    unfold unitsFactor inUnits
    cases m.objective
    · rfl
    · exact inv_pow _ _
    · rfl
    · exact inv_pow _ _
  rw [hf] at hobj
  have hp := factor_pos c hc m
  have key : ∀ (m' : MeanRisk n T), m' = m → ∀ a' : (riskProgram m' m'.riskMeasure w' k').Aux, Feasible m' cs w' k' a' → objectiveValue m w k a ≤ objectiveValue m' w' k' a' := by
    rintro _ rfl a' ha'
    exact hmin w' k' a' ha'
  have := key _ (inUnits_inverse c hc.ne' m) a' ha'
  rw [hobj, inv_mul_eq_div, le_div_iff₀ hp] at this
  rw [objective_units c hc m w k a b he, mul_comm]
  exact this

/-- **C113.** The optimal solutions do not depend on the unit of the returns, for every risk measure, and every objective but the ratio. -/
theorem C113_mean_risk (hr : m.objective ≠ .maximizeRatio) (cs : List (Constraint ℝ n)) (w : Fin n → ℝ) (k : ℝ) :
    (∃ b, IsOptimum (inUnits c m) cs w k b) ↔ ∃ a, IsOptimum m cs w k a := by
  refine ⟨fun h => ?_, optimum_units c hc m (fun h => absurd h hr) cs w k⟩
  have key : ∀ m' : MeanRisk n T, m' = m → (∃ b, IsOptimum m' cs w k b) → ∃ a, IsOptimum m cs w k a := by
    rintro _ rfl h
    exact h
  exact key _ (inUnits_inverse c hc.ne' m) (optimum_units c⁻¹ (inv_pos.2 hc) (inUnits c m) (fun h => absurd h hr) cs w k h)

/-! ### The ratio -/

/-- The scale of the homogenised problem follows the mean of the expected returns only between its bounds. -/
noncomputable def unitsScale : ℝ := homogenizationFactor (fun i => c * m.data.mu i) / (c * homogenizationFactor m.data.mu)

theorem unitsScale_pos : 0 < unitsScale c m := div_pos (homogenization_pos _) (mul_pos hc (homogenization_pos _))

theorem feasible_units_ratio (hs : 0 < m.scale) (hr : m.objective = .maximizeRatio) (cs : List (Constraint ℝ n)) (hcs : getWeightConstraints m.weights (factorIsVariable m) true m.scale = .ok cs)
    (hm : isMip m.weights = false) (hte : m.maxTrackingError = none) (hvar : m.riskLimits .variance = none) (hsv : m.riskLimits .semiVariance = none)
    (w : Fin n → ℝ) (k : ℝ) (hk : 0 < k) (a : (riskProgram m m.riskMeasure w k).Aux) (h : Feasible m cs w k a) :
    ∃ b, Feasible (inUnits c m) cs (scaled (unitsScale c m) w) (unitsScale c m * k) b ∧
      (riskProgram (inUnits c m) (inUnits c m).riskMeasure (scaled (unitsScale c m) w) (unitsScale c m * k)).risk b = (unitsScale c m * c) ^ degree m.riskMeasure * (riskProgram m m.riskMeasure w k).risk a := by
  have hl := unitsScale_pos c hc m
  have hlc : unitsScale c m * c * homogenizationFactor m.data.mu = homogenizationFactor (fun i => c * m.data.mu i) := by
    unfold unitsScale
    have := (homogenization_pos m.data.mu).ne'
    have := hc.ne'
    field_simp
  generalize unitsScale c m = l at hl hlc
  obtain ⟨b, hb, he⟩ := program_up_units c hc m m.riskMeasure w k l hl a h.aux
  have hE : expectedReturn (inUnits c m) (scaled l w) (l * k) = l * c * expectedReturn m w k := by
    rw [expected_units c hc, expected_scaled m l hl]
    ring
  refine ⟨b, ⟨fun hn => absurd hr hn, fun x hx => ?_, fun x hx i => ?_, ?_, fun x hx => ?_, fun r x hx => ?_, hb, fun _ => ?_⟩, he⟩
  · have hx' : m.maxTrackingError.map (c * ·) = some x := hx
    rw [hte] at hx'
    cases hx'
  · have := mul_le_mul_of_nonneg_left (h.turnover x hx i) hl.le
    change |l * w i - m.data.previousWeights i * (l * k)| * m.scale ≤ x * (l * k) * m.scale
    rw [show l * w i - m.data.previousWeights i * (l * k) = l * (w i - m.data.previousWeights i * k) by ring, abs_mul, abs_of_pos hl]
    calc l * |w i - m.data.previousWeights i * k| * m.scale = l * (|w i - m.data.previousWeights i * k| * m.scale) := by ring
      _ ≤ _ := this
      _ = _ := by ring
  · have h1 := (C19_weight_limits m.weights _ true m.scale k hs hk w cs hcs hm).1 h.weight
    refine (C19_weight_limits m.weights _ true m.scale (l * k) hs (mul_pos hl hk) (scaled l w) cs hcs hm).2 ?_
    have e : (fun i => scaled l w i / (l * k)) = fun i => w i / k := by
      funext i
      simp only [scaled]
      exact mul_div_mul_left _ _ hl.ne'
    rw [e]
    exact h1
  · obtain ⟨y, hy, rfl⟩ := List.mem_map.1 (show x ∈ m.minReturns.map (c * ·) from hx)
    rw [hE]
    change c * y * (l * k) * m.scale ≤ l * c * _ * m.scale
    have := mul_le_mul_of_nonneg_left (h.return' y hy) (mul_pos hl hc).le
    calc c * y * (l * k) * m.scale = l * c * (y * k * m.scale) := by ring
      _ ≤ _ := this
      _ = _ := by ring
  · obtain ⟨y, hy, rfl⟩ := Option.map_eq_some_iff.1 (show (m.riskLimits r).map (c ^ degree r * ·) = some x from hx)
    have hd : degree r = 1 := by
      cases r <;> first | rfl | (rw [hvar] at hy; cases hy) | (rw [hsv] at hy; cases hy)
    obtain ⟨a1, ha1, ha2⟩ := h.risks r y hy
    obtain ⟨b1, hb1, hb2⟩ := program_up_units c hc m r w k l hl a1 ha1
    refine ⟨b1, hb1, ?_⟩
    rw [hb2]
    change _ * m.scale ≤ c ^ degree r * y * (l * k) * m.scale
    rw [hd, pow_one, pow_one]
    have := mul_le_mul_of_nonneg_left ha2 (mul_pos hl hc).le
    calc l * c * (riskProgram m r w k).risk a1 * m.scale = l * c * ((riskProgram m r w k).risk a1 * m.scale) := by ring
      _ ≤ _ := this
      _ = _ := by ring
  · obtain ⟨h1, h2⟩ := h.ratio hr
    have ehf : homogenizationFactor (inUnits c m).data.mu = l * c * homogenizationFactor m.data.mu := hlc.symm
    have erf : (inUnits c m).data.riskFreeRate = c * m.data.riskFreeRate := rfl
    have es : (inUnits c m).scale = m.scale := rfl
    rw [affine_units c hc, hE, ehf, erf, es]
    refine ⟨fun ha => ?_, fun ha => ?_⟩
    · have := h1 ha
      linear_combination l * c * this
    · have := mul_le_mul_of_nonneg_left (h2 ha) (mul_pos hl hc).le
      rw [ge_iff_le]
      calc l * c * homogenizationFactor m.data.mu * m.scale = l * c * (homogenizationFactor m.data.mu * m.scale) := by ring
        _ ≤ _ := this
        _ = _ := by ring

theorem objective_units_ratio (hr : m.objective = .maximizeRatio) (h1 : degree m.riskMeasure = 1 → m.l2Coef = 0) (h2 : degree m.riskMeasure = 2 → m.l1Coef = 0) (l : ℝ) (hl : 0 < l)
    (w : Fin n → ℝ) (k : ℝ) (a : (riskProgram m m.riskMeasure w k).Aux) (b : (riskProgram (inUnits c m) (inUnits c m).riskMeasure (scaled l w) (l * k)).Aux)
    (hab : (riskProgram (inUnits c m) (inUnits c m).riskMeasure (scaled l w) (l * k)).risk b = (l * c) ^ degree m.riskMeasure * (riskProgram m m.riskMeasure w k).risk a) :
    objectiveValue (inUnits c m) (scaled l w) (l * k) b = (l * c) ^ degree m.riskMeasure * objectiveValue m w k a := by
  have hreg : regularization (inUnits c m) (scaled l w) = (l * c) ^ degree m.riskMeasure * regularization m w := by
    have e : regularization (inUnits c m) (scaled l w) = unitsFactor c m * regularization m (scaled l w) := by
      unfold regularization
      change unitsFactor c m * m.l1Coef * _ + unitsFactor c m * m.l2Coef * _ = _
      ring
    have ef : unitsFactor c m = c ^ degree m.riskMeasure := by
      unfold unitsFactor
      rw [hr]
    rw [e, regularization_scaled m m.riskMeasure h1 h2 l hl, ef, mul_pow]
    ring
  have hr' : (inUnits c m).objective = .maximizeRatio := hr
  have e1 : (inUnits c m).scaleObjective = m.scaleObjective := rfl
  unfold objectiveValue
  simp only [hr, hr', hab, hreg, e1]
  ring

theorem optimum_units_ratio (hs : 0 < m.scale) (hr : m.objective = .maximizeRatio) (cs : List (Constraint ℝ n)) (hcs : getWeightConstraints m.weights (factorIsVariable m) true m.scale = .ok cs)
    (hm : isMip m.weights = false) (hte : m.maxTrackingError = none) (hvar : m.riskLimits .variance = none) (hsv : m.riskLimits .semiVariance = none)
    (h1 : degree m.riskMeasure = 1 → m.l2Coef = 0) (h2 : degree m.riskMeasure = 2 → m.l1Coef = 0)
    (lo hi : Fin n → ℝ) (hlo : m.weights.minWeights = some lo) (hhi : m.weights.maxWeights = some hi) (j : Fin n) (hj : lo j < hi j)
    (w : Fin n → ℝ) (k : ℝ) (h : ∃ a, IsOptimum m cs w k a) : ∃ b, IsOptimum (inUnits c m) cs (scaled (unitsScale c m) w) (unitsScale c m * k) b := by
  obtain ⟨a, ha, hmin⟩ := h
  have hk : 0 < k := C18_scale_positive m hs cs hr hcs lo hi hlo hhi j hj w k a ha
  obtain ⟨b, hb, he⟩ := feasible_units_ratio c hc m hs hr cs hcs hm hte hvar hsv w k hk a ha
  refine ⟨b, hb, fun w' k' b' hb' => ?_⟩
  have hk' : 0 < k' := C18_scale_positive (inUnits c m) hs cs hr hcs lo hi hlo hhi j hj w' k' b' hb'
  obtain ⟨a', ha', he'⟩ := feasible_units_ratio c⁻¹ (inv_pos.2 hc) (inUnits c m) hs hr cs hcs hm (by change m.maxTrackingError.map _ = none; rw [hte]; rfl)
    (by change (m.riskLimits .variance).map _ = none; rw [hvar]; rfl) (by change (m.riskLimits .semiVariance).map _ = none; rw [hsv]; rfl) w' k' hk' b' hb'
  have hl' := unitsScale_pos c⁻¹ (inv_pos.2 hc) (inUnits c m)
  have hobj := objective_units_ratio c⁻¹ (inv_pos.2 hc) (inUnits c m) hr
    (fun hd => by change unitsFactor c m * m.l2Coef = 0; rw [h1 hd, mul_zero]) (fun hd => by change unitsFactor c m * m.l1Coef = 0; rw [h2 hd, mul_zero]) _ hl' w' k' b' a' he'
  have hinv : unitsScale c⁻¹ (inUnits c m) * c⁻¹ = (unitsScale c m * c)⁻¹ := by
    have e1 : (fun i => c⁻¹ * (inUnits c m).data.mu i) = m.data.mu := by
      funext i
      change c⁻¹ * (c * _) = _
      rw [← mul_assoc, inv_mul_cancel₀ hc.ne', one_mul]
    have e2 : homogenizationFactor (inUnits c m).data.mu = homogenizationFactor fun i => c * m.data.mu i := rfl
    unfold unitsScale
    rw [e1, e2]
    have := (homogenization_pos m.data.mu).ne'
    have := (homogenization_pos fun i => c * m.data.mu i).ne'
    have := hc.ne'
    field_simp
  rw [hinv, inv_pow] at hobj
  have hp : 0 < (unitsScale c m * c) ^ degree m.riskMeasure := pow_pos (mul_pos (unitsScale_pos c hc m) hc) _
  have key : ∀ (m' : MeanRisk n T), m' = m → ∀ (w'' : Fin n → ℝ) (k'' : ℝ) (a' : (riskProgram m' m'.riskMeasure w'' k'').Aux), Feasible m' cs w'' k'' a' → objectiveValue m w k a ≤ objectiveValue m' w'' k'' a' := by
    rintro _ rfl w'' k'' a' ha'
    exact hmin w'' k'' a' ha'
  have := key _ (inUnits_inverse c hc.ne' m) _ _ a' ha'
  rw [hobj] at this
  have hd : degree (inUnits c m).riskMeasure = degree m.riskMeasure := rfl
  rw [hd, inv_mul_eq_div, le_div_iff₀ hp] at this
  rw [objective_units_ratio c hc m hr h1 h2 _ (unitsScale_pos c hc m) w k a b he, mul_comm]
  exact this

/-- **C113.** The same for the ratio: the weights returned do not depend on the unit, even though the internal scale of the problem is bounded and so does not follow the unit. Without a limit on
the tracking error or on a variance, whose limits are not homogenised, without numbers of assets, and with a penalty of the same degree as the risk. By `overwrite` it covers `MaximumDiversification`. -/
theorem C113_mean_risk_ratio (hs : 0 < m.scale) (hr : m.objective = .maximizeRatio) (cs : List (Constraint ℝ n)) (hcs : getWeightConstraints m.weights (factorIsVariable m) true m.scale = .ok cs)
    (hm : isMip m.weights = false) (hte : m.maxTrackingError = none) (hvar : m.riskLimits .variance = none) (hsv : m.riskLimits .semiVariance = none)
    (h1 : degree m.riskMeasure = 1 → m.l2Coef = 0) (h2 : degree m.riskMeasure = 2 → m.l1Coef = 0)
    (lo hi : Fin n → ℝ) (hlo : m.weights.minWeights = some lo) (hhi : m.weights.maxWeights = some hi) (j : Fin n) (hj : lo j < hi j) (x : Fin n → ℝ) :
    (∃ w k b, IsOptimum (inUnits c m) cs w k b ∧ returnedWeights w k = x) ↔ ∃ w k a, IsOptimum m cs w k a ∧ returnedWeights w k = x := by
  have hret : ∀ (l : ℝ), 0 < l → ∀ (w : Fin n → ℝ) (k : ℝ), returnedWeights (scaled l w) (l * k) = returnedWeights w k := by
    intro l hl w k
    funext i
    simp only [returnedWeights, scaled]
    exact mul_div_mul_left _ _ hl.ne'
  constructor
  · rintro ⟨w, k, b, h, rfl⟩
    have := optimum_units_ratio c⁻¹ (inv_pos.2 hc) (inUnits c m) hs hr cs hcs hm (by change m.maxTrackingError.map _ = none; rw [hte]; rfl)
      (by change (m.riskLimits .variance).map _ = none; rw [hvar]; rfl) (by change (m.riskLimits .semiVariance).map _ = none; rw [hsv]; rfl)
      (fun hd => by change unitsFactor c m * m.l2Coef = 0; rw [h1 hd, mul_zero]) (fun hd => by change unitsFactor c m * m.l1Coef = 0; rw [h2 hd, mul_zero]) lo hi hlo hhi j hj w k ⟨b, h⟩
    obtain ⟨l, hl⟩ : ∃ l, l = unitsScale c⁻¹ (inUnits c m) := ⟨_, rfl⟩
    have hl0 : 0 < l := hl ▸ unitsScale_pos c⁻¹ (inv_pos.2 hc) (inUnits c m)
    rw [← hl, inUnits_inverse c hc.ne' m] at this
    obtain ⟨a, ha⟩ := this
    exact ⟨_, _, a, ha, hret l hl0 w k⟩
  · rintro ⟨w, k, a, h, rfl⟩
    obtain ⟨b, hb⟩ := optimum_units_ratio c hc m hs hr cs hcs hm hte hvar hsv h1 h2 lo hi hlo hhi j hj w k ⟨a, h⟩
    exact ⟨_, _, b, hb, hret _ (unitsScale_pos c hc m) w k⟩

end

/-! ### Risk budgeting -/

/-- Risk budgeting in the unit: the budgets are shares, not returns. -/
noncomputable def budgetUnits (c : ℝ) (m : RiskBudgeting n T) : RiskBudgeting n T :=
  { base := inUnits c m.base, budget := m.budget, minReturn := m.minReturn.map (c * ·) }

theorem budgetUnits_inverse (c : ℝ) (hc : c ≠ 0) (m : RiskBudgeting n T) : budgetUnits c⁻¹ (budgetUnits c m) = m := by
  have h1 : ∀ x : ℝ, c⁻¹ * (c * x) = x := fun x => by rw [← mul_assoc, inv_mul_cancel₀ hc, one_mul]
  have h2 : (m.minReturn.map (c * ·)).map (c⁻¹ * ·) = m.minReturn := by cases m.minReturn <;> simp [h1]
  unfold budgetUnits
  simp only [inUnits_inverse c hc, h2]

section
variable (c : ℝ) (hc : 0 < c) (m : RiskBudgeting n T)
include hc

theorem budget_feasible_units (cs : List (Constraint ℝ n)) (w : Fin n → ℝ) (k v : ℝ) (a : (riskProgram m.base m.base.riskMeasure w (riskFactor m.base.riskMeasure k)).Aux) (h : BudgetFeasible m cs w k v a) :
    ∃ b, BudgetFeasible (budgetUnits c m) cs w k v b ∧ (riskProgram (budgetUnits c m).base (budgetUnits c m).base.riskMeasure w (riskFactor (budgetUnits c m).base.riskMeasure k)).risk b =
      c ^ degree m.base.riskMeasure * (riskProgram m.base m.base.riskMeasure w (riskFactor m.base.riskMeasure k)).risk a := by
  have := program_up_units c hc m.base m.base.riskMeasure w (riskFactor m.base.riskMeasure k) 1 one_pos a h.aux
  rw [show scaled 1 w = w by funext i; simp [scaled], one_mul, one_mul] at this
  obtain ⟨b, hb, he⟩ := this
  refine ⟨b, ⟨h.positive, h.budget, h.nonneg, h.weight, fun x hx => ?_, hb⟩, he⟩
  obtain ⟨y, hy, rfl⟩ := Option.map_eq_some_iff.1 (show m.minReturn.map (c * ·) = some x from hx)
  have e : budgetReturn (budgetUnits c m).base w k = c * budgetReturn m.base w k := by
    unfold budgetReturn
    have e1 : transactionCost (budgetUnits c m).base.data w k = c * transactionCost m.base.data w k := by
      rw [← cost_scaled m.base.data c hc]
      exact cost_units c m.base.data w k
    have e2 : managementFee (budgetUnits c m).base.data w = c * managementFee m.base.data w := by
      rw [← fee_scaled]
      exact fee_units c m.base.data w
    have e3 : ∑ i, (budgetUnits c m).base.data.mu i * w i = c * ∑ i, m.base.data.mu i * w i := by
      rw [Finset.mul_sum]
      exact Finset.sum_congr rfl fun i _ => mul_assoc _ _ _
    rw [e1, e2, e3]
    ring
  rw [e]
  change c * y * k * m.base.scale ≤ c * _ * m.base.scale
  have := mul_le_mul_of_nonneg_left (h.return' y hy) hc.le
  calc c * y * k * m.base.scale = c * (y * k * m.base.scale) := by ring
    _ ≤ _ := this
    _ = _ := by ring

theorem budget_optimum_units (cs : List (Constraint ℝ n)) (w : Fin n → ℝ) (k v : ℝ) (h : ∃ a, BudgetOptimum m cs w k v a) : ∃ b, BudgetOptimum (budgetUnits c m) cs w k v b := by
  obtain ⟨a, ha, hmin⟩ := h
  obtain ⟨b, hb, he⟩ := budget_feasible_units c hc m cs w k v a ha
  refine ⟨b, hb, fun w' k' v' b' hb' => ?_⟩
  obtain ⟨a', ha', he'⟩ := budget_feasible_units c⁻¹ (inv_pos.2 hc) (budgetUnits c m) cs w' k' v' b' hb'
  have key : ∀ (m' : RiskBudgeting n T), m' = m → ∀ a' : (riskProgram m'.base m'.base.riskMeasure w' (riskFactor m'.base.riskMeasure k')).Aux, BudgetFeasible m' cs w' k' v' a' →
      (riskProgram m.base m.base.riskMeasure w (riskFactor m.base.riskMeasure k)).risk a * m.base.scaleObjective ≤
        (riskProgram m'.base m'.base.riskMeasure w' (riskFactor m'.base.riskMeasure k')).risk a' * m.base.scaleObjective := by
    rintro _ rfl a' ha'
    exact hmin w' k' v' a' ha'
  have := key _ (budgetUnits_inverse c hc.ne' m) a' ha'
  rw [he', inv_pow, mul_assoc, inv_mul_eq_div, le_div_iff₀ (pow_pos hc _)] at this
  rw [he]
  calc c ^ degree m.base.riskMeasure * (riskProgram m.base m.base.riskMeasure w (riskFactor m.base.riskMeasure k)).risk a * m.base.scaleObjective
      = (riskProgram m.base m.base.riskMeasure w (riskFactor m.base.riskMeasure k)).risk a * m.base.scaleObjective * c ^ degree m.base.riskMeasure := by ring
    _ ≤ _ := this

/-- **C113.** The optimal solutions of risk budgeting do not depend on the unit of the returns. -/
theorem C113_risk_budgeting (cs : List (Constraint ℝ n)) (w : Fin n → ℝ) (k v : ℝ) : (∃ b, BudgetOptimum (budgetUnits c m) cs w k v b) ↔ ∃ a, BudgetOptimum m cs w k v a := by
  refine ⟨fun h => ?_, budget_optimum_units c hc m cs w k v⟩
  have key : ∀ m' : RiskBudgeting n T, m' = m → (∃ b, BudgetOptimum m' cs w k v b) → ∃ a, BudgetOptimum m cs w k v a := by
    rintro _ rfl h
    exact h
  exact key _ (budgetUnits_inverse c hc.ne' m) (budget_optimum_units c⁻¹ (inv_pos.2 hc) (budgetUnits c m) cs w k v h)

end

/-- **C113.** `InverseVolatility`: a covariance of returns times `c` is the covariance times `c²`. -/
theorem C113_inverse_volatility (c : ℝ) (hc : c ≠ 0) (cov : Matrix (Fin n) (Fin n) ℝ) : Naive.inverseVolatility (c ^ 2 • cov) = Naive.inverseVolatility cov :=
  Naive.C45_inverse_volatility_scale cov (c ^ 2) (by positivity)

/-! ### Examples -/

/-- Returns in percent instead of fractions, the return maximised: everything in the first asset, in both. -/
example : ∃ cs, getWeightConstraints longOnly false true (1 : ℝ) = .ok cs ∧ (∃ b, IsOptimum (inUnits 100 { frontierAssets (4 / 100) (2 / 100) with objective := .maximizeReturn }) cs ![1, 0] 1 b) ∧
    (inUnits 100 { frontierAssets (4 / 100) (2 / 100) with objective := .maximizeReturn }).data.mu = ![4, 2] := by
  obtain ⟨cs, hcs⟩ := frontier_ok
  refine ⟨cs, hcs, (C113_mean_risk 100 (by norm_num) _ (by simp) cs _ _).2 ⟨_, frontier_max (4 / 100) (2 / 100) (by norm_num) cs hcs⟩, ?_⟩
  funext i
  fin_cases i <;> norm_num [inUnits, unitsData, frontierAssets, twoAssets]

/-- The ratio in a unit in which the internal scale meets its lower bound: the weights are those of the original unit, 4/7 and 3/7. -/
example : ∃ cs, getWeightConstraints longOnly true true (1 : ℝ) = .ok cs ∧ (∃ w k b, IsOptimum (inUnits (1 / 1000) (twoAssets (4 / 100) (3 / 100) longOnly)) cs w k b ∧ returnedWeights w k = ![4 / 7, 3 / 7]) ∧
    homogenizationFactor (inUnits (1 / 1000) (twoAssets (4 / 100) (3 / 100) longOnly)).data.mu ≠ 1 / 1000 * homogenizationFactor (twoAssets (4 / 100) (3 / 100) longOnly).data.mu := by
  obtain ⟨cs, hcs⟩ := longOnly_ok
  refine ⟨cs, hcs, (C113_mean_risk_ratio (1 / 1000) (by norm_num) (twoAssets (4 / 100) (3 / 100) longOnly) one_pos rfl cs hcs rfl rfl rfl rfl (fun _ => rfl) (fun _ => rfl) _ _ rfl rfl 0 (by norm_num) _).2
    ⟨_, _, _, longOnly_optimum cs hcs, ?_⟩, ?_⟩
  · funext i
    fin_cases i <;> norm_num [returnedWeights]
  · rw [twoAssets_factor _ _ (by norm_num) (by norm_num)]
    have : homogenizationFactor (inUnits (1 / 1000) (twoAssets (4 / 100) (3 / 100) longOnly)).data.mu = 1 / 1000 := by
      unfold homogenizationFactor
      norm_num [inUnits, unitsData, twoAssets, Fin.sum_univ_two]
    rw [this]
    norm_num

end

end Skfolio.Convex
