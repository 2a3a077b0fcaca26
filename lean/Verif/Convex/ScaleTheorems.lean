import Verif.Convex.RatioFindings
import Verif.Convex.CustomModel
import Verif.Convex.Homogeneous
import Verif.Convex.FrontierExamples

/-!
**C114.** `scale_objective` and `scale_constraints`, and the scales chosen when they are not given, do not change the optimal solutions as long as they are positive.

Model of `_set_scale_objective` and `_set_scale_constraints`, `src/skfolio/optimization/convex/_base.py` L963-989, and of the defaults, `_mean_risk.py` L795-847.
-/
set_option autoImplicit false

namespace Skfolio.Convex

open Skfolio.Measures

section
variable {n T : Nat}

/-- The defaults of the two scales (objective, constraints), `_mean_risk.py` L820-847. `RiskBudgeting` and `DistributionallyRobustCVaR` use 1 for both (`_risk_budgeting.py` L480-481, `_distributionally_robust.py` L356-357). -/
noncomputable def defaultScales (o : Objective) (r : RiskMeasure) : ℝ × ℝ :=
  match o with
  | .maximizeRatio => (1, 1)
  | _ => match r with
    | .meanAbsoluteDeviation | .firstLowerPartialMoment | .cvar | .worstRealization | .averageDrawdown | .maxDrawdown | .cdar | .ulcerIndex => (1 / 10, 100)
    | .evar => (1, 1 / 100)
    | .edar => (1, 100)
    | _ => (1, 1)

/-- `_set_scale_objective` and `_set_scale_constraints`: what the user gives, else the default. -/
noncomputable def setScales (given : Option ℝ × Option ℝ) (m : MeanRisk n T) : MeanRisk n T :=
  { m with
    scaleObjective := given.1.getD (defaultScales m.objective m.riskMeasure).1
    scale := given.2.getD (defaultScales m.objective m.riskMeasure).2 }

theorem default_pos (o : Objective) (r : RiskMeasure) : 0 < (defaultScales o r).1 ∧ 0 < (defaultScales o r).2 := by
  cases o <;> cases r <;> norm_num [defaultScales]

/-! ### Each constraint is equivalent to the one without scale -/

section
variable (s : ℝ) (hs : 0 < s)
include hs

theorem le_unscaled (a b : ℝ) : (a * s ≤ b * s) = (a * 1 ≤ b * 1) := by
  rw [mul_le_mul_iff_left₀ hs, mul_one, mul_one]

theorem eq_unscaled (a b : ℝ) : (a * s = b * s) = (a * 1 = b * 1) := by
  refine propext ?_
  rw [mul_one, mul_one]
  exact ⟨fun h => mul_right_cancel₀ hs.ne' h, fun h => by rw [h]⟩

theorem drawdown_unscaled (d : Data ℝ n T) (w : Fin n → ℝ) (k : ℝ) : drawdownFeasible d w k s = drawdownFeasible d w k 1 := by
  funext v
  unfold drawdownFeasible
  have h1 : ∀ t : Fin T, (v t.succ * s ≥ v t.castSucc * s - ptfReturns d w t * s + transactionCost d w k * s + managementFee d w * s) =
      (v t.succ * 1 ≥ v t.castSucc * 1 - ptfReturns d w t * 1 + transactionCost d w k * 1 + managementFee d w * 1) := by
    intro t
    rw [ge_iff_le, ge_iff_le, ← sub_mul, ← add_mul, ← add_mul, le_unscaled s hs]
    simp only [mul_one]
  have h2 : ∀ t : Fin T, (v t.succ * s ≥ 0) = (v t.succ * 1 ≥ 0) := by
    intro t
    have := le_unscaled s hs 0 (v t.succ)
    simpa only [zero_mul] using this
  have h3 : (v 0 * s = 0) = (v 0 * 1 = 0) := by
    have := eq_unscaled s hs (v 0) 0
    simpa only [zero_mul] using this
  simp only [h1, h2, h3]

theorem cone_unscaled (x y z : ℝ) : ExpCone (x * s) (y * s) (z * s) = ExpCone (x * 1) (y * 1) (z * 1) := by
  refine propext ⟨fun h => ?_, fun h => ?_⟩
  · have := expCone_scaled s⁻¹ (inv_pos.2 hs) _ _ _ h
    have e : ∀ a : ℝ, s⁻¹ * (a * s) = a * 1 := fun a => by field_simp
    rwa [e, e, e] at this
  · have := expCone_scaled s hs _ _ _ h
    have e : ∀ a : ℝ, s * (a * 1) = a * s := fun a => by ring
    rwa [e, e, e] at this

theorem norm_unscaled {m : Nat} (f : Fin m → ℝ) (v : ℝ) : (Real.sqrt (∑ j, (f j * s) ^ 2) ≤ v * s) = (Real.sqrt (∑ j, (f j * 1) ^ 2) ≤ v * 1) := by
  have e : Real.sqrt (∑ j, (f j * s) ^ 2) = Real.sqrt (∑ j, (f j * 1) ^ 2) * s := by
    have := sqrt_scaled s hs f
    simp only [mul_one]
    rw [mul_comm, ← this]
    congr 1
    exact Finset.sum_congr rfl fun j _ => by rw [mul_comm]
  rw [e, le_unscaled s hs, mul_one]

end

/-- The risk programs do not depend on the scale. -/
theorem program_unscaled (m : MeanRisk n T) (hs : 0 < m.scale) (r : RiskMeasure) (w : Fin n → ℝ) (k : ℝ) : riskProgram m r w k = riskProgram { m with scale := 1 } r w k := by
  have hmar : ∀ (v : Fin T → ℝ) t, (ptfMar m.data w m.minAcceptableReturn t * m.scale ≥ -v t * m.scale) = (ptfMar m.data w m.minAcceptableReturn t * 1 ≥ -v t * 1) :=
    fun v t => le_unscaled m.scale hs _ _
  cases r with
  | meanAbsoluteDeviation =>
    change madRisk m.data w m.minAcceptableReturn m.scale = madRisk m.data w m.minAcceptableReturn 1
    unfold madRisk
    simp only [hmar]
  | firstLowerPartialMoment =>
    change flpmRisk m.data w m.minAcceptableReturn k m.scale = flpmRisk m.data w m.minAcceptableReturn k 1
    unfold flpmRisk
    simp only [← sub_mul, le_unscaled m.scale hs]
  | standardDeviation =>
    change standardDeviationRisk m.cholesky w m.scale = standardDeviationRisk m.cholesky w 1
    unfold standardDeviationRisk
    simp only [norm_unscaled m.scale hs]
  | variance =>
    change varianceRisk m.cholesky w m.scale = varianceRisk m.cholesky w 1
    unfold varianceRisk standardDeviationRisk
    simp only [norm_unscaled m.scale hs]
  | semiVariance =>
    change semiVarianceRisk m.data w m.minAcceptableReturn m.scale = semiVarianceRisk m.data w m.minAcceptableReturn 1
    unfold semiVarianceRisk
    simp only [hmar]
  | semiDeviation =>
    change semiDeviationRisk m.data w m.minAcceptableReturn m.scale = semiDeviationRisk m.data w m.minAcceptableReturn 1
    unfold semiDeviationRisk
    simp only [hmar]
  | worstRealization =>
    change worstRealizationRisk m.data w k m.scale = worstRealizationRisk m.data w k 1
    unfold worstRealizationRisk
    simp only [← add_mul, le_unscaled m.scale hs]
  | cvar =>
    change cvarRisk m.data w k m.scale m.cvarBeta = cvarRisk m.data w k 1 m.cvarBeta
    unfold cvarRisk
    have : ∀ x : ℝ, (x * m.scale ≥ 0) = (x * 1 ≥ 0) := fun x => by simpa only [zero_mul] using le_unscaled m.scale hs 0 x
    simp only [← sub_mul, ← add_mul, this]
  | evar =>
    change evarRisk m.data w m.scale m.evarBeta = evarRisk m.data w 1 m.evarBeta
    unfold evarRisk
    simp only [← sub_mul, ← add_mul, le_unscaled m.scale hs, cone_unscaled m.scale hs]
  | maxDrawdown =>
    change maxDrawdownRisk m.data w k m.scale = maxDrawdownRisk m.data w k 1
    unfold maxDrawdownRisk
    simp only [drawdown_unscaled m.scale hs, ge_iff_le, le_unscaled m.scale hs]
  | averageDrawdown =>
    change averageDrawdownRisk m.data w k m.scale = averageDrawdownRisk m.data w k 1
    unfold averageDrawdownRisk
    rw [drawdown_unscaled m.scale hs]
  | cdar =>
    change cdarRisk m.data w k m.scale m.cdarBeta = cdarRisk m.data w k 1 m.cdarBeta
    unfold cdarRisk
    simp only [drawdown_unscaled m.scale hs, ge_iff_le, ← sub_mul, le_unscaled m.scale hs]
  | edar =>
    change edarRisk m.data w k m.scale m.edarBeta = edarRisk m.data w k 1 m.edarBeta
    unfold edarRisk
    simp only [drawdown_unscaled m.scale hs, ← sub_mul, le_unscaled m.scale hs, cone_unscaled m.scale hs]
  | ulcerIndex =>
    change ulcerIndexRisk m.data w k m.scale = ulcerIndexRisk m.data w k 1
    unfold ulcerIndexRisk
    rw [drawdown_unscaled m.scale hs]
  | giniMeanDifference =>
    change giniRisk m.data w k m.scale = giniRisk m.data w k 1
    unfold giniRisk
    simp only [← sub_mul, eq_unscaled m.scale hs]

/-- **C114.** Nor do the constraints on the weights, nor whether the parameters are refused. -/
theorem C114_weight_constraints (p : Params ℝ n) (fv al : Bool) (s : ℝ) (hs : 0 < s) : getWeightConstraints p fv al s = getWeightConstraints p fv al 1 := by
  have hz : ∀ x : ℝ, (x * s ≤ 0) = (x * 1 ≤ 0) := fun x => by simpa only [zero_mul] using le_unscaled s hs x 0
  have hz' : ∀ x : ℝ, (x * s = 0) = (x * 1 = 0) := fun x => by simpa only [zero_mul] using eq_unscaled s hs x 0
  have e1 : minConstraint p al s = minConstraint p al 1 := by unfold minConstraint; simp only [ge_iff_le, le_unscaled s hs]
  have e2 : maxConstraint p s = maxConstraint p 1 := by unfold maxConstraint; simp only [le_unscaled s hs]
  have e3 : longConstraint p s = longConstraint p 1 := by unfold longConstraint; simp only [le_unscaled s hs]
  have e4 : shortConstraint p s = shortConstraint p 1 := by unfold shortConstraint; simp only [le_unscaled s hs]
  have e5 : budgetBounds p s = budgetBounds p 1 := by unfold budgetBounds; simp only [ge_iff_le, le_unscaled s hs]
  have e6 : budgetConstraint p s = budgetConstraint p 1 := by unfold budgetConstraint; simp only [eq_unscaled s hs]
  have e7 : linearConstraints p s = linearConstraints p 1 := by unfold linearConstraints; simp only [← sub_mul, hz, hz']
  have e8 : ∀ a b c, mipNoShort p a b c fv s = mipNoShort p a b c fv 1 := fun a b c => by unfold mipNoShort; simp only [ge_iff_le, le_unscaled s hs]
  have e9 : ∀ a b c d, mipShort p a b c d fv s = mipShort p a b c d fv 1 := fun a b c d => by unfold mipShort; simp only [ge_iff_le, ← sub_mul, ← add_mul, le_unscaled s hs]
  have e10 : mipPart p fv s = mipPart p fv 1 := by unfold mipPart mipConstraint; simp only [e8, e9]
  unfold getWeightConstraints simpleConstraints
  rw [e1, e2, e3, e4, e5, e6, e7, e10]

/-- The problem without scales. -/
def unscaled (m : MeanRisk n T) : MeanRisk n T := { m with scale := 1, scaleObjective := 1 }

section
variable (m : MeanRisk n T) (hs : 0 < m.scale) (hso : 0 < m.scaleObjective)
include hs

theorem program_unscaled' (r : RiskMeasure) (w : Fin n → ℝ) (k : ℝ) : riskProgram m r w k = riskProgram (unscaled m) r w k := program_unscaled m hs r w k

theorem constraints_unscaled (w : Fin n → ℝ) (k : ℝ) : (trackingConstraint m w k ↔ trackingConstraint (unscaled m) w k) ∧ (turnoverConstraint m w k ↔ turnoverConstraint (unscaled m) w k) ∧
    (returnConstraint m w k ↔ returnConstraint (unscaled m) w k) ∧ (riskConstraint m w k ↔ riskConstraint (unscaled m) w k) ∧ (ratioConstraint m w k ↔ ratioConstraint (unscaled m) w k) := by
  refine ⟨?_, ?_, ?_, ?_, ?_⟩
  · unfold trackingConstraint
    simp only [le_unscaled m.scale hs]
    rfl
  · unfold turnoverConstraint
    simp only [le_unscaled m.scale hs]
    rfl
  · unfold returnConstraint
    simp only [ge_iff_le, le_unscaled m.scale hs]
    rfl
  · unfold riskConstraint
    refine forall_congr' fun r => forall_congr' fun x => imp_congr_right fun _ => ?_
    rw [program_unscaled' m hs]
    simp only [le_unscaled m.scale hs]
    rfl
  · unfold ratioConstraint
    simp only [← sub_mul, ge_iff_le, le_unscaled m.scale hs, eq_unscaled m.scale hs]
    rfl

theorem feasible_down (cs : List (Constraint ℝ n)) (w : Fin n → ℝ) (k : ℝ) (a : (riskProgram m m.riskMeasure w k).Aux) (h : Feasible m cs w k a) :
    ∃ b, Feasible (unscaled m) cs w k b ∧ (riskProgram (unscaled m) (unscaled m).riskMeasure w k).risk b = (riskProgram m m.riskMeasure w k).risk a := by
  have : ∃ b, (riskProgram (unscaled m) m.riskMeasure w k).feasible b ∧ (riskProgram (unscaled m) m.riskMeasure w k).risk b = (riskProgram m m.riskMeasure w k).risk a := by
    rw [← program_unscaled' m hs]
    exact ⟨a, h.aux, rfl⟩
  obtain ⟨b, hb, he⟩ := this
  obtain ⟨h1, h2, h3, h4, h5⟩ := constraints_unscaled m hs w k
  exact ⟨b, ⟨h.factor, h1.1 h.tracking, h2.1 h.turnover, h.weight, h3.1 h.return', h4.1 h.risks, hb, h5.1 h.ratio⟩, he⟩

theorem feasible_up (cs : List (Constraint ℝ n)) (w : Fin n → ℝ) (k : ℝ) (b : (riskProgram (unscaled m) (unscaled m).riskMeasure w k).Aux) (h : Feasible (unscaled m) cs w k b) :
    ∃ a, Feasible m cs w k a ∧ (riskProgram m m.riskMeasure w k).risk a = (riskProgram (unscaled m) (unscaled m).riskMeasure w k).risk b := by
  have : ∃ a, (riskProgram m m.riskMeasure w k).feasible a ∧ (riskProgram m m.riskMeasure w k).risk a = (riskProgram (unscaled m) (unscaled m).riskMeasure w k).risk b := by
    rw [program_unscaled' m hs]
    exact ⟨b, h.aux, rfl⟩
  obtain ⟨a, ha, he⟩ := this
  obtain ⟨h1, h2, h3, h4, h5⟩ := constraints_unscaled m hs w k
  exact ⟨a, ⟨h.factor, h1.2 h.tracking, h2.2 h.turnover, h.weight, h3.2 h.return', h4.2 h.risks, ha, h5.2 h.ratio⟩, he⟩

omit hs in
theorem objective_unscaled (g : WeightExpr n) (w : Fin n → ℝ) (k : ℝ) (a : (riskProgram m m.riskMeasure w k).Aux) (b : (riskProgram (unscaled m) (unscaled m).riskMeasure w k).Aux)
    (he : (riskProgram (unscaled m) (unscaled m).riskMeasure w k).risk b = (riskProgram m m.riskMeasure w k).risk a) :
    customObjectiveValue m g w k a = m.scaleObjective * customObjectiveValue (unscaled m) g w k b := by
  unfold customObjectiveValue
  simp only [he]
  have e1 : expectedReturn (unscaled m) w k = expectedReturn m w k := rfl
  have e2 : regularization (unscaled m) w = regularization m w := rfl
  have e3 : (unscaled m).riskAversion = m.riskAversion := rfl
  have e4 : (unscaled m).scaleObjective = 1 := rfl
  have e5 : (unscaled m).objective = m.objective := rfl
  simp only [e1, e2, e3, e4, e5]
  cases m.objective <;> simp only <;> ring

include hso

theorem optimum_unscaled (cs : List (Constraint ℝ n)) (con : List (WeightProp n)) (g : WeightExpr n) (w : Fin n → ℝ) (k : ℝ) :
    (∃ a, CustomOptimum m cs con g w k a) ↔ ∃ b, CustomOptimum (unscaled m) cs con g w k b := by
  constructor
  · rintro ⟨a, ⟨ha, hcon⟩, hmin⟩
    obtain ⟨b, hb, he⟩ := feasible_down m hs cs w k a ha
    refine ⟨b, ⟨hb, hcon⟩, fun w' k' b' ⟨hb', hcon'⟩ => ?_⟩
    obtain ⟨a', ha', he'⟩ := feasible_up m hs cs w' k' b' hb'
    have := hmin w' k' a' ⟨ha', hcon'⟩
    rw [objective_unscaled m g w k a b he, objective_unscaled m g w' k' a' b' he'.symm] at this
    exact (mul_le_mul_iff_right₀ hso).1 this
  · rintro ⟨b, ⟨hb, hcon⟩, hmin⟩
    obtain ⟨a, ha, he⟩ := feasible_up m hs cs w k b hb
    refine ⟨a, ⟨ha, hcon⟩, fun w' k' a' ⟨ha', hcon'⟩ => ?_⟩
    obtain ⟨b', hb', he'⟩ := feasible_down m hs cs w' k' a' ha'
    rw [objective_unscaled m g w k a b he.symm, objective_unscaled m g w' k' a' b' he']
    exact mul_le_mul_of_nonneg_left (hmin w' k' b' ⟨hb', hcon'⟩) hso.le

end

/-- **C114.** Whatever positive scales are given, or none, `MeanRisk` has the same optimal solutions, custom objective and constraints included. -/
theorem C114_mean_risk (m : MeanRisk n T) (given given' : Option ℝ × Option ℝ) (h1 : ∀ x, given.1 = some x → 0 < x) (h2 : ∀ x, given.2 = some x → 0 < x) (h1' : ∀ x, given'.1 = some x → 0 < x)
    (h2' : ∀ x, given'.2 = some x → 0 < x) (cs : List (Constraint ℝ n)) (con : List (WeightProp n)) (g : WeightExpr n) (w : Fin n → ℝ) (k : ℝ) :
    (∃ a, CustomOptimum (setScales given m) cs con g w k a) ↔ ∃ b, CustomOptimum (setScales given' m) cs con g w k b := by
  have hd := default_pos m.objective m.riskMeasure
  have hp : ∀ (o : Option ℝ) (d : ℝ), 0 < d → (∀ x, o = some x → 0 < x) → 0 < o.getD d := by
    intro o d hd ho
    cases o with
    | none => exact hd
    | some x => exact ho x rfl
  have e : unscaled (setScales given m) = unscaled (setScales given' m) := rfl
  rw [optimum_unscaled (setScales given m) (hp _ _ hd.2 h2) (hp _ _ hd.1 h1), optimum_unscaled (setScales given' m) (hp _ _ hd.2 h2') (hp _ _ hd.1 h1'), e]

/-! ### Risk budgeting and distributionally robust CVaR -/

/-- `RiskBudgeting` with the scales `s` (constraints) and `o` (objective). -/
def budgetScales (s o : ℝ) (m : RiskBudgeting n T) : RiskBudgeting n T := { m with base := { m.base with scale := s, scaleObjective := o } }

theorem budget_unscaled (m : RiskBudgeting n T) (s o : ℝ) (hs : 0 < s) (cs : List (Constraint ℝ n)) (w : Fin n → ℝ) (k c : ℝ) :
    ∀ x, (∃ a, BudgetFeasible (budgetScales s o m) cs w k c a ∧ (riskProgram (budgetScales s o m).base m.base.riskMeasure w (riskFactor m.base.riskMeasure k)).risk a = x) ↔
      ∃ b, BudgetFeasible (budgetScales 1 1 m) cs w k c b ∧ (riskProgram (budgetScales 1 1 m).base m.base.riskMeasure w (riskFactor m.base.riskMeasure k)).risk b = x := by
  intro x
  have hp : riskProgram (budgetScales s o m).base m.base.riskMeasure w (riskFactor m.base.riskMeasure k) = riskProgram (budgetScales 1 1 m).base m.base.riskMeasure w (riskFactor m.base.riskMeasure k) :=
    program_unscaled (budgetScales s o m).base hs _ _ _
  have key : ∀ P P' : Program ℝ, P = P' → ((∃ a, P.feasible a ∧ P.risk a = x) ↔ ∃ b, P'.feasible b ∧ P'.risk b = x) := by
    rintro P _ rfl
    rfl
  have hk := key _ _ hp
  have hb : ((∑ i, riskBudget m i * Real.log (w i)) * s ≥ c * s) = ((∑ i, riskBudget m i * Real.log (w i)) * 1 ≥ c * 1) := le_unscaled s hs _ _
  have hr : ∀ y, (budgetReturn m.base w k * s ≥ y * k * s) = (budgetReturn m.base w k * 1 ≥ y * k * 1) := fun y => le_unscaled s hs _ _
  constructor
  · rintro ⟨a, ha, he⟩
    obtain ⟨b, hb1, hb2⟩ := hk.1 ⟨a, ha.aux, he⟩
    exact ⟨b, ⟨ha.positive, hb.mp ha.budget, ha.nonneg, ha.weight, fun y hy => (hr y).mp (ha.return' y hy), hb1⟩, hb2⟩
  · rintro ⟨b, hb1, he⟩
    obtain ⟨a, ha1, ha2⟩ := hk.2 ⟨b, hb1.aux, he⟩
    exact ⟨a, ⟨hb1.positive, hb.mpr hb1.budget, hb1.nonneg, hb1.weight, fun y hy => (hr y).mpr (hb1.return' y hy), ha1⟩, ha2⟩

theorem budget_optimum_unscaled (m : RiskBudgeting n T) (s o : ℝ) (hs : 0 < s) (ho : 0 < o) (cs : List (Constraint ℝ n)) (con : List (WeightProp n)) (g : WeightExpr n) (w : Fin n → ℝ) (k c : ℝ) :
    (∃ a, CustomBudgetOptimum (budgetScales s o m) cs con g w k c a) ↔ ∃ b, CustomBudgetOptimum (budgetScales 1 1 m) cs con g w k c b := by
  have hle : ∀ x y z v : ℝ, (x * o + y * o ≤ z * o + v * o) = (x * 1 + y * 1 ≤ z * 1 + v * 1) := fun x y z v => by rw [← add_mul, ← add_mul, le_unscaled o ho, add_mul, add_mul]
  constructor
  · rintro ⟨a, ⟨ha, hcon⟩, hmin⟩
    obtain ⟨b, hb, he⟩ := (budget_unscaled m s o hs cs w k c _).1 ⟨a, ha, rfl⟩
    refine ⟨b, ⟨hb, hcon⟩, fun w' k' c' b' hb' hcon' => ?_⟩
    obtain ⟨a', ha', he'⟩ := (budget_unscaled m s o hs cs w' k' c' _).2 ⟨b', hb', rfl⟩
    have : (riskProgram (budgetScales s o m).base m.base.riskMeasure w (riskFactor m.base.riskMeasure k)).risk a * o + g w * o ≤
      (riskProgram (budgetScales s o m).base m.base.riskMeasure w' (riskFactor m.base.riskMeasure k')).risk a' * o + g w' * o := hmin w' k' c' a' ha' hcon'
    rw [hle, ← he, he'] at this
    exact this
  · rintro ⟨b, ⟨hb, hcon⟩, hmin⟩
    obtain ⟨a, ha, he⟩ := (budget_unscaled m s o hs cs w k c _).2 ⟨b, hb, rfl⟩
    refine ⟨a, ⟨ha, hcon⟩, fun w' k' c' a' ha' hcon' => ?_⟩
    obtain ⟨b', hb', he'⟩ := (budget_unscaled m s o hs cs w' k' c' _).1 ⟨a', ha', rfl⟩
    have : (riskProgram (budgetScales 1 1 m).base m.base.riskMeasure w (riskFactor m.base.riskMeasure k)).risk b * 1 + g w * 1 ≤
      (riskProgram (budgetScales 1 1 m).base m.base.riskMeasure w' (riskFactor m.base.riskMeasure k')).risk b' * 1 + g w' * 1 := hmin w' k' c' b' hb' hcon'
    rw [← he, he', ← hle] at this
    exact this

/-- **C114.** The same for `RiskBudgeting`. -/
theorem C114_risk_budgeting (m : RiskBudgeting n T) (s o s' o' : ℝ) (hs : 0 < s) (ho : 0 < o) (hs' : 0 < s') (ho' : 0 < o') (cs : List (Constraint ℝ n)) (con : List (WeightProp n)) (g : WeightExpr n)
    (w : Fin n → ℝ) (k c : ℝ) : (∃ a, CustomBudgetOptimum (budgetScales s o m) cs con g w k c a) ↔ ∃ b, CustomBudgetOptimum (budgetScales s' o' m) cs con g w k c b := by
  rw [budget_optimum_unscaled m s o hs ho, budget_optimum_unscaled m s' o' hs' ho']

/-- `DistributionallyRobustCVaR` with the scales `s` (constraints) and `o` (objective). -/
def robustScales (s o : ℝ) (m : Robust n T) : Robust n T := { m with scale := s, scaleObjective := o }

theorem robust_unscaled (m : Robust n T) (s o : ℝ) (hs : 0 < s) (w : Fin n → ℝ) (p : RobustAux n T) : RobustFeasible (robustScales s o m) w p ↔ RobustFeasible (robustScales 1 1 m) w p := by
  have hz : ∀ x : ℝ, (x * s ≥ 0) = (x * 1 ≥ 0) := fun x => by simpa only [zero_mul] using le_unscaled s hs 0 x
  have h3 : ∀ x y z v : ℝ, (x * s + y * s + z * s ≤ v * s) = (x * 1 + y * 1 + z * 1 ≤ v * 1) := fun x y z v => by
    rw [← add_mul, ← add_mul, le_unscaled s hs, add_mul, add_mul]
  have hle := le_unscaled s hs
  constructor
  · rintro ⟨h1, h2, h4, h5, h6, h7⟩
    exact ⟨fun i j => (hz _).mp (h1 i j), fun i j => (hz _).mp (h2 i j), fun i => (h3 _ _ _ _).mp (h4 i), fun i => (h3 _ _ _ _).mp (h5 i), fun i => (hle _ _).mp (h6 i), fun i => (hle _ _).mp (h7 i)⟩
  · rintro ⟨h1, h2, h4, h5, h6, h7⟩
    exact ⟨fun i j => (hz _).mpr (h1 i j), fun i j => (hz _).mpr (h2 i j), fun i => (h3 _ _ _ _).mpr (h4 i), fun i => (h3 _ _ _ _).mpr (h5 i), fun i => (hle _ _).mpr (h6 i), fun i => (hle _ _).mpr (h7 i)⟩

theorem robust_optimum_unscaled (m : Robust n T) (s o : ℝ) (hs : 0 < s) (ho : 0 < o) (cs : List (Constraint ℝ n)) (con : List (WeightProp n)) (g : WeightExpr n) (w : Fin n → ℝ) (p : RobustAux n T) :
    CustomRobustOptimum (robustScales s o m) cs con g w p ↔ CustomRobustOptimum (robustScales 1 1 m) cs con g w p := by
  have hobj : ∀ (w w' : Fin n → ℝ) (p p' : RobustAux n T), (robustObjective (robustScales s o m) p + g w * o ≤ robustObjective (robustScales s o m) p' + g w' * o) ↔
      (robustObjective (robustScales 1 1 m) p + g w * 1 ≤ robustObjective (robustScales 1 1 m) p' + g w' * 1) := by
    intro w w' p p'
    unfold robustObjective
    change (m.radius * p.lb * o + 1 / (T : ℝ) * (∑ i, p.s i) * o + g w * o ≤ m.radius * p'.lb * o + 1 / (T : ℝ) * (∑ i, p'.s i) * o + g w' * o) ↔
      (m.radius * p.lb * 1 + 1 / (T : ℝ) * (∑ i, p.s i) * 1 + g w * 1 ≤ m.radius * p'.lb * 1 + 1 / (T : ℝ) * (∑ i, p'.s i) * 1 + g w' * 1)
    rw [← add_mul, ← add_mul, ← add_mul, ← add_mul, mul_le_mul_iff_left₀ ho]
    simp only [mul_one]
  unfold CustomRobustOptimum
  refine and_congr (and_congr_right fun _ => and_congr_left fun _ => robust_unscaled m s o hs w p) (forall_congr' fun w' => forall_congr' fun p' => imp_congr_right fun _ => ?_)
  exact imp_congr (robust_unscaled m s o hs w' p') (imp_congr_right fun _ => hobj w w' p p')

/-- **C114.** The same for `DistributionallyRobustCVaR`. -/
theorem C114_distributionally_robust (m : Robust n T) (s o s' o' : ℝ) (hs : 0 < s) (ho : 0 < o) (hs' : 0 < s') (ho' : 0 < o') (cs : List (Constraint ℝ n)) (con : List (WeightProp n)) (g : WeightExpr n)
    (w : Fin n → ℝ) (p : RobustAux n T) : CustomRobustOptimum (robustScales s o m) cs con g w p ↔ CustomRobustOptimum (robustScales s' o' m) cs con g w p := by
  rw [robust_optimum_unscaled m s o hs ho, robust_optimum_unscaled m s' o' hs' ho']

/-- **C114**, finding: a scale of 0 is not refused, and then every portfolio meets every limit on weights, long and short positions, budget and linear constraints. -/
theorem C114_zero_scale (p : Params ℝ n) (fv : Bool) (hm : isMip p = false) (cs : List (Constraint ℝ n)) (hcs : getWeightConstraints p fv true 0 = .ok cs) (w : Fin n → ℝ) (k : ℝ) : ∀ c ∈ cs, c w k := by
  obtain ⟨a, b, ha, hb, rfl, -⟩ := constraints_split p fv true 0 cs hcs
  unfold simpleConstraints at ha
  obtain ⟨x, hx, ha⟩ := ok_bind ha
  obtain ⟨y, hy, ha⟩ := ok_bind ha
  obtain ⟨z, hz, ha⟩ := ok_bind ha
  obtain ⟨u, hu, ha⟩ := ok_bind ha
  cases ha
  have h1 : ∀ c ∈ x, c w k := by
    unfold minConstraint at hx
    split at hx
    · cases hx; simp
    · split at hx
      · cases hx
      · cases hx; simp
  have h2 : ∀ c ∈ y, c w k := by
    unfold longConstraint at hy
    split at hy
    · cases hy; simp
    · split at hy
      · cases hy
      · cases hy; simp
  have h3 : ∀ c ∈ z, c w k := by
    unfold shortConstraint at hz
    split at hz
    · cases hz; simp
    · split at hz
      · cases hz
      · cases hz; simp
  have h4 : ∀ c ∈ u, c w k := by
    unfold budgetConstraint at hu
    split at hu
    · cases hu; simp
    · split at hu
      · cases hu
      · split at hu
        · cases hu
        · cases hu; simp
  have h5 : ∀ c ∈ maxConstraint p (0 : ℝ), c w k := by
    unfold maxConstraint
    cases p.maxWeights <;> simp
  have h6 : ∀ c ∈ budgetBounds p (0 : ℝ), c w k := by
    unfold budgetBounds
    cases p.minBudget <;> cases p.maxBudget <;> simp
  have h7 : ∀ c ∈ linearConstraints p (0 : ℝ), c w k := by
    unfold linearConstraints
    cases p.inequality <;> simp
  have h8 : b = [] := by
    unfold mipPart at hb
    simp only [hm] at hb
    cases hb
    rfl
  subst h8
  intro c hc
  simp only [List.append_nil, List.mem_append] at hc
  rcases hc with (((((hc | hc) | hc) | hc) | hc) | hc) | hc
  · exact h1 c hc
  · exact h5 c hc
  · exact h2 c hc
  · exact h3 c hc
  · exact h6 c hc
  · exact h4 c hc
  · exact h7 c hc

/-- The default scales of CVaR against scales of the user: the same optimal solutions. -/
example (cs : List (Constraint ℝ 2)) (w : Fin 2 → ℝ) (k : ℝ) :
    (∃ a, CustomOptimum (setScales (none, none) { frontierAssets 1 2 with riskMeasure := .cvar }) cs [] (fun _ => 0) w k a) ↔
      ∃ b, CustomOptimum (setScales (some 3, some (1 / 1000)) { frontierAssets 1 2 with riskMeasure := .cvar }) cs [] (fun _ => 0) w k b :=
  C114_mean_risk _ _ _ (by simp) (by simp) (by simp) (by simp) cs [] _ w k

example : (setScales (none, none) { frontierAssets 1 2 with riskMeasure := .cvar }).scale = 100 ∧ (setScales (none, none) { frontierAssets 1 2 with riskMeasure := .cvar }).scaleObjective = 1 / 10 := ⟨rfl, rfl⟩

/-- With the default scales, the least standard deviation of two uncorrelated assets is reached by equal weights, so it is with any others. -/
example : ∃ cs, getWeightConstraints longOnly false true (1 : ℝ) = .ok cs ∧ ∃ b, CustomOptimum (setScales (some 3, some (1 / 1000)) (frontierAssets (4 / 100) (2 / 100))) cs [] (fun _ => 0) ![1 / 2, 1 / 2] 1 b := by
  obtain ⟨cs, hcs⟩ := frontier_ok
  refine ⟨cs, hcs, (C114_mean_risk (frontierAssets (4 / 100) (2 / 100)) (none, none) (some 3, some (1 / 1000)) (by simp) (by simp) (by simp) (by simp) cs [] _ _ _).1 ?_⟩
  obtain ⟨h1, h2⟩ := frontier_min (4 / 100) (2 / 100) cs hcs
  refine ⟨Real.sqrt (1 / 2), ⟨h1, by simp⟩, fun w' k' a' h' => ?_⟩
  have := h2 w' k' a' h'.1
  change _ + 0 * 1 ≤ _ + 0 * 1
  simp only [zero_mul, add_zero]
  exact this

/-- With a scale of 0, leverage of 10000 % meets the limits of a long-only, fully invested portfolio. -/
example : ∃ cs, getWeightConstraints longOnly false true (0 : ℝ) = .ok cs ∧ ∀ c ∈ cs, c ![100, -50] 1 := by
  have h : ∃ cs, getWeightConstraints longOnly false true (0 : ℝ) = .ok cs := by
    unfold getWeightConstraints
    simp [longOnly, noLimits, isMip, simpleConstraints, minConstraint, longConstraint, shortConstraint, budgetConstraint, mipPart, bind, Except.bind, pure, Except.pure]
  obtain ⟨cs, hcs⟩ := h
  exact ⟨cs, hcs, C114_zero_scale longOnly false rfl cs hcs _ _⟩

end

end Skfolio.Convex
