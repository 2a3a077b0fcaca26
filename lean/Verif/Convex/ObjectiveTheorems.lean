import Verif.Convex.ObjectiveSpec
import Verif.Convex.RatioFindings
import Verif.Convex.RiskBudgetingTheorems

/-!
**C67**: the objectives without ratio. The returned portfolio is the best of all portfolios within the limits, by the measures' own definitions.
-/
set_option autoImplicit false

namespace Skfolio.Convex

open Skfolio.Measures

section
variable {n T : Nat}

/-- Every risk measure is a function of the weights. -/
theorem exists_risk (P : Partition ℝ) (m : MeanRisk n T) (hs : 0 < m.scale) (hT : 2 ≤ T) (hb : BetasOk m) (r : RiskMeasure) : ∃ R, IsRiskOf P m r R := by
  have hT0 : 0 < T := by omega
  obtain ⟨⟨c0, c1⟩, ⟨e0, e1⟩, ⟨d0, d1⟩, f0, f1⟩ := hb
  suffices H : ∀ w, ∃ v : ℝ, ∀ x, RiskAtMost P m r w x ↔ v ≤ x by
    choose R hR using H
    exact ⟨R, hR⟩
  intro w
  have hsome : ∀ {o : Option ℝ}, (∃ v, o = some v) → ∃ v, ∀ x, (∃ u, o = some u ∧ u ≤ x) ↔ v ≤ x := by
    rintro o ⟨v, rfl⟩
    exact ⟨v, fun x => ⟨fun ⟨u, hu, hx⟩ => by rwa [Option.some.inj hu], fun h => ⟨v, rfl, h⟩⟩⟩
  have hinf : ∀ (l : List ℝ), l ≠ [] → ∀ beta : ℝ, 0 ≤ beta → beta < 1 → ∃ v, ∀ x, (∀ b, (∀ theta, 0 < theta → b ≤ entropicRiskMeasure l theta beta) → b ≤ x) ↔ v ≤ x := by
    intro l hl beta h0 h1
    obtain ⟨⟨v, hv⟩, ⟨c, hc⟩, -⟩ := C12_defined P l hl beta h0 h1
    have hlow : ∀ theta, 0 < theta → c ≤ entropicRiskMeasure l theta beta := fun theta ht => (C46_entropic_bounds_cvar P l hl beta h0 h1 theta ht v c hv hc).2
    have hbdd : BddBelow {y | ∃ theta, 0 < theta ∧ y = entropicRiskMeasure l theta beta} := ⟨c, by rintro _ ⟨theta, ht, rfl⟩; exact hlow theta ht⟩
    have hne : Set.Nonempty {y | ∃ theta, 0 < theta ∧ y = entropicRiskMeasure l theta beta} := ⟨_, 1, one_pos, rfl⟩
    refine ⟨sInf {y | ∃ theta, 0 < theta ∧ y = entropicRiskMeasure l theta beta}, fun x => ⟨fun h => h _ fun theta ht => csInf_le hbdd ⟨theta, ht, rfl⟩, fun h b hb => ?_⟩⟩
    exact (le_csInf hne (by rintro _ ⟨theta, ht, rfl⟩; exact hb theta ht)).trans h
  have hnet : ∀ d : Data ℝ n T, netReturns d w 1 ≠ [] := by
    intro d h
    have := congrArg List.length h
    simp [netReturns] at this
    omega
  cases r with
  | meanAbsoluteDeviation => exact ⟨_, fun x => Iff.rfl⟩
  | firstLowerPartialMoment => exact ⟨_, fun x => Iff.rfl⟩
  | standardDeviation => exact ⟨_, fun x => Iff.rfl⟩
  | variance => exact ⟨_, fun x => Iff.rfl⟩
  | semiVariance => exact ⟨_, fun x => Iff.rfl⟩
  | semiDeviation => exact ⟨_, fun x => Iff.rfl⟩
  | worstRealization =>
    obtain ⟨v, hv, -⟩ := C17_worst_realization m.data w 1 m.scale hs hT0
    exact hsome ⟨v, hv⟩
  | cvar =>
    obtain ⟨v, hv, -⟩ := C17_cvar P m.data w 1 m.scale hs hT0 m.cvarBeta c0 c1
    exact hsome ⟨v, hv⟩
  | evar => exact hinf _ (hnet _) _ e0 e1
  | maxDrawdown =>
    obtain ⟨v, hv, -⟩ := C17_max_drawdown P m.data w 1 m.scale hs hT0
    exact hsome ⟨v, hv⟩
  | averageDrawdown =>
    obtain ⟨v, hv, -⟩ := C17_average_drawdown P m.data w 1 m.scale hs hT0
    exact hsome ⟨v, hv⟩
  | cdar =>
    obtain ⟨v, hv, -⟩ := C17_cdar P m.data w 1 m.scale hs hT0 m.cdarBeta d0 d1
    exact hsome ⟨v, hv⟩
  | edar => exact hinf _ (drawdownsFromStart_ne_nil m.data w 1 hT0) _ f0 f1
  | ulcerIndex => exact ⟨_, fun x => Iff.rfl⟩
  | giniMeanDifference => exact ⟨_, fun x => Iff.rfl⟩

theorem returned_one (w : Fin n → ℝ) : returnedWeights w 1 = w := by
  funext i
  simp [returnedWeights]

theorem penalty_eq (m : MeanRisk n T) (w : Fin n → ℝ) : regularization m w = penalty m w := rfl

section
variable (P : Partition ℝ) (m : MeanRisk n T) (hs : 0 < m.scale) (hT : 2 ≤ T) (hb : BetasOk m) (hr : m.objective ≠ .maximizeRatio) (cs : List (Constraint ℝ n))
  (hcs : getWeightConstraints m.weights (factorIsVariable m) true m.scale = .ok cs)
include hs hT hb hr hcs

/-- A point of the problem is a portfolio within the limits. -/
theorem feasible_within (w : Fin n → ℝ) (k : ℝ) (a : (riskProgram m m.riskMeasure w k).Aux) (h : Feasible m cs w k a) : k = 1 ∧ Within P m w := by
  have hk := h.factor hr
  subst hk
  obtain ⟨h1, h2, h3, -⟩ := C19_limits P m hs hT hb cs hcs w 1 one_pos a h
  obtain ⟨h4, h5⟩ := C19_limits_no_ratio P m hs hT hb cs w 1 a h hr
  rw [returned_one] at h1 h2 h3 h4 h5
  exact ⟨rfl, h1, h2, h3, h4, h5⟩

/-- A portfolio within the limits is a point of the problem. -/
theorem comparable_feasible (w : Fin n → ℝ) (hw : Comparable P m w) (a : (riskProgram m m.riskMeasure w 1).Aux) (ha : (riskProgram m m.riskMeasure w 1).feasible a) : Feasible m cs w 1 a := by
  have e : (fun i => w i / 1) = w := by
    funext i
    simp
  refine ⟨fun _ => rfl, fun x hx => ?_, fun x hx i => ?_, ?_, fun x hx => ?_, fun r x hx => ?_, ha, fun h => absurd h hr⟩
  · rw [mul_le_mul_iff_left₀ hs, tracking_returned m w 1 one_pos, returned_one, one_mul]
    exact hw.within.tracking x hx
  · rw [mul_le_mul_iff_left₀ hs, mul_one, mul_one]
    exact hw.within.returns.turnover x hx i
  · cases hm : isMip m.weights with
    | false =>
      refine (C19_weight_limits m.weights _ true m.scale 1 hs one_pos w cs hcs hm).2 ?_
      rw [e]
      exact hw.within.limits
    | true =>
      refine C20_complete m.weights _ true m.scale 1 hs one_pos (fun _ => rfl) (fun _ => by norm_num) w (hw.bigM hm) cs hcs ?_ ?_
      · rw [e]
        exact hw.within.limits
      · rw [e]
        exact hw.within.cardinality
  · rw [ge_iff_le, mul_le_mul_iff_left₀ hs, mul_one, expected_one]
    exact hw.within.returns.minReturn x hx
  · rw [mul_one]
    suffices H : ∃ b, (riskProgram m r w 1).feasible b ∧ (riskProgram m r w 1).risk b ≤ x by
      obtain ⟨b, hb1, hb2⟩ := H
      exact ⟨b, hb1, (mul_le_mul_iff_left₀ hs).2 hb2⟩
    by_cases he : r = .evar ∨ r = .edar
    · obtain ⟨y, hy, hle⟩ := hw.entropic r he x hx
      by_contra hno
      push Not at hno
      have hlow : ∀ b, (riskProgram m r w 1).feasible b → x ≤ (riskProgram m r w 1).risk b := fun b hb' => (hno b hb').le
      obtain ⟨-, ⟨e0, e1⟩, -, f0, f1⟩ := hb
      rcases he with rfl | rfl
      · have := hle x ((C17_evar { m.data with transactionCosts := fun _ => 0 } w 1 m.scale hs (by omega) m.evarBeta e0 e1 (fun _ => rfl) x).1 hlow)
        linarith
      · have := hle x ((C17_edar m.data w 1 m.scale hs (by omega) m.edarBeta f0 f1 x).1 hlow)
        linarith
    · push Not at he
      exact (program_atMost P m hs hT hb r w x).2 he.1 he.2 (hw.within.risks r x hx)

end

section
variable (P : Partition ℝ) (m : MeanRisk n T) (hs : 0 < m.scale) (hso : 0 < m.scaleObjective) (hT : 2 ≤ T) (hb : BetasOk m) (cs : List (Constraint ℝ n))
  (hcs : getWeightConstraints m.weights (factorIsVariable m) true m.scale = .ok cs) (R : (Fin n → ℝ) → ℝ) (hR : IsRiskOf P m m.riskMeasure R)
include hs hso hT hb hcs hR

/-- **C67.** `MINIMIZE_RISK`: the returned portfolio is within the limits, and no portfolio within the limits has a smaller risk (plus penalty). -/
theorem C67_minimize_risk (ho : m.objective = .minimizeRisk) (w : Fin n → ℝ) (k : ℝ) (a : (riskProgram m m.riskMeasure w k).Aux) (h : IsOptimum m cs w k a) :
    Within P m (returnedWeights w k) ∧ ∀ w', Comparable P m w' → R (returnedWeights w k) + penalty m (returnedWeights w k) ≤ R w' + penalty m w' := by
  have hr : m.objective ≠ .maximizeRatio := by rw [ho]; decide
  obtain ⟨rfl, hin⟩ := feasible_within P m hs hT hb hr cs hcs w k a h.1
  rw [returned_one]
  refine ⟨hin, fun w' hw' => ?_⟩
  have hv := (risk_glb P m hs hT hb _ R hR w).1 a h.1.aux
  have key : R w + penalty m w - penalty m w' ≤ R w' := by
    refine (risk_glb P m hs hT hb _ R hR w').2 _ fun a' ha' => ?_
    have := h.2 w' 1 a' (comparable_feasible P m hs hT hb hr cs hcs w' hw' a' ha')
    unfold objectiveValue at this
    simp only [ho] at this
    rw [← add_mul, ← add_mul, mul_le_mul_iff_left₀ hso, penalty_eq, penalty_eq] at this
    linarith
  linarith

/-- **C67.** `MAXIMIZE_RETURN`: the returned portfolio is within the limits, and no portfolio within the limits has a greater expected return (less penalty). -/
theorem C67_maximize_return (ho : m.objective = .maximizeReturn) (w : Fin n → ℝ) (k : ℝ) (a : (riskProgram m m.riskMeasure w k).Aux) (h : IsOptimum m cs w k a) :
    Within P m (returnedWeights w k) ∧ ∀ w', Comparable P m w' → netExpectedReturn m w' - penalty m w' ≤ netExpectedReturn m (returnedWeights w k) - penalty m (returnedWeights w k) := by
  have hr : m.objective ≠ .maximizeRatio := by rw [ho]; decide
  obtain ⟨rfl, hin⟩ := feasible_within P m hs hT hb hr cs hcs w k a h.1
  rw [returned_one]
  refine ⟨hin, fun w' hw' => ?_⟩
  obtain ⟨a', ha'⟩ : ∃ a', (riskProgram m m.riskMeasure w' 1).feasible a' := by
    by_contra hno
    push Not at hno
    have := (risk_glb P m hs hT hb _ R hR w').2 (R w' + 1) fun a' ha' => absurd ha' (hno a')
    linarith
  have := h.2 w' 1 a' (comparable_feasible P m hs hT hb hr cs hcs w' hw' a' ha')
  unfold objectiveValue at this
  simp only [ho] at this
  rw [neg_le_neg_iff, ← sub_mul, ← sub_mul, mul_le_mul_iff_left₀ hso, penalty_eq, penalty_eq, expected_one, expected_one] at this
  exact this

/-- **C67.** `MAXIMIZE_UTILITY`: the returned portfolio is within the limits, and no portfolio within the limits has a greater utility: expected return less risk aversion times risk (less penalty). -/
theorem C67_maximize_utility (ho : m.objective = .maximizeUtility) (ha0 : 0 ≤ m.riskAversion) (w : Fin n → ℝ) (k : ℝ) (a : (riskProgram m m.riskMeasure w k).Aux) (h : IsOptimum m cs w k a) :
    Within P m (returnedWeights w k) ∧ ∀ w', Comparable P m w' →
      netExpectedReturn m w' - m.riskAversion * R w' - penalty m w' ≤ netExpectedReturn m (returnedWeights w k) - m.riskAversion * R (returnedWeights w k) - penalty m (returnedWeights w k) := by
  have hr : m.objective ≠ .maximizeRatio := by rw [ho]; decide
  obtain ⟨rfl, hin⟩ := feasible_within P m hs hT hb hr cs hcs w k a h.1
  rw [returned_one]
  refine ⟨hin, fun w' hw' => ?_⟩
  have hv := mul_le_mul_of_nonneg_left ((risk_glb P m hs hT hb _ R hR w).1 a h.1.aux) ha0
  have hopt : ∀ a', (riskProgram m m.riskMeasure w' 1).feasible a' → netExpectedReturn m w' - m.riskAversion * (riskProgram m m.riskMeasure w' 1).risk a' - penalty m w' ≤ netExpectedReturn m w - m.riskAversion * (riskProgram m m.riskMeasure w 1).risk a - penalty m w := by
    intro a' ha'
    have := h.2 w' 1 a' (comparable_feasible P m hs hT hb hr cs hcs w' hw' a' ha')
    unfold objectiveValue at this
    simp only [ho] at this
    rw [neg_le_neg_iff, ← sub_mul, ← sub_mul, ← sub_mul, ← sub_mul, mul_le_mul_iff_left₀ hso, penalty_eq, penalty_eq, expected_one, expected_one] at this
    exact this
  rcases ha0.eq_or_lt with h0 | h0
  · obtain ⟨a', ha'⟩ : ∃ a', (riskProgram m m.riskMeasure w' 1).feasible a' := by
      by_contra hno
      push Not at hno
      have := (risk_glb P m hs hT hb _ R hR w').2 (R w' + 1) fun a' ha' => absurd ha' (hno a')
      linarith
    have := hopt a' ha'
    rw [← h0] at this ⊢
    linarith
  · have key : (netExpectedReturn m w' - penalty m w' - (netExpectedReturn m w - m.riskAversion * (riskProgram m m.riskMeasure w 1).risk a - penalty m w)) / m.riskAversion ≤ R w' := by
      refine (risk_glb P m hs hT hb _ R hR w').2 _ fun a' ha' => ?_
      rw [div_le_iff₀ h0]
      linarith [hopt a' ha']
    rw [div_le_iff₀ h0] at key
    linarith

end

end

end Skfolio.Convex
