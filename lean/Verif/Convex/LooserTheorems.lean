import Verif.Convex.ObjectiveTheorems
import Verif.Convex.FrontierExamples

/-! **C112.** Relaxing limits does not make a solvable `MeanRisk` problem unsolvable, nor its objective worse. -/
set_option autoImplicit false

namespace Skfolio.Convex

open Skfolio.Measures

section
variable {n T : Nat}

/-- `p'` sets limits on the weights that are nowhere tighter than those of `p`: a limit is dropped, moved outwards or kept. A budget may be replaced by bounds around it. -/
structure LooserWeights (p p' : Params ℝ n) : Prop where
  minWeights : ∀ lo', p'.minWeights = some lo' → ∃ lo, p.minWeights = some lo ∧ ∀ i, lo' i ≤ lo i
  maxWeights : ∀ hi', p'.maxWeights = some hi' → ∃ hi, p.maxWeights = some hi ∧ ∀ i, hi i ≤ hi' i
  maxLong : ∀ x', p'.maxLong = some x' → ∃ x, p.maxLong = some x ∧ x ≤ x'
  maxShort : ∀ x', p'.maxShort = some x' → ∃ x, p.maxShort = some x ∧ x ≤ x'
  minBudget : ∀ x', p'.minBudget = some x' → ∃ x, (p.minBudget = some x ∨ p.budget = some x) ∧ x' ≤ x
  maxBudget : ∀ x', p'.maxBudget = some x' → ∃ x, (p.maxBudget = some x ∨ p.budget = some x) ∧ x ≤ x'
  budget : ∀ x, p'.budget = some x → p.budget = some x
  equations : ∀ row ∈ p'.eqRows, row ∈ p.eqRows
  inequalities : ∀ row' ∈ p'.ineqRows, ∃ row ∈ p.ineqRows, row.1 = row'.1 ∧ row.2 ≤ row'.2
  matrix : ∀ rows', p'.inequality = some rows' → ∃ rows, p.inequality = some rows ∧ ∀ row' ∈ rows', ∃ row ∈ rows, row.1 = row'.1 ∧ row.2 ≤ row'.2
  cardinality : ∀ c', p'.cardinality = some c' → ∃ c, p.cardinality = some c ∧ c ≤ c'
  groups : ∀ rows', p'.groupCardinalities = some rows' → ∃ rows, p.groupCardinalities = some rows ∧ ∀ row' ∈ rows', ∃ row ∈ rows, row.1 = row'.1 ∧ row.2 ≤ row'.2
  thresholdLong : ∀ th', p'.thresholdLong = some th' → ∃ th, p.thresholdLong = some th ∧ ∀ i, th' i ≤ th i
  thresholdShort : ∀ th', p'.thresholdShort = some th' → ∃ th, p.thresholdShort = some th ∧ ∀ i, th i ≤ th' i

/-- The limits of a problem other than those on the weights. -/
structure Limits where
  maxTrackingError : Option ℝ
  maxTurnover : Option ℝ
  minReturns : List ℝ
  riskLimits : RiskMeasure → Option ℝ

/-- The same problem with other limits. -/
def withLimits (m : MeanRisk n T) (p : Params ℝ n) (l : Limits) : MeanRisk n T :=
  { m with weights := p, maxTrackingError := l.maxTrackingError, maxTurnover := l.maxTurnover, minReturns := l.minReturns, riskLimits := l.riskLimits }

/-- `l` sets limits that are nowhere tighter than those of the problem. -/
structure LooserLimits (m : MeanRisk n T) (l : Limits) : Prop where
  tracking : ∀ x', l.maxTrackingError = some x' → ∃ x, m.maxTrackingError = some x ∧ x ≤ x'
  turnover : ∀ x', l.maxTurnover = some x' → ∃ x, m.maxTurnover = some x ∧ x ≤ x'
  minReturns : ∀ x' ∈ l.minReturns, ∃ x ∈ m.minReturns, x' ≤ x
  risks : ∀ r x', l.riskLimits r = some x' → ∃ x, m.riskLimits r = some x ∧ x ≤ x'

theorem limits_looser (p p' : Params ℝ n) (h : LooserWeights p p') (w : Fin n → ℝ) (hw : RespectsLimits p w) : RespectsLimits p' w := by
  refine ⟨fun x hx i => ?_, fun x hx i => ?_, fun x hx => ?_, fun x hx => ?_, fun x hx => ?_, fun x hx => ?_, fun x hx => ?_, fun row hr => ?_, fun row hr => ?_, fun rows hrs row hr => ?_⟩
  · obtain ⟨lo, h1, h2⟩ := h.minWeights x hx
    exact (h2 i).trans (hw.atLeast lo h1 i)
  · obtain ⟨hi, h1, h2⟩ := h.maxWeights x hx
    exact (hw.atMost hi h1 i).trans (h2 i)
  · obtain ⟨y, h1, h2⟩ := h.maxLong x hx
    exact (hw.long y h1).trans h2
  · obtain ⟨y, h1, h2⟩ := h.maxShort x hx
    exact (hw.short y h1).trans h2
  · obtain ⟨y, h1 | h1, h2⟩ := h.minBudget x hx
    · exact h2.trans (hw.minBudget y h1)
    · exact h2.trans (hw.budget y h1).ge
  · obtain ⟨y, h1 | h1, h2⟩ := h.maxBudget x hx
    · exact (hw.maxBudget y h1).trans h2
    · exact (hw.budget y h1).le.trans h2
  · exact hw.budget x (h.budget x hx)
  · exact hw.equations row (h.equations row hr)
  · obtain ⟨row', h1, h2, h3⟩ := h.inequalities row hr
    rw [← h2]
    exact (hw.inequalities row' h1).trans h3
  · obtain ⟨rows', h0, h1⟩ := h.matrix rows hrs
    obtain ⟨row', h1, h2, h3⟩ := h1 row hr
    rw [← h2]
    exact (hw.matrix rows' h0 row' h1).trans h3

theorem cardinality_looser (p p' : Params ℝ n) (h : LooserWeights p p') (w : Fin n → ℝ) (hw : RespectsCardinality p w) : RespectsCardinality p' w := by
  refine ⟨fun c hc => ?_, fun rows hrs row hr => ?_, fun th hth i hi => ?_, fun th hth i hi => ?_⟩
  · obtain ⟨y, h1, h2⟩ := h.cardinality c hc
    exact (hw.cardinality y h1).trans h2
  · obtain ⟨rows', h0, h1⟩ := h.groups rows hrs
    obtain ⟨row', h1, h2, h3⟩ := h1 row hr
    rw [← h2]
    exact (hw.groups rows' h0 row' h1).trans h3
  · obtain ⟨y, h1, h2⟩ := h.thresholdLong th hth
    exact (h2 i).trans (hw.long y h1 i hi)
  · obtain ⟨y, h1, h2⟩ := h.thresholdShort th hth
    exact (hw.short y h1 i hi).trans (h2 i)

section
variable (m : MeanRisk n T) (hs : 0 < m.scale) (p : Params ℝ n) (l : Limits) (hp : LooserWeights m.weights p) (hl : LooserLimits m l)
  (cs cs' : List (Constraint ℝ n)) (hcs : getWeightConstraints m.weights (factorIsVariable m) true m.scale = .ok cs)
  (hcs' : getWeightConstraints p (factorIsVariable m) true m.scale = .ok cs')
include hs hp hl hcs hcs'

/-- **C112.** Every point of the problem is one of the looser problem: it remains solvable. (With cardinality or threshold limits, positions up to the big M of 1000.) -/
theorem C112_feasible (w : Fin n → ℝ) (k : ℝ) (hk : 0 < k) (hM : isMip p = true → k ≤ 1000 ∧ ∀ i, |w i| ≤ 1000) (a : (riskProgram m m.riskMeasure w k).Aux)
    (h : Feasible m cs w k a) : Feasible (withLimits m p l) cs' w k a := by
  have hk1 : factorIsVariable m = false → k = 1 := fun hf => h.factor (by simpa [factorIsVariable] using hf)
  have hlim := limits_looser _ _ hp _ (C19_weight_limits_mip m.weights _ true m.scale k hs hk w cs hcs h.weight)
  have hcard := cardinality_looser _ _ hp _ (C20_sound m.weights _ true m.scale k hs hk hk1 w cs hcs h.weight)
  refine ⟨h.factor, fun x hx => ?_, fun x hx i => ?_, ?_, fun x hx => ?_, fun r x hx => ?_, h.aux, h.ratio⟩
  · obtain ⟨y, h1, h2⟩ := hl.tracking x hx
    exact (h.tracking y h1).trans (mul_le_mul_of_nonneg_right h2 hs.le)
  · obtain ⟨y, h1, h2⟩ := hl.turnover x hx
    exact (h.turnover y h1 i).trans (mul_le_mul_of_nonneg_right (mul_le_mul_of_nonneg_right h2 hk.le) hs.le)
  · cases hm : isMip p with
    | false => exact (C19_weight_limits p _ true m.scale k hs hk w cs' hcs' hm).2 hlim
    | true => exact C20_complete p _ true m.scale k hs hk hk1 (fun _ => (hM hm).1) w (hM hm).2 cs' hcs' hlim hcard
  · obtain ⟨y, h1, h2⟩ := hl.minReturns x hx
    exact (mul_le_mul_of_nonneg_right (mul_le_mul_of_nonneg_right h2 hk.le) hs.le).trans (h.return' y h1)
  · obtain ⟨y, h1, h2⟩ := hl.risks r x hx
    obtain ⟨b, hb1, hb2⟩ := h.risks r y h1
    exact ⟨b, hb1, hb2.trans (mul_le_mul_of_nonneg_right (mul_le_mul_of_nonneg_right h2 hk.le) hs.le)⟩

/-- **C112.** The minimised objective of the looser problem is not larger, for every objective and risk measure. -/
theorem C112_objective (w w' : Fin n → ℝ) (k k' : ℝ) (hk : 0 < k) (hM : isMip p = true → k ≤ 1000 ∧ ∀ i, |w i| ≤ 1000) (a : (riskProgram m m.riskMeasure w k).Aux)
    (a' : (riskProgram m m.riskMeasure w' k').Aux) (h : Feasible m cs w k a) (h' : IsOptimum (withLimits m p l) cs' w' k' a') :
    objectiveValue m w' k' a' ≤ objectiveValue m w k a :=
  h'.2 w k a (C112_feasible m hs p l hp hl cs cs' hcs hcs' w k hk hM a h)

/-- **C112.** If the portfolio of the looser problem meets the tighter limits, it solves the tighter problem: limits that do not bind do not matter. -/
theorem C112_not_binding (hr : m.objective ≠ .maximizeRatio) (hmip : isMip p = false) (w : Fin n → ℝ) (k : ℝ) (a : (riskProgram m m.riskMeasure w k).Aux)
    (h' : IsOptimum (withLimits m p l) cs' w k a) (h : Feasible m cs w k a) : IsOptimum m cs w k a := by
  refine ⟨h, fun v k1 b hv => ?_⟩
  have hk1 : k1 = 1 := hv.factor hr
  subst hk1
  exact h'.2 v 1 b (C112_feasible m hs p l hp hl cs cs' hcs hcs' v 1 one_pos (fun hm => by rw [hmip] at hm; cases hm) b hv)

/-- **C112.** `MAXIMIZE_RATIO`: the ratio of the portfolio of the looser problem is not smaller (cross-multiplied, as in C18). -/
theorem C112_maximize_ratio (hso : 0 < m.scaleObjective) (ho : m.objective = .maximizeRatio) (hte : l.maxTrackingError = none)
    (hvar : m.riskLimits .variance = none) (hsv : m.riskLimits .semiVariance = none) (hvar' : l.riskLimits .variance = none) (hsv' : l.riskLimits .semiVariance = none)
    (h1 : degree m.riskMeasure = 1 → m.l2Coef = 0) (h2 : degree m.riskMeasure = 2 → m.l1Coef = 0)
    (w w' : Fin n → ℝ) (k k' : ℝ) (hk : 0 < k) (hk' : 0 < k') (a : (riskProgram m m.riskMeasure w k).Aux) (a' : (riskProgram m m.riskMeasure w' k').Aux)
    (h : Feasible m cs w k a) (h' : IsOptimum (withLimits m p l) cs' w' k' a') (he : 0 < excessReturn m (returnedWeights w k))
    (hM : isMip p = true → homogenizationFactor m.data.mu / excessReturn m (returnedWeights w k) ≤ 1000 ∧
      ∀ i, |homogenizationFactor m.data.mu / excessReturn m (returnedWeights w k) * returnedWeights w k i| ≤ 1000)
    (rho rho' : ℝ) (hrho : IsOptimalValue (riskProgram m m.riskMeasure (returnedWeights w k) 1) rho)
    (hrho' : IsOptimalValue (riskProgram m m.riskMeasure (returnedWeights w' k') 1) rho') (hpos : isAffine m ∨ 0 ≤ penalised m rho (returnedWeights w k)) :
    0 < excessReturn m (returnedWeights w' k') ∧
      excessReturn m (returnedWeights w k) ^ degree m.riskMeasure * penalised m rho' (returnedWeights w' k') ≤
        excessReturn m (returnedWeights w' k') ^ degree m.riskMeasure * penalised m rho (returnedWeights w k) := by
  have hal := C18_returned_allowed m hs cs hcs hvar hsv w k hk a h
  have hal' : Allowed (withLimits m p l) (returnedWeights w k) := by
    refine ⟨limits_looser _ _ hp _ hal.limits, cardinality_looser _ _ hp _ hal.cardinality, ⟨fun x hx i => ?_, fun x hx => ?_⟩, fun r x hx => ?_⟩
    · obtain ⟨y, h1, h2⟩ := hl.turnover x hx
      exact (hal.returns.turnover y h1 i).trans h2
    · obtain ⟨y, h1, h2⟩ := hl.minReturns x hx
      exact h2.trans (hal.returns.minReturn y h1)
    · obtain ⟨y, h1, h2⟩ := hl.risks r x hx
      obtain ⟨b, hb1, hb2⟩ := hal.risks r y h1
      exact ⟨b, hb1, hb2.trans h2⟩
  exact C18_ratio (withLimits m p l) hs hso cs' ho hcs' hte hvar' hsv' h1 h2 w' k' hk' a' h' rho' hrho' (returnedWeights w k) hal' he hM rho hrho hpos

variable (P : Partition ℝ) (hso : 0 < m.scaleObjective) (hT : 2 ≤ T) (hb : BetasOk m) (R : (Fin n → ℝ) → ℝ) (hR : IsRiskOf P m m.riskMeasure R)
include hso hT hb hR

/-- **C112.** `MINIMIZE_RISK`: the risk (plus penalty) of the portfolio of the looser problem is not larger. -/
theorem C112_minimize_risk (ho : m.objective = .minimizeRisk) (w w' : Fin n → ℝ) (k k' : ℝ) (hM : isMip p = true → ∀ i, |w i| ≤ 1000) (a : (riskProgram m m.riskMeasure w k).Aux)
    (a' : (riskProgram m m.riskMeasure w' k').Aux) (h : IsOptimum m cs w k a) (h' : IsOptimum (withLimits m p l) cs' w' k' a') :
    R (returnedWeights w' k') + penalty m (returnedWeights w' k') ≤ R (returnedWeights w k) + penalty m (returnedWeights w k) := by
  have hr : m.objective ≠ .maximizeRatio := by rw [ho]; decide
  have hk := h.1.factor hr
  have hk' : k' = 1 := h'.1.factor hr
  subst hk hk'
  rw [returned_one, returned_one]
  have key : R w' + penalty m w' - penalty m w ≤ R w := by
    refine (risk_glb P m hs hT hb _ R hR w).2 _ fun b hb' => ?_
    have := C112_objective m hs p l hp hl cs cs' hcs hcs' w w' 1 1 one_pos (fun hm => ⟨by norm_num, hM hm⟩) b a' { h.1 with aux := hb' } h'
    unfold objectiveValue at this
    simp only [ho] at this
    rw [← add_mul, ← add_mul, mul_le_mul_iff_left₀ hso, penalty_eq, penalty_eq] at this
    have := (risk_glb P m hs hT hb _ R hR w').1 a' h'.1.aux
    linarith
  linarith

/-- **C112.** `MAXIMIZE_RETURN`: the expected return (less penalty) of the portfolio of the looser problem is not smaller. -/
theorem C112_maximize_return (ho : m.objective = .maximizeReturn) (w w' : Fin n → ℝ) (k k' : ℝ) (hM : isMip p = true → ∀ i, |w i| ≤ 1000) (a : (riskProgram m m.riskMeasure w k).Aux)
    (a' : (riskProgram m m.riskMeasure w' k').Aux) (h : IsOptimum m cs w k a) (h' : IsOptimum (withLimits m p l) cs' w' k' a') :
    netExpectedReturn m (returnedWeights w k) - penalty m (returnedWeights w k) ≤ netExpectedReturn m (returnedWeights w' k') - penalty m (returnedWeights w' k') := by
  have hr : m.objective ≠ .maximizeRatio := by rw [ho]; decide
  have hk := h.1.factor hr
  have hk' : k' = 1 := h'.1.factor hr
  subst hk hk'
  rw [returned_one, returned_one]
  have := C112_objective m hs p l hp hl cs cs' hcs hcs' w w' 1 1 one_pos (fun hm => ⟨by norm_num, hM hm⟩) a a' h.1 h'
  unfold objectiveValue at this
  simp only [ho] at this
  rwa [neg_le_neg_iff, ← sub_mul, ← sub_mul, mul_le_mul_iff_left₀ hso, penalty_eq, penalty_eq, expected_one, expected_one] at this

/-- **C112.** `MAXIMIZE_UTILITY`: the utility of the portfolio of the looser problem is not smaller. -/
theorem C112_maximize_utility (ho : m.objective = .maximizeUtility) (ha0 : 0 ≤ m.riskAversion) (w w' : Fin n → ℝ) (k k' : ℝ) (hM : isMip p = true → ∀ i, |w i| ≤ 1000)
    (a : (riskProgram m m.riskMeasure w k).Aux) (a' : (riskProgram m m.riskMeasure w' k').Aux) (h : IsOptimum m cs w k a) (h' : IsOptimum (withLimits m p l) cs' w' k' a') :
    netExpectedReturn m (returnedWeights w k) - m.riskAversion * R (returnedWeights w k) - penalty m (returnedWeights w k) ≤
      netExpectedReturn m (returnedWeights w' k') - m.riskAversion * R (returnedWeights w' k') - penalty m (returnedWeights w' k') := by
  have hr : m.objective ≠ .maximizeRatio := by rw [ho]; decide
  have hk := h.1.factor hr
  have hk' : k' = 1 := h'.1.factor hr
  subst hk hk'
  rw [returned_one, returned_one]
  have hv := mul_le_mul_of_nonneg_left ((risk_glb P m hs hT hb _ R hR w').1 a' h'.1.aux) ha0
  have hopt : ∀ b, (riskProgram m m.riskMeasure w 1).feasible b → netExpectedReturn m w - m.riskAversion * (riskProgram m m.riskMeasure w 1).risk b - penalty m w ≤
      netExpectedReturn m w' - m.riskAversion * (riskProgram m m.riskMeasure w' 1).risk a' - penalty m w' := by
    intro b hb'
    have := C112_objective m hs p l hp hl cs cs' hcs hcs' w w' 1 1 one_pos (fun hm => ⟨by norm_num, hM hm⟩) b a' { h.1 with aux := hb' } h'
    unfold objectiveValue at this
    simp only [ho] at this
    rwa [neg_le_neg_iff, ← sub_mul, ← sub_mul, ← sub_mul, ← sub_mul, mul_le_mul_iff_left₀ hso, penalty_eq, penalty_eq, expected_one, expected_one] at this
  rcases ha0.eq_or_lt with h0 | h0
  · have := hopt a h.1.aux
    rw [← h0] at this hv ⊢
    linarith
  · have : (netExpectedReturn m w - penalty m w - (netExpectedReturn m w' - m.riskAversion * R w' - penalty m w')) / m.riskAversion ≤ R w := by
      refine (risk_glb P m hs hT hb _ R hR w).2 _ fun b hb' => ?_
      rw [div_le_iff₀ h0]
      linarith [hopt b hb']
    rw [div_le_iff₀ h0] at this
    linarith

end

end

/-! ### A case that meets the hypotheses -/

section

/-- The problem of `frontierAssets` in which the first asset is limited to a quarter and the expected return is at least `r`. -/
noncomputable def tight (x y r : ℝ) : MeanRisk 2 2 := { frontierAssets x y with weights := { longOnly with maxWeights := some ![1 / 4, 1] }, minReturns := [r] }

theorem tight_looser (x y r r' : ℝ) (hr : r' ≤ r) : LooserWeights (tight x y r).weights { longOnly with maxWeights := some ![1 / 2, 1], budget := none, minBudget := some (9 / 10), maxBudget := some 1 } ∧
    LooserLimits (tight x y r) { maxTrackingError := none, maxTurnover := none, minReturns := [r'], riskLimits := fun _ => none } := by
  refine ⟨⟨?_, ?_, ?_, ?_, ?_, ?_, ?_, ?_, ?_, ?_, ?_, ?_, ?_, ?_⟩, ⟨?_, ?_, ?_, ?_⟩⟩
  · rintro _ ⟨⟩
    exact ⟨_, rfl, fun i => le_rfl⟩
  · rintro _ ⟨⟩
    refine ⟨_, rfl, fun i => ?_⟩
    fin_cases i <;> norm_num
  · rintro _ ⟨⟩
  · rintro _ ⟨⟩
  · rintro _ ⟨⟩
    exact ⟨1, Or.inr rfl, by norm_num⟩
  · rintro _ ⟨⟩
    exact ⟨1, Or.inr rfl, by norm_num⟩
  · rintro _ ⟨⟩
  · intro row h
    exact absurd h List.not_mem_nil
  · intro row h
    exact absurd h List.not_mem_nil
  · rintro _ ⟨⟩
  · rintro _ ⟨⟩
  · rintro _ ⟨⟩
  · rintro _ ⟨⟩
  · rintro _ ⟨⟩
  · rintro _ ⟨⟩
  · rintro _ ⟨⟩
  · intro x hx
    refine ⟨r, List.mem_singleton.2 rfl, ?_⟩
    rw [List.mem_singleton.1 hx]
    exact hr
  · rintro _ _ ⟨⟩

/-- A quarter of the first asset and three quarters of the second: a point of the tight problem, hence of the looser one. -/
example : ∃ cs cs', getWeightConstraints (tight (4 / 100) (2 / 100) (25 / 1000)).weights false true (1 : ℝ) = .ok cs ∧
    getWeightConstraints { longOnly with maxWeights := some ![1 / 2, 1], budget := none, minBudget := some (9 / 10), maxBudget := some 1 } false true (1 : ℝ) = .ok cs' ∧
    Feasible (withLimits (tight (4 / 100) (2 / 100) (25 / 1000)) { longOnly with maxWeights := some ![1 / 2, 1], budget := none, minBudget := some (9 / 10), maxBudget := some 1 }
      { maxTrackingError := none, maxTurnover := none, minReturns := [2 / 100], riskLimits := fun _ => none }) cs' ![1 / 4, 3 / 4] 1 (1 : ℝ) := by
  have h1 : ∃ cs, getWeightConstraints (tight (4 / 100) (2 / 100) (25 / 1000)).weights false true (1 : ℝ) = .ok cs := by
    unfold getWeightConstraints
    simp [tight, longOnly, noLimits, isMip, simpleConstraints, minConstraint, longConstraint, shortConstraint, budgetConstraint, mipPart, bind, Except.bind, pure, Except.pure]
  have h2 : ∃ cs, getWeightConstraints { longOnly with maxWeights := some ![1 / 2, 1], budget := none, minBudget := some (9 / 10), maxBudget := some 1 } false true (1 : ℝ) = .ok cs := by
    unfold getWeightConstraints
    simp [longOnly, noLimits, isMip, simpleConstraints, minConstraint, longConstraint, shortConstraint, budgetConstraint, mipPart, bind, Except.bind, pure, Except.pure]
  obtain ⟨cs, h1⟩ := h1
  obtain ⟨cs', h2⟩ := h2
  obtain ⟨g1, g2⟩ := tight_looser (4 / 100) (2 / 100) (25 / 1000) (2 / 100) (by norm_num)
  refine ⟨cs, cs', h1, h2, C112_feasible _ one_pos _ _ g1 g2 cs cs' h1 h2 _ 1 one_pos (fun h => by cases h) _ ?_⟩
  refine ⟨fun _ => rfl, fun x hx => (by cases hx), fun x hx => (by cases hx), ?_, fun z hz' => ?_, fun r x hx => (by cases hx), (frontier_std (4 / 100) (2 / 100) _ 1 1).2 ⟨zero_le_one, ?_⟩, fun h => by cases h⟩
  · refine (C19_weight_limits _ false true 1 1 one_pos one_pos _ cs h1 rfl).2 ?_
    refine ⟨?_, ?_, ?_, ?_, ?_, ?_, ?_, ?_, ?_, ?_⟩
    · rintro _ ⟨⟩ i
      fin_cases i <;> norm_num
    · rintro _ ⟨⟩ i
      fin_cases i <;> norm_num
    · rintro _ ⟨⟩
    · rintro _ ⟨⟩
    · rintro _ ⟨⟩
    · rintro _ ⟨⟩
    · rintro _ ⟨⟩
      norm_num [Fin.sum_univ_two]
    · intro row h
      exact absurd h List.not_mem_nil
    · intro row h
      exact absurd h List.not_mem_nil
    · rintro _ ⟨⟩
  · rw [List.mem_singleton.1 hz']
    change expectedReturn (frontierAssets (4 / 100) (2 / 100)) _ 1 * 1 ≥ _
    rw [frontier_expected]
    norm_num [tight, frontierAssets, twoAssets]
  · refine Real.sqrt_le_iff.2 ⟨zero_le_one, ?_⟩
    norm_num

end

end Skfolio.Convex
