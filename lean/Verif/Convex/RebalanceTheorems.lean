import Verif.Convex.RobustnessTheorems

/-!
C135. Rebalancing with transaction costs: MeanRisk trades only if it pays.
-/
set_option autoImplicit false

namespace Skfolio.Convex

open Skfolio.Measures

section
variable {n T : Nat}

/-! ### Specification -/

/-- What it costs to go from the previous weights to `w`. -/
noncomputable def costOf (m : MeanRisk n T) (w : Fin n → ℝ) : ℝ := ∑ i, |m.data.transactionCosts i| * |w i - m.data.previousWeights i|

/-- What the portfolio is worth before transaction costs, by the objective: expected return, or utility, less the penalty. (The risk `R` is that of the model: for the measures that are computed after costs it includes them.) -/
noncomputable def worth (m : MeanRisk n T) (R : (Fin n → ℝ) → ℝ) (w : Fin n → ℝ) : ℝ :=
  match m.objective with
  | .maximizeUtility => netExpectedReturn (withCosts m 0) w - m.riskAversion * R w - penalty m w
  | _ => netExpectedReturn (withCosts m 0) w - penalty m w

/-- The measures that the optimiser computes from the returns before transaction costs. -/
def beforeCosts : RiskMeasure → Bool
  | .meanAbsoluteDeviation | .firstLowerPartialMoment | .standardDeviation | .variance | .semiVariance | .semiDeviation | .evar => true
  | _ => false

/-- The problem with other previous weights and other transaction costs. -/
def withTrading (m : MeanRisk n T) (previous costs : Fin n → ℝ) : MeanRisk n T := { m with data := { m.data with previousWeights := previous, transactionCosts := costs } }

/-! ### The problem without costs -/

theorem expected_without (m : MeanRisk n T) (w : Fin n → ℝ) : netExpectedReturn m w = netExpectedReturn (withCosts m 0) w - costOf m w := by
  unfold netExpectedReturn costOf
  change _ = (∑ i, w i * m.overwrite.getD m.data.mu i) - (∑ i, |(0 : ℝ)| * |w i - m.data.previousWeights i|) - (∑ i, w i * m.data.managementFees i) - muUncertainty m w - _
  simp only [abs_zero, zero_mul, Finset.sum_const_zero]
  ring

theorem costOf_nonneg (m : MeanRisk n T) (w : Fin n → ℝ) : 0 ≤ costOf m w := Finset.sum_nonneg fun _ _ => mul_nonneg (abs_nonneg _) (abs_nonneg _)

theorem costOf_previous (m : MeanRisk n T) : costOf m m.data.previousWeights = 0 := by
  unfold costOf
  simp

theorem transactionCost_without (m : MeanRisk n T) (w : Fin n → ℝ) (k : ℝ) : transactionCost (withCosts m 0).data w k = 0 := by
  unfold transactionCost
  change ∑ i, |0 * _| = (0 : ℝ)
  simp

theorem transactionCost_nonneg (d : Data ℝ n T) (w : Fin n → ℝ) (k : ℝ) : 0 ≤ transactionCost d w k := Finset.sum_nonneg fun _ _ => abs_nonneg _

theorem transactionCost_previous (m : MeanRisk n T) : transactionCost m.data m.data.previousWeights 1 = 0 := by
  unfold transactionCost
  simp

theorem drawdown_without (m : MeanRisk n T) (hs : 0 < m.scale) (w : Fin n → ℝ) (k : ℝ) (v : Fin (T + 1) → ℝ) (h : drawdownFeasible m.data w k m.scale v) :
    drawdownFeasible (withCosts m 0).data w k m.scale v := by
  refine ⟨fun t => ?_, h.2⟩
  have h1 := h.1 t
  have h2 := mul_nonneg (transactionCost_nonneg m.data w k) hs.le
  rw [transactionCost_without]
  change v t.succ * m.scale ≥ v t.castSucc * m.scale - ptfReturns m.data w t * m.scale + 0 * m.scale + managementFee m.data w * m.scale
  linarith

theorem gini_weights (hT : 2 ≤ T) : ∑ j : Fin T, owaGmdWeight T (j : Nat) = (0 : ℝ) := by
  have h := gini_sorted (K := ℝ) (T := T) fun _ => 1
  simp only [mul_one] at h
  rw [← h]
  rw [C15_gini, List.ofFn_const]
  unfold meanAbsDifference
  have h1 : ∀ i ∈ List.range (List.replicate T (1 : ℝ)).length, (List.replicate T (1 : ℝ)).getD i 0 = 1 := by
    intro i hi
    rw [List.mem_range, List.length_replicate] at hi
    simp [hi]
  have h2 : (List.range (List.replicate T (1 : ℝ)).length).map (fun i => ((List.range (List.replicate T (1 : ℝ)).length).map fun j => |(List.replicate T (1 : ℝ)).getD i 0 - (List.replicate T (1 : ℝ)).getD j 0|).sum) =
      (List.range (List.replicate T (1 : ℝ)).length).map fun _ => (0 : ℝ) := by
    refine List.map_congr_left fun i hi => ?_
    have : (List.range (List.replicate T (1 : ℝ)).length).map (fun j => |(List.replicate T (1 : ℝ)).getD i 0 - (List.replicate T (1 : ℝ)).getD j 0|) = (List.range (List.replicate T (1 : ℝ)).length).map fun _ => (0 : ℝ) := by
      refine List.map_congr_left fun j hj => ?_
      rw [h1 i hi, h1 j hj, sub_self, abs_zero]
    rw [this]
    simp
  rw [h2]
  simp

/-- What is feasible with costs is feasible without, with the same risk. -/
theorem risk_without (m : MeanRisk n T) (hs : 0 < m.scale) (hT : 2 ≤ T) (r : RiskMeasure) (w : Fin n → ℝ) (k : ℝ) (a : (riskProgram m r w k).Aux) (ha : (riskProgram m r w k).feasible a) :
    ∃ b, (riskProgram (withCosts m 0) r w k).feasible b ∧ (riskProgram (withCosts m 0) r w k).risk b = (riskProgram m r w k).risk a := by
  have h2 := mul_nonneg (transactionCost_nonneg m.data w k) hs.le
  cases r with
  | meanAbsoluteDeviation => exact ⟨a, ha, rfl⟩
  | firstLowerPartialMoment => exact ⟨a, ha, rfl⟩
  | standardDeviation => exact ⟨a, ha, rfl⟩
  | variance => exact ⟨a, ha, rfl⟩
  | semiVariance => exact ⟨a, ha, rfl⟩
  | semiDeviation => exact ⟨a, ha, rfl⟩
  | evar => exact ⟨a, ha, rfl⟩
  | worstRealization =>
    refine ⟨a, fun t => ?_, rfl⟩
    have := ha t
    rw [transactionCost_without]
    refine le_trans (b := -ptfReturns m.data w t * m.scale + transactionCost m.data w k * m.scale + managementFee m.data w * m.scale) ?_ this
    change -ptfReturns m.data w t * m.scale + 0 * m.scale + managementFee m.data w * m.scale ≤ _
    linarith
  | cvar =>
    refine ⟨a, ⟨ha.1, fun t => ?_⟩, rfl⟩
    have := ha.2 t
    rw [transactionCost_without]
    change ptfReturns m.data w t * m.scale - 0 * m.scale - managementFee m.data w * m.scale + a.1 * m.scale + a.2 t * m.scale ≥ 0
    linarith
  | maxDrawdown => exact ⟨a, ⟨drawdown_without m hs w k _ ha.1, ha.2⟩, rfl⟩
  | averageDrawdown => exact ⟨a, drawdown_without m hs w k _ ha, rfl⟩
  | cdar => exact ⟨a, ⟨drawdown_without m hs w k _ ha.1, ha.2⟩, rfl⟩
  | edar => exact ⟨a, ⟨drawdown_without m hs w k _ ha.1, ha.2⟩, rfl⟩
  | ulcerIndex => exact ⟨a, drawdown_without m hs w k _ ha, rfl⟩
  | giniMeanDifference =>
    obtain ⟨c, hc⟩ : ∃ c, c = transactionCost m.data w k := ⟨_, rfl⟩
    obtain ⟨x, y, z⟩ := a
    refine ⟨(fun j => x j + c * (owaGmdWeight T (j : Nat) / 2), y, fun t => z t + c), ⟨fun t => ?_, fun i j => ?_⟩, ?_⟩
    · have := ha.1 t
      rw [transactionCost_without]
      change ptfReturns m.data w t * m.scale - 0 * m.scale - managementFee m.data w * m.scale = (z t + c) * m.scale
      change ptfReturns m.data w t * m.scale - transactionCost m.data w k * m.scale - managementFee m.data w * m.scale = z t * m.scale at this
      rw [hc]
      linarith
    · have := ha.2 i j
      change z i * (owaGmdWeight T (j : Nat) / 2) ≤ x j + y i at this
      change (z i + c) * (owaGmdWeight T (j : Nat) / 2) ≤ x j + c * (owaGmdWeight T (j : Nat) / 2) + y i
      linarith
    · change 2 * ∑ t, (x t + c * (owaGmdWeight T (t : Nat) / 2) + y t) = 2 * ∑ t, (x t + y t)
      have h0 := gini_weights hT
      have : ∑ t : Fin T, (x t + c * (owaGmdWeight T (t : Nat) / 2) + y t) = ∑ t, (x t + y t) + c / 2 * ∑ t : Fin T, owaGmdWeight T (t : Nat) := by
        rw [Finset.mul_sum, ← Finset.sum_add_distrib]
        exact Finset.sum_congr rfl fun t _ => by ring
      rw [this, h0]
      ring

/-- At the previous weights costs make no difference. -/
theorem risk_previous (m : MeanRisk n T) (r : RiskMeasure) : riskProgram (withCosts m 0) r m.data.previousWeights 1 = riskProgram m r m.data.previousWeights 1 := by
  have e := (transactionCost_without m m.data.previousWeights 1).trans (transactionCost_previous m).symm
  have hd : ∀ v, drawdownFeasible (withCosts m 0).data m.data.previousWeights 1 m.scale v = drawdownFeasible m.data m.data.previousWeights 1 m.scale v := by
    intro v
    unfold drawdownFeasible
    rw [e]
    rfl
  cases r
  case worstRealization => unfold riskProgram worstRealizationRisk; simp only [e]; rfl
  case cvar => unfold riskProgram cvarRisk; simp only [e]; rfl
  case maxDrawdown => unfold riskProgram maxDrawdownRisk; simp only; congr 1; funext x; rw [← hd]; rfl
  case averageDrawdown => unfold riskProgram averageDrawdownRisk; simp only; congr 1; funext x; rw [← hd]; rfl
  case cdar => unfold riskProgram cdarRisk; simp only; congr 1; funext x; rw [← hd]; rfl
  case edar => unfold riskProgram edarRisk; simp only; congr 1; funext x; rw [← hd]; rfl
  case ulcerIndex => unfold riskProgram ulcerIndexRisk; simp only; congr 1; funext x; rw [← hd]; rfl
  case giniMeanDifference => unfold riskProgram giniRisk; simp only [e]; rfl
  all_goals rfl

theorem transfer {p q : Program ℝ} (h : p = q) (a : p.Aux) : ∃ b : q.Aux, q.risk b = p.risk a ∧ (p.feasible a → q.feasible b) := by
  subst h
  exact ⟨a, rfl, id⟩

section
variable (m : MeanRisk n T) (hs : 0 < m.scale) (hso : 0 < m.scaleObjective) (hT : 2 ≤ T) (hr : m.objective ≠ .maximizeRatio) (cs : List (Constraint ℝ n))

include hs hT hr in
theorem feasible_without (w : Fin n → ℝ) (a : (riskProgram m m.riskMeasure w 1).Aux) (h : Feasible m cs w 1 a) :
    ∃ b, Feasible (withCosts m 0) cs w 1 b ∧ (riskProgram (withCosts m 0) m.riskMeasure w 1).risk b = (riskProgram m m.riskMeasure w 1).risk a := by
  obtain ⟨b, hb, e⟩ := risk_without m hs hT m.riskMeasure w 1 a h.aux
  refine ⟨b, ⟨fun _ => rfl, h.tracking, h.turnover, h.weight, fun x hx => ?_, fun r x hx => ?_, hb, fun h => absurd h hr⟩, e⟩
  · have := h.return' x hx
    rw [expected_one, expected_without] at this
    rw [expected_one]
    have h2 := mul_nonneg (costOf_nonneg m w) hs.le
    change netExpectedReturn (withCosts m 0) w * m.scale ≥ x * 1 * m.scale
    linarith
  · obtain ⟨c, hc, hle⟩ := h.risks r x hx
    obtain ⟨d, hd, hde⟩ := risk_without m hs hT r w 1 c hc
    exact ⟨d, hd, by rw [hde]; exact hle⟩

include hr in
theorem feasible_previous (b : (riskProgram (withCosts m 0) m.riskMeasure m.data.previousWeights 1).Aux) (h : Feasible (withCosts m 0) cs m.data.previousWeights 1 b) :
    ∃ a, Feasible m cs m.data.previousWeights 1 a ∧ (riskProgram m m.riskMeasure m.data.previousWeights 1).risk a = (riskProgram (withCosts m 0) m.riskMeasure m.data.previousWeights 1).risk b := by
  obtain ⟨a, e, ha⟩ := transfer (risk_previous m m.riskMeasure) b
  refine ⟨a, ⟨fun _ => rfl, h.tracking, h.turnover, h.weight, fun x hx => ?_, fun r x hx => ?_, ha h.aux, fun h => absurd h hr⟩, e⟩
  · have := h.return' x hx
    rw [expected_one] at this
    rw [expected_one, expected_without, costOf_previous, sub_zero]
    exact this
  · obtain ⟨c, hc, hle⟩ := h.risks r x hx
    obtain ⟨d, e2, hd⟩ := transfer (risk_previous m r) c
    exact ⟨d, hd hc, by rw [e2]; exact hle⟩

/-- The objective as a function of risk, expected return before costs, costs and penalty. -/
theorem objective_costs (hr : m.objective ≠ .maximizeRatio) : ∃ x y : ℝ, (0 ≤ m.riskAversion → 0 ≤ x) ∧ 0 ≤ y ∧ (m.objective = .maximizeReturn ∨ m.objective = .maximizeUtility → y = 1) ∧
    (∀ w a, objectiveValue m w 1 a = (x * (riskProgram m m.riskMeasure w 1).risk a - y * (netExpectedReturn (withCosts m 0) w - costOf m w) + penalty m w) * m.scaleObjective) ∧
    ∀ w b, objectiveValue (withCosts m 0) w 1 b = (x * (riskProgram (withCosts m 0) m.riskMeasure w 1).risk b - y * netExpectedReturn (withCosts m 0) w + penalty m w) * m.scaleObjective := by
  have e1 : ∀ w, expectedReturn m w 1 = netExpectedReturn (withCosts m 0) w - costOf m w := fun w => by rw [expected_one, expected_without]
  have e2 : ∀ w, expectedReturn (withCosts m 0) w 1 = netExpectedReturn (withCosts m 0) w := fun w => expected_one _ w
  have e3 : ∀ w, regularization (withCosts m 0) w = penalty m w := fun _ => rfl
  have e4 : (withCosts m 0).objective = m.objective := rfl
  have e5 : (withCosts m 0).riskAversion = m.riskAversion := rfl
  have e6 : (withCosts m 0).scaleObjective = m.scaleObjective := rfl
  unfold objectiveValue
  simp only [e1, e2, e3, e4, e5, e6, penalty_eq]
  cases ho : m.objective with
  | maximizeReturn => exact ⟨0, 1, fun _ => le_rfl, zero_le_one, fun _ => rfl, fun w a => by ring, fun w b => by ring⟩
  | minimizeRisk => exact ⟨1, 0, fun _ => zero_le_one, le_rfl, fun h => (by rcases h with h | h <;> cases h), fun w a => by ring, fun w b => by change _ = (1 * (riskProgram (withCosts m 0) (withCosts m 0).riskMeasure w 1).risk b - _ + _) * _; ring⟩
  | maximizeUtility => exact ⟨m.riskAversion, 1, id, zero_le_one, fun _ => rfl, fun w a => by ring, fun w b => by change _ = (_ * (riskProgram (withCosts m 0) (withCosts m 0).riskMeasure w 1).risk b - _ + _) * _; ring⟩
  | maximizeRatio => exact absurd ho hr

include hs hso hT hr in
/-- **C135.** If the previous weights are optimal without transaction costs, they are optimal with any transaction costs, for all limits, measures and objectives but the ratio. Where the expected return or the utility is
maximised, no other portfolio is optimal that trades an asset with a cost. -/
theorem C135_stays (b : (riskProgram (withCosts m 0) m.riskMeasure m.data.previousWeights 1).Aux) (h : IsOptimum (withCosts m 0) cs m.data.previousWeights 1 b) :
    (∃ a, IsOptimum m cs m.data.previousWeights 1 a) ∧
      (m.objective = .maximizeReturn ∨ m.objective = .maximizeUtility → ∀ w k a, IsOptimum m cs w k a → ∀ i, m.data.transactionCosts i ≠ 0 → returnedWeights w k i = m.data.previousWeights i) := by
  obtain ⟨x, y, hx, hy, hy1, f1, f2⟩ := objective_costs m hr
  obtain ⟨a, ha, e⟩ := feasible_previous m hr cs b h.1
  have key : ∀ w a', Feasible m cs w 1 a' → objectiveValue m m.data.previousWeights 1 a + y * costOf m w * m.scaleObjective ≤ objectiveValue m w 1 a' := by
    intro w a' h'
    obtain ⟨b', hb', e'⟩ := feasible_without m hs hT hr cs w a' h'
    have := (f2 _ b).symm.le.trans ((h.2 w 1 b' hb').trans (f2 w b').le)
    rw [← e, e'] at this
    rw [f1, f1, costOf_previous]
    linarith
  refine ⟨⟨a, ha, fun w' k' a' h' => ?_⟩, fun ho w k a' h' i hi => ?_⟩
  · obtain rfl : k' = 1 := h'.factor hr
    have := key w' a' h'
    have h2 := mul_nonneg (mul_nonneg hy (costOf_nonneg m w')) hso.le
    linarith
  · obtain rfl : k = 1 := h'.1.factor hr
    rw [returned_one]
    have h1 := key w a' h'.1
    have h2 := h'.2 _ 1 a ha
    rw [hy1 ho] at h1
    have h3 : costOf m w ≤ 0 := by
      by_contra hn
      have := mul_pos (not_le.1 hn) hso
      linarith
    have h4 := (Finset.sum_eq_zero_iff_of_nonneg fun i _ => mul_nonneg (abs_nonneg (m.data.transactionCosts i)) (abs_nonneg (w i - m.data.previousWeights i))).1 (le_antisymm h3 (costOf_nonneg m w)) i (Finset.mem_univ i)
    rcases mul_eq_zero.1 h4 with h5 | h5
    · exact absurd (abs_eq_zero.1 h5) hi
    · exact sub_eq_zero.1 (abs_eq_zero.1 h5)

end

section
variable (P : Partition ℝ) (m : MeanRisk n T) (hs : 0 < m.scale) (hso : 0 < m.scaleObjective) (hT : 2 ≤ T) (hb : BetasOk m) (cs : List (Constraint ℝ n))
  (hcs : getWeightConstraints m.weights (factorIsVariable m) true m.scale = .ok cs) (R : (Fin n → ℝ) → ℝ) (hR : IsRiskOf P m m.riskMeasure R) (hprev : Comparable P m m.data.previousWeights)
include hs hso hT hb hcs hR hprev

/-- **C135.** If the previous weights are within the limits, what the returned portfolio is worth more than they are covers what the trades cost. -/
theorem C135_trades_pay (ho : m.objective = .maximizeReturn ∨ m.objective = .maximizeUtility) (ha0 : 0 ≤ m.riskAversion) (w : Fin n → ℝ) (k : ℝ) (a : (riskProgram m m.riskMeasure w k).Aux) (h : IsOptimum m cs w k a) :
    costOf m (returnedWeights w k) ≤ worth m R (returnedWeights w k) - worth m R m.data.previousWeights := by
  unfold worth
  rcases ho with ho | ho
  · have := (C67_maximize_return P m hs hso hT hb cs hcs R hR ho w k a h).2 _ hprev
    rw [expected_without, expected_without m (returnedWeights w k), costOf_previous] at this
    rw [ho]
    simp only
    linarith
  · have := (C67_maximize_utility P m hs hso hT hb cs hcs R hR ho ha0 w k a h).2 _ hprev
    rw [expected_without, expected_without m (returnedWeights w k), costOf_previous] at this
    rw [ho]
    simp only
    linarith

/-- **C135.** Maximising the expected return with a fixed budget: if for any two assets the difference of the expected returns (after fees) does not cover the cost of selling one and buying the other, nothing is traded. -/
theorem C135_no_trade (ho : m.objective = .maximizeReturn) (ha0 : 0 ≤ m.riskAversion) (hu : m.uncertainty = none) (h1 : m.l1Coef = 0) (h2 : m.l2Coef = 0)
    (hB : m.weights.budget = some (∑ i, m.data.previousWeights i))
    (hc : ∀ i j, (returnVector m i - m.data.managementFees i) - (returnVector m j - m.data.managementFees j) < |m.data.transactionCosts i| + |m.data.transactionCosts j|)
    (w : Fin n → ℝ) (k : ℝ) (a : (riskProgram m m.riskMeasure w k).Aux) (h : IsOptimum m cs w k a) : returnedWeights w k = m.data.previousWeights := by
  have hpay := C135_trades_pay P m hs hso hT hb cs hcs R hR hprev (.inl ho) ha0 w k a h
  have hin := (C67_maximize_return P m hs hso hT hb cs hcs R hR ho w k a h).1
  generalize returnedWeights w k = v at *
  have hsum : ∑ i, (v i - m.data.previousWeights i) = 0 := by
    rw [Finset.sum_sub_distrib, hin.limits.budget _ hB, sub_self]
  obtain ⟨g, hg⟩ : ∃ g : Fin n → ℝ, g = fun i => returnVector m i - m.data.managementFees i := ⟨_, rfl⟩
  have hc : ∀ i j, g i - g j < |m.data.transactionCosts i| + |m.data.transactionCosts j| := by rw [hg]; exact hc
  have hworth : worth m R v - worth m R m.data.previousWeights = ∑ i, g i * (v i - m.data.previousWeights i) := by
    have hn : ∀ u : Fin n → ℝ, worth m R u = ∑ i, g i * u i := by
      intro u
      unfold worth netExpectedReturn penalty
      rw [ho, h1, h2, hg]
      change (∑ i, u i * m.overwrite.getD m.data.mu i) - (∑ i, |(0 : ℝ)| * |u i - m.data.previousWeights i|) - (∑ i, u i * m.data.managementFees i) - muUncertainty m u - _ = _
      unfold muUncertainty returnVector
      rw [hu]
      simp only [abs_zero, zero_mul, Finset.sum_const_zero, sub_zero, add_zero, sub_mul, Finset.sum_sub_distrib]
      congr 1 <;> exact Finset.sum_congr rfl fun i _ => mul_comm _ _
    rw [hn, hn, ← Finset.sum_sub_distrib]
    exact Finset.sum_congr rfl fun i _ => by ring
  rw [hworth] at hpay
  funext i
  -- a level between what is worth buying and what is worth selling
  obtain ⟨M, hM⟩ : ∃ M, ∀ j, |g j - M| < |m.data.transactionCosts j| := by
    obtain ⟨p, -, hp⟩ := Finset.exists_max_image Finset.univ (fun j => g j - |m.data.transactionCosts j|) ⟨i, Finset.mem_univ i⟩
    obtain ⟨q, -, hq⟩ := Finset.exists_min_image Finset.univ (fun j => g j + |m.data.transactionCosts j|) ⟨i, Finset.mem_univ i⟩
    refine ⟨((g p - |m.data.transactionCosts p|) + (g q + |m.data.transactionCosts q|)) / 2, fun j => ?_⟩
    have a1 := hp j (Finset.mem_univ j)
    have a2 := hq j (Finset.mem_univ j)
    have a3 := hc p q
    rw [abs_lt]
    constructor <;> linarith
  by_contra hne
  have hlt : ∑ j, (g j - M) * (v j - m.data.previousWeights j) < ∑ j, |m.data.transactionCosts j| * |v j - m.data.previousWeights j| := by
    refine Finset.sum_lt_sum (fun j _ => ?_) ⟨i, Finset.mem_univ i, ?_⟩
    · exact (le_abs_self _).trans (by rw [abs_mul]; exact mul_le_mul_of_nonneg_right (hM j).le (abs_nonneg _))
    · refine lt_of_le_of_lt (le_abs_self _) ?_
      rw [abs_mul]
      exact mul_lt_mul_of_pos_right (hM i) (abs_pos.2 (sub_ne_zero.2 hne))
  have he : ∑ j, (g j - M) * (v j - m.data.previousWeights j) = ∑ j, g j * (v j - m.data.previousWeights j) := by
    have : ∑ j, (g j - M) * (v j - m.data.previousWeights j) = ∑ j, g j * (v j - m.data.previousWeights j) - M * ∑ j, (v j - m.data.previousWeights j) := by
      rw [Finset.mul_sum, ← Finset.sum_sub_distrib]
      exact Finset.sum_congr rfl fun j _ => by ring
    rw [this, hsum, mul_zero, sub_zero]
  rw [he] at hlt
  exact absurd hpay (not_le.2 hlt)

end

/-- **C135.** Finding: where the risk is minimised and the measure is one that the optimiser computes before costs, transaction costs and previous weights have no effect (unless the turnover or the return is limited):
the optimal solutions are the same for all of them. -/
theorem C135_minimum_risk_ignores_costs (m : MeanRisk n T) (hr : beforeCosts m.riskMeasure = true) (ho : m.objective = .minimizeRisk) (hmin : m.minReturns = []) (hturn : m.maxTurnover = none) (hlim : ∀ r, m.riskLimits r = none)
    (previous costs : Fin n → ℝ) (cs : List (Constraint ℝ n)) (w : Fin n → ℝ) (k : ℝ) :
    (∃ a, IsOptimum (withTrading m previous costs) cs w k a) ↔ ∃ a, IsOptimum m cs w k a := by
  have e : ∀ w k, riskProgram (withTrading m previous costs) m.riskMeasure w k = riskProgram m m.riskMeasure w k := by
    intro w k
    cases hm : m.riskMeasure <;> rw [hm] at hr <;> first | rfl | cases hr
  have hval : ∀ w k a a', (riskProgram (withTrading m previous costs) m.riskMeasure w k).risk a = (riskProgram m m.riskMeasure w k).risk a' → objectiveValue (withTrading m previous costs) w k a = objectiveValue m w k a' := by
    intro w k a a' h
    unfold objectiveValue
    have : (withTrading m previous costs).objective = m.objective := rfl
    rw [this, ho]
    simp only
    change (riskProgram (withTrading m previous costs) m.riskMeasure w k).risk a * m.scaleObjective + _ = _
    rw [h]
    rfl
  have hto : ∀ w k a, Feasible (withTrading m previous costs) cs w k a → ∃ a', Feasible m cs w k a' ∧ (riskProgram (withTrading m previous costs) m.riskMeasure w k).risk a = (riskProgram m m.riskMeasure w k).risk a' := by
    intro w k a h
    obtain ⟨a', h1, h2⟩ := transfer (e w k) a
    refine ⟨a', ⟨h.factor, h.tracking, fun x hx => ?_, h.weight, fun x hx => ?_, fun r x hx => ?_, h2 h.aux, fun h => ?_⟩, h1.symm⟩
    · rw [hturn] at hx; cases hx
    · rw [hmin] at hx; cases hx
    · rw [hlim r] at hx; cases hx
    · rw [ho] at h; cases h
  have hfrom : ∀ w k a', Feasible m cs w k a' → ∃ a, Feasible (withTrading m previous costs) cs w k a ∧ (riskProgram (withTrading m previous costs) m.riskMeasure w k).risk a = (riskProgram m m.riskMeasure w k).risk a' := by
    intro w k a' h
    obtain ⟨a, h1, h2⟩ := transfer (e w k).symm a'
    refine ⟨a, ⟨h.factor, h.tracking, fun x hx => ?_, h.weight, fun x hx => ?_, fun r x hx => ?_, h2 h.aux, fun h => ?_⟩, h1⟩
    · have hx : m.maxTurnover = some x := hx
      rw [hturn] at hx; cases hx
    · have hx : x ∈ m.minReturns := hx
      rw [hmin] at hx; cases hx
    · have hx : m.riskLimits r = some x := hx
      rw [hlim r] at hx; cases hx
    · have h : m.objective = .maximizeRatio := h
      rw [ho] at h; cases h
  constructor
  · rintro ⟨a, h1, h2⟩
    obtain ⟨a', f1, f2⟩ := hto w k a h1
    refine ⟨a', f1, fun w2 k2 a2 g => ?_⟩
    obtain ⟨a3, g1, g2⟩ := hfrom w2 k2 a2 g
    rw [← hval w k a a' f2, ← hval w2 k2 a3 a2 g2]
    exact h2 w2 k2 a3 g1
  · rintro ⟨a, h1, h2⟩
    obtain ⟨a', f1, f2⟩ := hfrom w k a h1
    refine ⟨a', f1, fun w2 k2 a2 g => ?_⟩
    obtain ⟨a3, g1, g2⟩ := hto w2 k2 a2 g
    rw [hval w k a' a f2, hval w2 k2 a2 a3 g2]
    exact h2 w2 k2 a3 g1

end

end Skfolio.Convex
