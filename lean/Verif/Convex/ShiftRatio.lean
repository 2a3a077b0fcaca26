import Verif.Convex.ShiftTheorems
import Verif.Convex.RatioTheorems
import Verif.Convex.TradeOffExamples

/-!
**C121** for the ratio: what all assets and the risk-free investment earn alike does not decide between portfolios.
-/
set_option autoImplicit false

namespace Skfolio.Convex

open Skfolio.Measures

section
variable {n T : Nat}

/-- Every asset, the benchmark and the risk-free investment earn `c` more; portfolios are fully invested. -/
noncomputable def shiftedRate (m : MeanRisk n T) (c : ℝ) : MeanRisk n T :=
  { shifted m 1 c with data := { (shifted m 1 c).data with riskFreeRate := m.data.riskFreeRate + c } }

/-- Measures of dispersion whose target does not contain the risk-free rate. -/
def IsDispersion (r : RiskMeasure) : Prop := isDrawdown r = false ∧ deducted r = 0 ∧ r ≠ .firstLowerPartialMoment

theorem riskAtMost_rate (P : Partition ℝ) (m : MeanRisk n T) (x : ℝ) (r : RiskMeasure) (hr : r ≠ .firstLowerPartialMoment) (w : Fin n → ℝ) (y : ℝ) :
    RiskAtMost P { m with data := { m.data with riskFreeRate := x } } r w y ↔ RiskAtMost P m r w y := by
  cases r <;> first | exact Iff.rfl | exact absurd rfl hr

theorem riskAtMost_shiftedRate (P : Partition ℝ) (m : MeanRisk n T) (hT : 0 < T) (hb : BetasOk m) (c : ℝ) (w : Fin n → ℝ) (hw : ∑ i, w i = 1) (r : RiskMeasure) (hr : IsDispersion r) (x : ℝ) :
    RiskAtMost P (shiftedRate m c) r w x ↔ RiskAtMost P m r w x := by
  have h := C121_risk P m hT hb 1 c w hw r hr.1 x
  rw [hr.2.1, mul_zero, sub_zero] at h
  exact (riskAtMost_rate P (shifted m 1 c) _ r hr.2.2 w x).trans h

theorem excess_shiftedRate (m : MeanRisk n T) (c : ℝ) (w : Fin n → ℝ) (hw : ∑ i, w i = 1) : excessReturn (shiftedRate m c) w = excessReturn m w := by
  have h := C121_return m 1 c w hw
  unfold excessReturn
  change netExpectedReturn (shifted m 1 c) w - (m.data.riskFreeRate + c) = _
  rw [h]
  ring

theorem dispersion_exact {r : RiskMeasure} (hr : IsDispersion r) : r ≠ .evar ∧ r ≠ .edar := by
  refine ⟨?_, ?_⟩
  · rintro rfl
    exact one_ne_zero hr.2.1
  · rintro rfl
    exact absurd hr.1 (by decide)

section
variable (P : Partition ℝ) (m : MeanRisk n T) (hs : 0 < m.scale) (hT : 2 ≤ T) (hb : BetasOk m) (c : ℝ)
include P hs hT hb

theorem program_shiftedRate (w : Fin n → ℝ) (hw : ∑ i, w i = 1) (r : RiskMeasure) (hr : IsDispersion r) (x : ℝ) :
    (∃ a, (riskProgram (shiftedRate m c) r w 1).feasible a ∧ (riskProgram (shiftedRate m c) r w 1).risk a ≤ x) ↔ ∃ a, (riskProgram m r w 1).feasible a ∧ (riskProgram m r w 1).risk a ≤ x := by
  obtain ⟨e1, e2⟩ := dispersion_exact hr
  have h := riskAtMost_shiftedRate P m (by omega) hb c w hw r hr x
  have p := program_atMost P m hs hT hb r w x
  have p' := program_atMost P (shiftedRate m c) hs hT hb r w x
  exact ⟨fun hx => p.2 e1 e2 (h.1 (p'.1 hx)), fun hx => p'.2 e1 e2 (h.2 (p.1 hx))⟩

theorem optimal_shiftedRate (w : Fin n → ℝ) (hw : ∑ i, w i = 1) (r : RiskMeasure) (hr : IsDispersion r) (rho : ℝ) (h : IsOptimalValue (riskProgram m r w 1) rho) :
    IsOptimalValue (riskProgram (shiftedRate m c) r w 1) rho := by
  have hiff : ∀ x, (∃ a, (riskProgram (shiftedRate m c) r w 1).feasible a ∧ (riskProgram (shiftedRate m c) r w 1).risk a ≤ x) ↔ rho ≤ x := fun x =>
    (program_shiftedRate P m hs hT hb c w hw r hr x).trans (atMost_of_optimal h x)
  have hle : ∀ a, (riskProgram (shiftedRate m c) r w 1).feasible a → rho ≤ (riskProgram (shiftedRate m c) r w 1).risk a := fun a ha => (hiff _).1 ⟨a, ha, le_rfl⟩
  obtain ⟨a, ha, hx⟩ := (hiff rho).2 le_rfl
  exact ⟨⟨a, ha, le_antisymm hx (hle a ha)⟩, hle⟩

theorem allowed_shiftedRate (hB : m.weights.budget = some 1) (hl : ∀ r x, m.riskLimits r = some x → IsDispersion r) (w : Fin n → ℝ) : Allowed (shiftedRate m c) w ↔ Allowed m w := by
  have hlim : ∀ r x, m.riskLimits r = some x → (shiftedRate m c).riskLimits r = some x := by
    intro r x hx
    change (m.riskLimits r).map _ = _
    rw [hx, Option.map_some, (hl r x hx).2.1, mul_zero, sub_zero]
  constructor
  · intro h
    have hw := h.limits.budget 1 hB
    refine ⟨h.limits, h.cardinality, ⟨h.returns.turnover, fun x hx => ?_⟩, fun r x hx => ?_⟩
    · have := h.returns.minReturn (x + 1 * c) (List.mem_map.2 ⟨x, hx, rfl⟩)
      have e : netExpectedReturn (shiftedRate m c) w = _ := C121_return m 1 c w hw
      rw [e] at this
      linarith
    · exact (program_shiftedRate P m hs hT hb c w hw r (hl r x hx) x).1 (h.risks r x (hlim r x hx))
  · intro h
    have hw := h.limits.budget 1 hB
    refine ⟨h.limits, h.cardinality, ⟨h.returns.turnover, fun x hx => ?_⟩, fun r x hx => ?_⟩
    · obtain ⟨y, hy, rfl⟩ := List.mem_map.1 hx
      have e : netExpectedReturn (shiftedRate m c) w = _ := C121_return m 1 c w hw
      rw [e]
      linarith [h.returns.minReturn y hy]
    · have hx' : (m.riskLimits r).map (fun x => x - 1 * c * deducted r) = some x := hx
      obtain ⟨y, hy, rfl⟩ := Option.map_eq_some_iff.1 hx'
      rw [(hl r y hy).2.1, mul_zero, sub_zero]
      exact (program_shiftedRate P m hs hT hb c w hw r (hl r y hy) y).2 (h.risks r y hy)

/-- **C121.** `MAXIMIZE_RATIO` with a measure of dispersion: if all assets and the risk-free investment earn `c` more, the fit of fully invested portfolios is within the limits of the original problem and has the greatest ratio of excess return to risk there
(cross-multiplied as in C18). -/
theorem C121_ratio (hso : 0 < m.scaleObjective) (hB : m.weights.budget = some 1) (hl : ∀ r x, m.riskLimits r = some x → IsDispersion r ∧ r ≠ .variance ∧ r ≠ .semiVariance) (hr : m.objective = .maximizeRatio)
    (hd : IsDispersion m.riskMeasure) (hte : m.maxTrackingError = none) (h1 : degree m.riskMeasure = 1 → m.l2Coef = 0) (h2 : degree m.riskMeasure = 2 → m.l1Coef = 0) (hm : isMip m.weights = false)
    (cs : List (Constraint ℝ n)) (hcs : getWeightConstraints m.weights (factorIsVariable m) true m.scale = .ok cs) (w : Fin n → ℝ) (k : ℝ) (hk : 0 < k) (a : (riskProgram (shiftedRate m c) m.riskMeasure w k).Aux)
    (h : IsOptimum (shiftedRate m c) cs w k a) :
    Allowed m (returnedWeights w k) ∧ ∀ rho, IsOptimalValue (riskProgram m m.riskMeasure (returnedWeights w k) 1) rho → ∀ w', Allowed m w' → 0 < excessReturn m w' →
      ∀ rho', IsOptimalValue (riskProgram m m.riskMeasure w' 1) rho' → 0 ≤ penalised m rho' w' →
        0 < excessReturn m (returnedWeights w k) ∧ excessReturn m w' ^ degree m.riskMeasure * penalised m rho (returnedWeights w k) ≤ excessReturn m (returnedWeights w k) ^ degree m.riskMeasure * penalised m rho' w' := by
  have hnone : ∀ q, q = .variance ∨ q = .semiVariance → (shiftedRate m c).riskLimits q = none := by
    intro q hq
    change (m.riskLimits q).map _ = none
    rw [Option.map_eq_none_iff]
    cases hx : m.riskLimits q with
    | none => rfl
    | some x => rcases hq with rfl | rfl
                · exact absurd rfl (hl _ x hx).2.1
                · exact absurd rfl (hl _ x hx).2.2
  have hiff := allowed_shiftedRate P m hs hT hb c hB fun r x hx => (hl r x hx).1
  have hall := (hiff _).1 (C18_returned_allowed (shiftedRate m c) hs cs hcs (hnone _ (.inl rfl)) (hnone _ (.inr rfl)) w k hk a h.1)
  have hw := hall.limits.budget 1 hB
  refine ⟨hall, fun rho hrho w' hw' he rho' hrho' hpos => ?_⟩
  have hb' := hw'.limits.budget 1 hB
  have e := excess_shiftedRate m c _ hw
  have e' := excess_shiftedRate m c _ hb'
  have := C18_ratio (shiftedRate m c) hs hso cs hr hcs hte (hnone _ (.inl rfl)) (hnone _ (.inr rfl)) h1 h2 w k hk a h rho (optimal_shiftedRate P m hs hT hb c _ hw _ hd rho hrho) w' ((hiff w').2 hw') (by rw [e']; exact he)
    (fun h => by rw [show isMip (shiftedRate m c).weights = isMip m.weights from rfl, hm] at h; cases h) rho' (optimal_shiftedRate P m hs hT hb c _ hb' _ hd rho' hrho') (Or.inr hpos)
  rw [e, e'] at this
  exact this

end

end

/-- The assets of `longOnly_optimum` with all rates one point lower. -/
noncomputable def lowerRates : MeanRisk 2 2 := shiftedRate (twoAssets (4 / 100) (3 / 100) longOnly) (-1 / 100)

theorem lowerRates_shifted : shiftedRate lowerRates (1 / 100) = twoAssets (4 / 100) (3 / 100) longOnly := by
  unfold lowerRates shiftedRate shifted
  simp only [twoAssets, Option.map_none, shiftedMar, List.map_nil, MeanRisk.mk.injEq, Data.mk.injEq, and_true, true_and]
  refine ⟨⟨?_, ?_, ?_⟩, ?_⟩
  · funext t i
    ring
  · funext i
    ring
  · norm_num
  · funext t
    norm_num

/-- After a shift by one point the fit has the weights 4/7 and 3/7; the hypotheses of `C121_ratio` are met. -/
example : ∃ (cs : List (Constraint ℝ 2)) (a : (riskProgram (shiftedRate lowerRates (1 / 100)) lowerRates.riskMeasure ![56 / 100, 42 / 100] (98 / 100)).Aux), lowerRates.data.riskFreeRate = -1 / 100 ∧
    IsDispersion lowerRates.riskMeasure ∧ BetasOk lowerRates ∧ lowerRates.weights.budget = some 1 ∧ (∀ r x, lowerRates.riskLimits r = some x → IsDispersion r ∧ r ≠ .variance ∧ r ≠ .semiVariance) ∧ isMip lowerRates.weights = false ∧
    getWeightConstraints lowerRates.weights true true (1 : ℝ) = .ok cs ∧ IsOptimum (shiftedRate lowerRates (1 / 100)) cs ![56 / 100, 42 / 100] (98 / 100) a := by
  obtain ⟨cs, hcs⟩ := longOnly_ok
  have h := longOnly_optimum cs hcs
  have hex : ∃ a, IsOptimum (twoAssets (4 / 100) (3 / 100) longOnly) cs ![56 / 100, 42 / 100] (98 / 100) a := ⟨_, h⟩
  rw [← lowerRates_shifted] at hex
  obtain ⟨a, ha⟩ := hex
  refine ⟨cs, a, by norm_num [lowerRates, shiftedRate, shifted, twoAssets], ⟨rfl, rfl, by decide⟩, tradeoff_betas, rfl, fun r x hx => (by cases hx), rfl, hcs, ha⟩

end Skfolio.Convex
