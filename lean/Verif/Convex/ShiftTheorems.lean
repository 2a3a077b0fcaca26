import Verif.Convex.TradeOffTheorems
import Verif.Measures.ScaleTheorems

/-!
**C121.** What all assets earn does not decide between them: adding the same number to the returns of all assets changes neither the set of portfolios within the limits nor the best of them, when the budget is fixed.
-/
set_option autoImplicit false

namespace Skfolio.Convex

open Skfolio.Measures

section
variable {n T : Nat}

/-! ### Specification -/

/-- Minimum acceptable returns that go with the returns (`None`: the expected returns, which are shifted themselves). -/
def shiftedMar (c : ℝ) : Mar ℝ n → Mar ℝ n
  | .default => .default
  | .scalar x => .scalar (x + c)
  | .vector v => .vector fun i => v i + c

/-- Whether the measure is one of drawdowns, which depend on the path of the wealth. -/
def isDrawdown : RiskMeasure → Bool
  | .maxDrawdown | .averageDrawdown | .cdar | .edar | .ulcerIndex => true
  | _ => false

/-- How much of a riskless income is deducted from the risk: all for the measures of the loss, nothing for the measures of dispersion. -/
def deducted : RiskMeasure → ℝ
  | .worstRealization | .cvar | .evar => 1
  | _ => 0

/-- Every asset, the benchmark included, earns `c` more; portfolios have the budget `B`, so that they earn `B c` more, and the limits on return and risk are shifted by that. -/
noncomputable def shifted (m : MeanRisk n T) (B c : ℝ) : MeanRisk n T :=
  { m with
    data := { m.data with returns := fun t i => m.data.returns t i + c, mu := fun i => m.data.mu i + c }
    overwrite := m.overwrite.map fun v i => v i + c
    minAcceptableReturn := shiftedMar c m.minAcceptableReturn
    benchmark := fun t => m.benchmark t + B * c
    minReturns := m.minReturns.map fun x => x + B * c
    riskLimits := fun r => (m.riskLimits r).map fun x => x - B * c * deducted r }

/-! ### Portfolios -/

theorem sum_shift (B c : ℝ) (w x : Fin n → ℝ) (hw : ∑ i, w i = B) : ∑ i, w i * (x i + c) = (∑ i, w i * x i) + B * c := by
  rw [← hw, Finset.sum_mul, ← Finset.sum_add_distrib]
  exact Finset.sum_congr rfl fun i _ => by ring

theorem gross_shift (m : MeanRisk n T) (B c : ℝ) (w : Fin n → ℝ) (hw : ∑ i, w i = B) : grossReturns (shifted m B c).data w = withCash (B * c) (grossReturns m.data w) := by
  unfold grossReturns withCash
  rw [List.map_ofFn]
  congr 1
  funext t
  exact sum_shift B c w (m.data.returns t) hw

theorem net_shift (m : MeanRisk n T) (B c : ℝ) (w : Fin n → ℝ) (hw : ∑ i, w i = B) : netReturns (shifted m B c).data w 1 = withCash (B * c) (netReturns m.data w 1) := by
  unfold netReturns withCash
  rw [List.map_ofFn]
  congr 1
  funext t
  have := sum_shift B c w (m.data.returns t) hw
  change (∑ i, w i * (m.data.returns t i + c)) - _ - _ = _
  rw [this, Function.comp_apply]
  change (∑ i, w i * m.data.returns t i) + B * c - _ - _ = (∑ i, w i * m.data.returns t i) - _ - _ + B * c
  rw [add_sub_right_comm, add_sub_right_comm]
  rfl

theorem net_shift_free (m : MeanRisk n T) (B c : ℝ) (w : Fin n → ℝ) (hw : ∑ i, w i = B) :
    netReturns { (shifted m B c).data with transactionCosts := fun _ => 0 } w 1 = withCash (B * c) (netReturns { m.data with transactionCosts := fun _ => 0 } w 1) :=
  net_shift { m with data := { m.data with transactionCosts := fun _ => 0 } } B c w hw

theorem target_shift (m : MeanRisk n T) (B c : ℝ) (w : Fin n → ℝ) (hw : ∑ i, w i = B) : target (shifted m B c) w = target m w + B * c := by
  have e : ∀ i, marOf (shifted m B c).data (shifted m B c).minAcceptableReturn i = marOf m.data m.minAcceptableReturn i + c := by
    intro i
    change marOf _ (shiftedMar c m.minAcceptableReturn) i = _
    cases m.minAcceptableReturn <;> rfl
  unfold target
  simp only [e]
  have h := sum_shift B c w (marOf m.data m.minAcceptableReturn) hw
  rw [Finset.sum_congr rfl fun i _ => mul_comm (w i) _, Finset.sum_congr rfl fun i _ => mul_comm (w i) (marOf m.data m.minAcceptableReturn i)] at h
  exact h

/-- **C121.** The risk of a portfolio: measures of dispersion do not change, from the measures of the loss the additional income is deducted. -/
theorem C121_risk (P : Partition ℝ) (m : MeanRisk n T) (hT : 0 < T) (hb : BetasOk m) (B c : ℝ) (w : Fin n → ℝ) (hw : ∑ i, w i = B) (r : RiskMeasure) (hd : isDrawdown r = false) (x : ℝ) :
    RiskAtMost P (shifted m B c) r w (x - B * c * deducted r) ↔ RiskAtMost P m r w x := by
  have e1 := gross_shift m B c w hw
  have e2 := net_shift m B c w hw
  have e3 := target_shift m B c w hw
  have e4 := net_shift_free m B c w hw
  have hg : grossReturns m.data w ≠ [] := by
    intro h
    have := congrArg List.length h
    simp [grossReturns] at this
    omega
  have hn : netReturns m.data w 1 ≠ [] := by
    intro h
    have := congrArg List.length h
    simp [netReturns] at this
    omega
  have hf : netReturns { m.data with transactionCosts := fun _ => 0 } w 1 ≠ [] := by
    intro h
    have := congrArg List.length h
    simp [netReturns] at this
    omega
  obtain ⟨-, -, hflpm, -, hsv, -, -, -, hgini⟩ := C106_cash (K := ℝ)
  have hlp := fun t : ℝ => hflpm _ hg (some t) (B * c)
  have hse := fun t : ℝ => hsv _ hg (some t) (B * c)
  simp only [Option.map_some] at hlp hse
  obtain ⟨⟨c0, c1⟩, ⟨v0, v1⟩, -⟩ := id hb
  cases r with
  | meanAbsoluteDeviation =>
    simp only [RiskAtMost, deducted, mul_zero, sub_zero, e1, e3, hlp]
  | firstLowerPartialMoment =>
    simp only [RiskAtMost, deducted, mul_zero, sub_zero, e1, e3]
    change firstLowerPartialMoment _ (some (m.data.riskFreeRate + (target m w + B * c))) ≤ x ↔ _
    rw [← add_assoc, hlp]
  | standardDeviation =>
    simp only [RiskAtMost, deducted, mul_zero, sub_zero]
    exact Iff.rfl
  | variance =>
    simp only [RiskAtMost, deducted, mul_zero, sub_zero]
    exact Iff.rfl
  | semiVariance =>
    simp only [RiskAtMost, deducted, mul_zero, sub_zero, e1, e3, hse]
  | semiDeviation =>
    simp only [RiskAtMost, deducted, mul_zero, sub_zero, e1, e3, hse]
  | worstRealization =>
    simp only [RiskAtMost, deducted, mul_one, e2]
    rw [(C106_cash_tail P _ hn 0 le_rfl one_pos (B * c)).2.2]
    constructor
    · rintro ⟨v, hv, hle⟩
      obtain ⟨u, hu, rfl⟩ := Option.map_eq_some_iff.1 hv
      exact ⟨u, hu, by linarith⟩
    · rintro ⟨v, hv, hle⟩
      exact ⟨v - B * c, by rw [hv]; rfl, by linarith⟩
  | cvar =>
    simp only [RiskAtMost, deducted, mul_one, e2]
    have hβ : (shifted m B c).cvarBeta = m.cvarBeta := rfl
    rw [hβ, (C106_cash_tail P _ hn m.cvarBeta c0 c1 (B * c)).2.1]
    constructor
    · rintro ⟨v, hv, hle⟩
      obtain ⟨u, hu, rfl⟩ := Option.map_eq_some_iff.1 hv
      exact ⟨u, hu, by linarith⟩
    · rintro ⟨v, hv, hle⟩
      exact ⟨v - B * c, by rw [hv]; rfl, by linarith⟩
  | evar =>
    simp only [RiskAtMost, deducted, mul_one]
    have hβ : (shifted m B c).evarBeta = m.evarBeta := rfl
    rw [hβ, e4]
    have he := fun theta (ht : 0 < theta) => (C106_entropic _ hf theta m.evarBeta ht v1).2.1 (B * c)
    constructor
    · intro h b hle
      have := h (b - B * c) fun theta ht => by
        rw [he theta ht]
        linarith [hle theta ht]
      linarith
    · intro h b hle
      have := h (b + B * c) fun theta ht => by
        have := hle theta ht
        rw [he theta ht] at this
        linarith
      linarith
  | giniMeanDifference =>
    simp only [RiskAtMost, deducted, mul_zero, sub_zero, e2]
    rw [hgini _ hn]
  | maxDrawdown => cases hd
  | averageDrawdown => cases hd
  | cdar => cases hd
  | edar => cases hd
  | ulcerIndex => cases hd

/-- **C121.** The expected return of a portfolio grows by the additional income. -/
theorem C121_return (m : MeanRisk n T) (B c : ℝ) (w : Fin n → ℝ) (hw : ∑ i, w i = B) : netExpectedReturn (shifted m B c) w = netExpectedReturn m w + B * c := by
  have e : (∑ i, w i * (shifted m B c).overwrite.getD (shifted m B c).data.mu i) = (∑ i, w i * m.overwrite.getD m.data.mu i) + B * c := by
    rw [← sum_shift B c w _ hw]
    refine Finset.sum_congr rfl fun i _ => ?_
    change w i * (m.overwrite.map fun v i => v i + c).getD (fun i => m.data.mu i + c) i = _
    cases m.overwrite <;> rfl
  unfold netExpectedReturn
  rw [e]
  change _ + B * c - (∑ i, |m.data.transactionCosts i| * |w i - m.data.previousWeights i|) - (∑ i, w i * m.data.managementFees i) - muUncertainty m w = _
  ring

/-- **C121.** The portfolios within the limits are the same. -/
theorem C121_within (P : Partition ℝ) (m : MeanRisk n T) (hT : 0 < T) (hb : BetasOk m) (B c : ℝ) (hB : m.weights.budget = some B) (hd : ∀ r, isDrawdown r = true → m.riskLimits r = none) (w : Fin n → ℝ) :
    Within P (shifted m B c) w ↔ Within P m w := by
  have hret : RespectsLimits m.weights w → (RespectsReturnLimits (shifted m B c) w ↔ RespectsReturnLimits m w) := by
    intro hl
    have hw := hl.budget B hB
    constructor
    · refine fun h => ⟨h.turnover, fun x hx => ?_⟩
      have := h.minReturn (x + B * c) (List.mem_map.2 ⟨x, hx, rfl⟩)
      rw [C121_return m B c w hw] at this
      linarith
    · refine fun h => ⟨h.turnover, fun x hx => ?_⟩
      obtain ⟨y, hy, rfl⟩ := List.mem_map.1 hx
      rw [C121_return m B c w hw]
      linarith [h.minReturn y hy]
  have hact : RespectsLimits m.weights w → activeRisk (shifted m B c) w = activeRisk m w := by
    intro hl
    have hw := hl.budget B hB
    unfold activeRisk
    congr 2
    refine Finset.sum_congr rfl fun t _ => ?_
    change ((∑ i, w i * (m.data.returns t i + c)) - (m.benchmark t + B * c)) ^ 2 = _
    rw [sum_shift B c w _ hw]
    ring
  have hnd : ∀ r x, m.riskLimits r = some x → isDrawdown r = false := by
    intro r x hx
    by_contra h
    rw [hd r (by simpa using h)] at hx
    cases hx
  constructor
  · intro h
    have hw := h.limits.budget B hB
    refine ⟨h.limits, h.cardinality, (hret h.limits).1 h.returns, fun x hx => ?_, fun r x hx => ?_⟩
    · rw [← hact h.limits]
      exact h.tracking x hx
    · refine (C121_risk P m hT hb B c w hw r (hnd r x hx) x).1 (h.risks r _ ?_)
      change (m.riskLimits r).map _ = _
      rw [hx]
      rfl
  · intro h
    have hw := h.limits.budget B hB
    refine ⟨h.limits, h.cardinality, (hret h.limits).2 h.returns, fun x hx => ?_, fun r x hx => ?_⟩
    · rw [hact h.limits]
      exact h.tracking x hx
    · obtain ⟨y, hy, rfl⟩ := Option.map_eq_some_iff.1 hx
      exact (C121_risk P m hT hb B c w hw r (hnd r y hy) y).2 (h.risks r y hy)

theorem comparable_shift (P : Partition ℝ) (m : MeanRisk n T) (hT : 0 < T) (hb : BetasOk m) (B c : ℝ) (hB : m.weights.budget = some B) (hd : ∀ r, isDrawdown r = true → m.riskLimits r = none) (w : Fin n → ℝ)
    (h : Comparable P m w) : Comparable P (shifted m B c) w := by
  refine ⟨(C121_within P m hT hb B c hB hd w).2 h.within, fun r hr x hx => ?_, h.bigM⟩
  obtain ⟨y, hy, rfl⟩ := Option.map_eq_some_iff.1 hx
  obtain ⟨z, hz, hle⟩ := h.entropic r hr y hy
  have hnd : isDrawdown r = false := by
    by_contra hcon
    rw [hd r (by simpa using hcon)] at hy
    cases hy
  exact ⟨z - B * c * deducted r, by linarith, (C121_risk P m hT hb B c w (h.within.limits.budget B hB) r hnd z).2 hle⟩

/-- **C121.** The portfolio of the shifted problem is within the limits of the original one and is the best within them, for every objective other than the ratio and every measure but those of drawdowns. -/
theorem C121_best (P : Partition ℝ) (m : MeanRisk n T) (hs : 0 < m.scale) (hso : 0 < m.scaleObjective) (hT : 2 ≤ T) (hb : BetasOk m) (B c : ℝ) (hB : m.weights.budget = some B)
    (hd : ∀ r, isDrawdown r = true → m.riskLimits r = none) (hdr : isDrawdown m.riskMeasure = false) (cs : List (Constraint ℝ n)) (hcs : getWeightConstraints m.weights (factorIsVariable m) true m.scale = .ok cs)
    (R R' : (Fin n → ℝ) → ℝ) (hR : IsRiskOf P m m.riskMeasure R) (hR' : IsRiskOf P (shifted m B c) m.riskMeasure R') (hr : m.objective ≠ .maximizeRatio) (ha0 : 0 ≤ m.riskAversion) (w : Fin n → ℝ) (k : ℝ)
    (a : (riskProgram (shifted m B c) m.riskMeasure w k).Aux) (h : IsOptimum (shifted m B c) cs w k a) :
    Within P m (returnedWeights w k) ∧ ∀ w', Comparable P m w' → criterion m R (returnedWeights w k) + penalty m (returnedWeights w k) ≤ criterion m R w' + penalty m w' := by
  have hT0 : 0 < T := by omega
  have hrisk : ∀ v, ∑ i, v i = B → R' v = R v - B * c * deducted m.riskMeasure := by
    intro v hv
    refine le_antisymm ?_ ?_
    · exact (hR' _ _).1 ((C121_risk P m hT0 hb B c v hv _ hdr _).2 ((hR _ _).2 le_rfl))
    · have := (hR v (R' v + B * c * deducted m.riskMeasure)).1 ((C121_risk P m hT0 hb B c v hv _ hdr _).1 (by rw [add_sub_cancel_right]; exact (hR' _ _).2 le_rfl))
      linarith
  have hpen : ∀ v, penalty (shifted m B c) v = penalty m v := fun _ => rfl
  unfold criterion
  cases ho : m.objective with
  | minimizeRisk =>
    obtain ⟨h1, h2⟩ := C67_minimize_risk P (shifted m B c) hs hso hT hb cs hcs R' hR' ho w k a h
    have h3 := (C121_within P m hT0 hb B c hB hd _).1 h1
    refine ⟨h3, fun w' hw' => ?_⟩
    have := h2 w' (comparable_shift P m hT0 hb B c hB hd w' hw')
    rw [hrisk _ (h3.limits.budget B hB), hrisk _ (hw'.within.limits.budget B hB), hpen, hpen] at this
    simp only
    linarith
  | maximizeReturn =>
    obtain ⟨h1, h2⟩ := C67_maximize_return P (shifted m B c) hs hso hT hb cs hcs R' hR' ho w k a h
    have h3 := (C121_within P m hT0 hb B c hB hd _).1 h1
    refine ⟨h3, fun w' hw' => ?_⟩
    have := h2 w' (comparable_shift P m hT0 hb B c hB hd w' hw')
    rw [C121_return m B c _ (h3.limits.budget B hB), C121_return m B c _ (hw'.within.limits.budget B hB), hpen, hpen] at this
    simp only
    linarith
  | maximizeUtility =>
    obtain ⟨h1, h2⟩ := C67_maximize_utility P (shifted m B c) hs hso hT hb cs hcs R' hR' ho ha0 w k a h
    have h3 := (C121_within P m hT0 hb B c hB hd _).1 h1
    refine ⟨h3, fun w' hw' => ?_⟩
    have := h2 w' (comparable_shift P m hT0 hb B c hB hd w' hw')
    rw [C121_return m B c _ (h3.limits.budget B hB), C121_return m B c _ (hw'.within.limits.budget B hB), hrisk _ (h3.limits.budget B hB), hrisk _ (hw'.within.limits.budget B hB), hpen, hpen] at this
    simp only
    have e : (shifted m B c).riskAversion = m.riskAversion := rfl
    rw [e] at this
    nlinarith [this]
  | maximizeRatio => exact absurd ho hr

end

end Skfolio.Convex
