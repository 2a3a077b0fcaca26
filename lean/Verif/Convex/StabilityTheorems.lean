import Verif.Convex.ObjectiveTheorems
import Verif.Measures.StabilityTheorems

/-!
**C133.** The optimum is stable: small changes of the returns, the expected returns and the covariance change the risk of every portfolio little, hence also the best value, and the portfolio
fitted on the changed data is almost the best one for the original data.
-/
set_option autoImplicit false

namespace Skfolio.Convex

open Skfolio.Measures

section
variable {n T : Nat}

/-! ### Specification -/

/-- `m'` is the same problem on slightly different data: returns that differ by at most `η`, expected returns by at most `ε`, covariances by at most `c`. -/
structure Nudged (η ε c : ℝ) (m m' : MeanRisk n T) : Prop where
  same : m' = { m with data := { m.data with returns := m'.data.returns, mu := m'.data.mu }, cholesky := m'.cholesky }
  returns : ∀ t i, |m.data.returns t i - m'.data.returns t i| ≤ η
  mu : ∀ i, |m.data.mu i - m'.data.mu i| ≤ ε
  covariance : ∀ i j, |covarianceOf m i j - covarianceOf m' i j| ≤ c

/-- How much the risk of a portfolio of gross exposure `L` may change. (The semi-variance is excluded: its change depends on its size.) -/
noncomputable def slack (T : Nat) (η ε c L : ℝ) : RiskMeasure → ℝ
  | .meanAbsoluteDeviation => 2 * ((η + ε) * L)
  | .firstLowerPartialMoment => (η + ε) * L
  | .standardDeviation => Real.sqrt c * L
  | .variance => c * L ^ 2
  | .semiVariance => 0
  | .semiDeviation => Real.sqrt ((T : ℝ) / ((T : ℝ) - 1)) * ((η + ε) * L)
  | .worstRealization => η * L
  | .cvar => η * L
  | .evar => η * L
  | .maxDrawdown => (T : ℝ) * (η * L)
  | .averageDrawdown => (T : ℝ) * (η * L)
  | .cdar => (T : ℝ) * (η * L)
  | .edar => (T : ℝ) * (η * L)
  | .ulcerIndex => (T : ℝ) * (η * L)
  | .giniMeanDifference => 2 * (η * L)

/-- No limit depends on the data. -/
structure NoDataLimits (m : MeanRisk n T) : Prop where
  tracking : m.maxTrackingError = none
  minReturns : m.minReturns = []
  risks : ∀ r, m.riskLimits r = none

/-! ### Lemmas -/

theorem Nudged.symm {η ε c : ℝ} {m m' : MeanRisk n T} (h : Nudged η ε c m m') : Nudged η ε c m' m := by
  refine ⟨?_, fun t i => ?_, fun i => ?_, fun i j => ?_⟩
  · have := h.same
    cases m with
    | mk d =>
      cases m' with
      | mk d' =>
        cases d
        cases d'
        simp only [MeanRisk.mk.injEq, Data.mk.injEq] at this ⊢
        simp_all
  · rw [abs_sub_comm]
    exact h.returns t i
  · rw [abs_sub_comm]
    exact h.mu i
  · rw [abs_sub_comm]
    exact h.covariance i j

theorem linear_close (w x y : Fin n → ℝ) (η L : ℝ) (hη : 0 ≤ η) (hL : ∑ i, |w i| ≤ L) (h : ∀ i, |x i - y i| ≤ η) : |(∑ i, w i * x i) - ∑ i, w i * y i| ≤ η * L := by
  rw [← Finset.sum_sub_distrib]
  refine le_trans (Finset.abs_sum_le_sum_abs _ _) ?_
  calc ∑ i, |w i * x i - w i * y i| ≤ ∑ i, |w i| * η := by
        refine Finset.sum_le_sum fun i _ => ?_
        rw [← mul_sub, abs_mul]
        exact mul_le_mul_of_nonneg_left (h i) (abs_nonneg _)
    _ = η * ∑ i, |w i| := by rw [← Finset.sum_mul, mul_comm]
    _ ≤ η * L := mul_le_mul_of_nonneg_left hL hη

theorem quadratic_close (w : Fin n → ℝ) (A B : Fin n → Fin n → ℝ) (c L : ℝ) (hc : 0 ≤ c) (hL : ∑ i, |w i| ≤ L) (h : ∀ i j, |A i j - B i j| ≤ c) :
    |(∑ i, ∑ j, w i * A i j * w j) - ∑ i, ∑ j, w i * B i j * w j| ≤ c * L ^ 2 := by
  have e : ∀ M : Fin n → Fin n → ℝ, ∑ i, ∑ j, w i * M i j * w j = ∑ i, w i * ∑ j, w j * M i j := by
    intro M
    refine Finset.sum_congr rfl fun i _ => ?_
    rw [Finset.mul_sum]
    exact Finset.sum_congr rfl fun j _ => by ring
  have hL0 : 0 ≤ L := le_trans (Finset.sum_nonneg fun i _ => abs_nonneg _) hL
  rw [e, e]
  refine le_trans (linear_close w _ _ (c * L) L (mul_nonneg hc hL0) hL fun i => linear_close w _ _ c L hc hL (h i)) (le_of_eq (by ring))

theorem net_close (d d' : Data ℝ n T) (η L : ℝ) (hη : 0 ≤ η) (w : Fin n → ℝ) (hL : ∑ i, |w i| ≤ L) (hr : ∀ t i, |d.returns t i - d'.returns t i| ≤ η)
    (h1 : d'.transactionCosts = d.transactionCosts) (h2 : d'.previousWeights = d.previousWeights) (h3 : d'.managementFees = d.managementFees) :
    Close (η * L) (netReturns d w 1) (netReturns d' w 1) := by
  unfold netReturns
  refine List.forall₂_iff_get.2 ⟨by simp, fun k hk hk' => ?_⟩
  simp only [List.get_eq_getElem, List.getElem_ofFn, netReturn, h1, h2, h3]
  rw [sub_sub_sub_cancel_right, sub_sub_sub_cancel_right]
  exact linear_close w _ _ η L hη hL (hr _)

theorem gross_close (d d' : Data ℝ n T) (η L : ℝ) (hη : 0 ≤ η) (w : Fin n → ℝ) (hL : ∑ i, |w i| ≤ L) (hr : ∀ t i, |d.returns t i - d'.returns t i| ≤ η) :
    Close (η * L) (grossReturns d w) (grossReturns d' w) := by
  unfold grossReturns
  refine List.forall₂_iff_get.2 ⟨by simp, fun k hk hk' => ?_⟩
  simp only [List.get_eq_getElem, List.getElem_ofFn]
  exact linear_close w _ _ η L hη hL (hr _)

theorem start_close (δ : ℝ) (r r' : List ℝ) (hd : 0 ≤ δ) (h : Close δ r r') : Close ((r.length : ℝ) * δ) (drawdownsFromStart r) (drawdownsFromStart r') := by
  have h1 : Close δ (0 :: r) (0 :: r') := List.Forall₂.cons (by simpa using hd) h
  have h2 := C132_drawdowns δ _ _ (by simp) h1
  rw [List.length_cons] at h2
  push_cast at h2
  rw [add_sub_cancel_right] at h2
  unfold drawdownsFromStart
  generalize drawdowns (0 :: r) false = a at h2
  generalize drawdowns (0 :: r') false = b at h2
  cases h2 with
  | nil => exact List.Forall₂.nil
  | cons _ h => exact h

theorem ulcer_close (δ : ℝ) (r r' : List ℝ) (hr : r ≠ []) (h : Close δ r r') : ulcerIndex r' ≤ ulcerIndex r + δ := by
  have hn : (0 : ℝ) < (r.length : ℝ) := Nat.cast_pos.2 (List.length_pos_iff.2 hr)
  have hd := h.nonneg hr
  have key := root_le r' r h.length_eq.symm
  have h2 := Real.sqrt_le_sqrt (gap_le (fun x => x) (fun x y => le_rfl) δ 0 0 r r' h)
  simp only [sub_zero, abs_zero, add_zero] at h2
  rw [Real.sqrt_mul (Nat.cast_nonneg _), Real.sqrt_sq hd] at h2
  have hs : 0 < Real.sqrt (r.length : ℝ) := Real.sqrt_pos.2 hn
  unfold ulcerIndex ulcerSquared
  rw [← h.length_eq, Real.sqrt_div' _ hn.le, Real.sqrt_div' _ hn.le, div_le_iff₀ hs, add_mul, div_mul_cancel₀ _ hs.ne']
  linarith

theorem sqrt_close (a b c L : ℝ) (hc : 0 ≤ c) (hL : 0 ≤ L) (h : |a - b| ≤ c * L ^ 2) : Real.sqrt b ≤ Real.sqrt a + Real.sqrt c * L := by
  have h1 : b ≤ a + c * L ^ 2 := by linarith [(abs_le.1 h).1]
  have hcl : 0 ≤ c * L ^ 2 := by positivity
  refine Real.sqrt_le_iff.2 ⟨by positivity, ?_⟩
  have e1 := Real.sq_sqrt hc
  rcases le_total 0 a with ha | ha
  · have e2 := Real.sq_sqrt ha
    have : 0 ≤ Real.sqrt a * (Real.sqrt c * L) := by positivity
    nlinarith
  · have : Real.sqrt a = 0 := Real.sqrt_eq_zero_of_nonpos ha
    rw [this, zero_add, mul_pow, e1]
    linarith

section
variable {η ε c : ℝ} {m m' : MeanRisk n T} (hη : 0 ≤ η) (hε : 0 ≤ ε) (hc : 0 ≤ c)
include hε

theorem target_close (h : Nudged η ε c m m') (w : Fin n → ℝ) (L : ℝ) (hL : ∑ i, |w i| ≤ L) : |target m w - target m' w| ≤ ε * L := by
  have hm : m'.minAcceptableReturn = m.minAcceptableReturn := by rw [h.same]
  unfold target
  simp only [hm, mul_comm (marOf _ _ _)]
  refine linear_close w _ _ ε L hε hL fun i => ?_
  cases m.minAcceptableReturn with
  | default => exact h.mu i
  | scalar x => simpa [marOf] using hε
  | vector v => simpa [marOf] using hε

include hη hc

theorem risk_atMost (P : Partition ℝ) (h : Nudged η ε c m m') (hT : 2 ≤ T) (hb : BetasOk m) (r : RiskMeasure) (hr : r ≠ .semiVariance) (w : Fin n → ℝ) (L : ℝ)
    (hL : ∑ i, |w i| ≤ L) (x : ℝ) (hx : RiskAtMost P m r w x) : RiskAtMost P m' r w (x + slack T η ε c L r) := by
  have hL0 : 0 ≤ L := le_trans (Finset.sum_nonneg fun i _ => abs_nonneg _) hL
  have hηL : 0 ≤ η * L := mul_nonneg hη hL0
  have e1 : m'.data.transactionCosts = m.data.transactionCosts := by rw [h.same]
  have e2 : m'.data.previousWeights = m.data.previousWeights := by rw [h.same]
  have e3 : m'.data.managementFees = m.data.managementFees := by rw [h.same]
  have e4 : m'.data.riskFreeRate = m.data.riskFreeRate := by rw [h.same]
  have e5 : m'.cvarBeta = m.cvarBeta := by rw [h.same]
  have e6 : m'.evarBeta = m.evarBeta := by rw [h.same]
  have e7 : m'.cdarBeta = m.cdarBeta := by rw [h.same]
  have e8 : m'.edarBeta = m.edarBeta := by rw [h.same]
  obtain ⟨⟨c0, c1⟩, ⟨f0, f1⟩, ⟨d0, d1⟩, g0, g1⟩ := hb
  have hnet := net_close m.data m'.data η L hη w hL h.returns e1 e2 e3
  have hfree := net_close { m.data with transactionCosts := fun _ => 0 } { m'.data with transactionCosts := fun _ => 0 } η L hη w hL h.returns rfl e2 e3
  have hgross := gross_close m.data m'.data η L hη w hL h.returns
  have hlen : ∀ (d : Data ℝ n T), (netReturns d w 1).length = T := fun d => by simp [netReturns]
  have hgl : ∀ (d : Data ℝ n T), (grossReturns d w).length = T := fun d => by simp [grossReturns]
  have hne : ∀ (d : Data ℝ n T), netReturns d w 1 ≠ [] := fun d => length_ge_of_ne _ (by rw [hlen]; exact hT)
  have hgne : ∀ (d : Data ℝ n T), grossReturns d w ≠ [] := fun d => length_ge_of_ne _ (by rw [hgl]; exact hT)
  have hdd := start_close _ _ _ hηL hnet
  rw [hlen] at hdd
  have hdne : ∀ d : Data ℝ n T, drawdownsFromStart (netReturns d w 1) ≠ [] := fun d => drawdownsFromStart_ne_nil d w 1 (by omega)
  have htar := target_close hε h w L hL
  have flpm : ∀ a b : ℝ, |a - b| ≤ ε * L → firstLowerPartialMoment (grossReturns m'.data w) (some b) ≤ firstLowerPartialMoment (grossReturns m.data w) (some a) + (η + ε) * L := by
    intro a b hab
    have := mean_short _ short_loss (η * L) a b _ _ (hgne m.data) hgross
    rw [flpm_eq, flpm_eq]
    simp only [mar]
    linarith
  have hquad := quadratic_close w (covarianceOf m) (covarianceOf m') c L hc hL h.covariance
  have lift : ∀ {f : List ℝ → Option ℝ} {δ : ℝ} {s s' : List ℝ}, StableIfDefined (fun _ => 1) f → s ≠ [] → Close δ s s' → (∃ v, f s' = some v) →
      (∃ v, f s = some v ∧ v ≤ x) → ∃ v, f s' = some v ∧ v ≤ x + δ := by
    rintro f δ s s' hf hs hss ⟨v', hv'⟩ ⟨v, hv, hvx⟩
    have := hf δ s s' hs hss v v' hv hv'
    rw [one_mul] at this
    exact ⟨v', hv', by linarith [(abs_le.1 this).1]⟩
  have inf : ∀ {δ beta : ℝ} {s s' : List ℝ}, 0 ≤ beta → beta < 1 → s ≠ [] → Close δ s s' →
      (∀ b, (∀ theta, 0 < theta → b ≤ entropicRiskMeasure s theta beta) → b ≤ x) → ∀ b, (∀ theta, 0 < theta → b ≤ entropicRiskMeasure s' theta beta) → b ≤ x + δ := by
    intro δ beta s s' b0 b1 hs hss hall b hlow
    have := hall (b - δ) fun theta ht => by
      have h1 := (C132_tail P beta b0 b1).2.2.2.1 theta ht δ s s' hs hss
      have h2 := hlow theta ht
      rw [one_mul] at h1
      linarith [(abs_le.1 h1).1]
    linarith
  cases r with
  | meanAbsoluteDeviation =>
    have := flpm _ _ htar
    simp only [RiskAtMost, slack] at hx ⊢
    linarith
  | firstLowerPartialMoment =>
    have := flpm (m.data.riskFreeRate + target m w) (m'.data.riskFreeRate + target m' w) (by rw [e4, add_sub_add_left_eq_sub]; exact htar)
    simp only [RiskAtMost, slack] at hx ⊢
    linarith
  | standardDeviation =>
    have := sqrt_close _ _ c L hc hL0 hquad
    simp only [RiskAtMost, slack] at hx ⊢
    linarith
  | variance =>
    simp only [RiskAtMost, slack] at hx ⊢
    linarith [(abs_le.1 hquad).1]
  | semiVariance => exact absurd rfl hr
  | semiDeviation =>
    have := root_short _ short_loss (η * L) (target m w) (target m' w) _ _ (by rw [hgl]; exact hT) hgross
    simp only [neg_sq, hgl] at this
    have h2 : Real.sqrt ((T : ℝ) / ((T : ℝ) - 1)) * (η * L + |target m w - target m' w|) ≤ Real.sqrt ((T : ℝ) / ((T : ℝ) - 1)) * ((η + ε) * L) :=
      mul_le_mul_of_nonneg_left (by linarith) (Real.sqrt_nonneg _)
    simp only [RiskAtMost, slack, semiVariance, mar, hgl] at hx ⊢
    linarith
  | worstRealization => exact lift (C132_tail P 0 le_rfl one_pos).1 (hne _) hnet (C12_defined P _ (hne _) 0 le_rfl one_pos).2.2 hx
  | cvar =>
    simp only [RiskAtMost, slack, e5] at hx ⊢
    exact lift (C132_tail P _ c0 c1).2.2.1 (hne _) hnet (C12_defined P _ (hne _) _ c0 c1).2.1 hx
  | evar =>
    simp only [RiskAtMost, slack, e6] at hx ⊢
    exact inf f0 f1 (hne _) hfree hx
  | maxDrawdown =>
    simp only [RiskAtMost, slack, maxDrawdown, drawdownAtRisk, C12_var_one] at hx ⊢
    exact lift (C132_tail P 0 le_rfl one_pos).1 (hdne _) hdd (C12_defined P _ (hdne _) 0 le_rfl one_pos).2.2 hx
  | averageDrawdown =>
    simp only [RiskAtMost, slack, averageDrawdown, cdar] at hx ⊢
    exact lift (C132_tail P 0 le_rfl one_pos).2.2.1 (hdne _) hdd (C12_defined P _ (hdne _) 0 le_rfl one_pos).2.1 hx
  | cdar =>
    simp only [RiskAtMost, slack, cdar, e7] at hx ⊢
    exact lift (C132_tail P _ d0 d1).2.2.1 (hdne _) hdd (C12_defined P _ (hdne _) _ d0 d1).2.1 hx
  | edar =>
    simp only [RiskAtMost, slack, e8] at hx ⊢
    exact inf g0 g1 (hdne _) hdd hx
  | ulcerIndex =>
    have := ulcer_close _ _ _ (hdne _) hdd
    simp only [RiskAtMost, slack] at hx ⊢
    linarith
  | giniMeanDifference =>
    have := C132_gini _ _ _ (by rw [hlen]; exact hT) hnet
    simp only [RiskAtMost, slack] at hx ⊢
    linarith [(abs_le.1 this).1]

/-- **C133.** The risk of every portfolio changes by at most the slack. -/
theorem C133_risk (P : Partition ℝ) (h : Nudged η ε c m m') (hT : 2 ≤ T) (hb : BetasOk m) (r : RiskMeasure) (hr : r ≠ .semiVariance) (R R' : (Fin n → ℝ) → ℝ) (hR : IsRiskOf P m r R)
    (hR' : IsRiskOf P m' r R') (w : Fin n → ℝ) (L : ℝ) (hL : ∑ i, |w i| ≤ L) : |R w - R' w| ≤ slack T η ε c L r := by
  have hb' : BetasOk m' := by
    rw [h.same]
    exact hb
  have h1 := (hR' w _).1 (risk_atMost hη hε hc P h hT hb r hr w L hL _ ((hR w _).2 le_rfl))
  have h2 := (hR w _).1 (risk_atMost hη hε hc P h.symm hT hb' r hr w L hL _ ((hR' w _).2 le_rfl))
  exact abs_le.2 ⟨by linarith, by linarith⟩

omit hη hc in
/-- **C133.** The expected return of every portfolio changes by at most `ε` times its gross exposure. -/
theorem C133_return (h : Nudged η ε c m m') (w : Fin n → ℝ) (L : ℝ) (hL : ∑ i, |w i| ≤ L) : |netExpectedReturn m w - netExpectedReturn m' w| ≤ ε * L := by
  have e1 : m'.data.transactionCosts = m.data.transactionCosts := by rw [h.same]
  have e2 : m'.data.previousWeights = m.data.previousWeights := by rw [h.same]
  have e3 : m'.data.managementFees = m.data.managementFees := by rw [h.same]
  have e4 : m'.overwrite = m.overwrite := by rw [h.same]
  have e5 : muUncertainty m' w = muUncertainty m w := by
    unfold muUncertainty
    rw [show m'.uncertainty = m.uncertainty by rw [h.same]]
  unfold netExpectedReturn
  rw [e1, e2, e3, e4, e5, sub_sub_sub_cancel_right, sub_sub_sub_cancel_right, sub_sub_sub_cancel_right]
  refine linear_close w _ _ ε L hε hL fun i => ?_
  cases m.overwrite with
  | none => exact h.mu i
  | some v => simpa using hε

omit hη hε hc in
theorem comparable_nudged (P : Partition ℝ) (h : Nudged η ε c m m') (hl : NoDataLimits m) (w : Fin n → ℝ) (hM : isMip m.weights = true → ∀ i, |w i| ≤ 1000) (hw : Within P m w) :
    Comparable P m' w := by
  have e1 : m'.weights = m.weights := by rw [h.same]
  have e2 : m'.maxTurnover = m.maxTurnover := by rw [h.same]
  have e3 : m'.data.previousWeights = m.data.previousWeights := by rw [h.same]
  have e4 : m'.minReturns = [] := by
    rw [h.same]
    exact hl.minReturns
  have e5 : m'.maxTrackingError = none := by
    rw [h.same]
    exact hl.tracking
  have e6 : ∀ r, m'.riskLimits r = none := by
    rw [h.same]
    exact hl.risks
  refine ⟨⟨by rw [e1]; exact hw.limits, by rw [e1]; exact hw.cardinality, ⟨by rw [e2, e3]; exact hw.returns.turnover, by simp [e4]⟩, by simp [e5], by simp [e6]⟩, by simp [e6],
    by rw [e1]; exact hM⟩

omit hη hε hc in
theorem nudged_self (h : Nudged η ε c m m') (hl : NoDataLimits m) : NoDataLimits m' := by
  rw [h.same]
  exact ⟨hl.tracking, hl.minReturns, hl.risks⟩

omit hη hε hc in
theorem within_nudged (P : Partition ℝ) (h : Nudged η ε c m m') (hl : NoDataLimits m) (w : Fin n → ℝ) (hw : Within P m' w) : Within P m w := by
  have hl' := nudged_self h hl
  have e1 : m.weights = m'.weights := by rw [h.same]
  have e2 : m.maxTurnover = m'.maxTurnover := by rw [h.same]
  have e3 : m.data.previousWeights = m'.data.previousWeights := by rw [h.same]
  refine ⟨by rw [e1]; exact hw.limits, by rw [e1]; exact hw.cardinality, ⟨by rw [e2, e3]; exact hw.returns.turnover, by simp [hl.minReturns]⟩, by simp [hl.tracking], by simp [hl.risks]⟩

end

/-! ### C133: the optimum -/

/-- The best value of `f` over a set and of `g` over the same set differ by at most `s` if the functions do, and the best point of `g` is within `2 s` of the best value of `f`. -/
theorem best_close {α : Type} (S : α → Prop) (f g : α → ℝ) (s : ℝ) (hfg : ∀ x, S x → |f x - g x| ≤ s) (x y : α) (hx : S x) (hy : S y) (hfx : ∀ z, S z → f x ≤ f z)
    (hgy : ∀ z, S z → g y ≤ g z) : |f x - g y| ≤ s ∧ f y ≤ f x + 2 * s := by
  have h1 := abs_le.1 (hfg x hx)
  have h2 := abs_le.1 (hfg y hy)
  have h3 := hfx y hy
  have h4 := hgy x hx
  exact ⟨abs_le.2 ⟨by linarith, by linarith⟩, by linarith⟩

section
variable {η ε c : ℝ} {m m' : MeanRisk n T} (hη : 0 ≤ η) (hε : 0 ≤ ε) (hc : 0 ≤ c) (P : Partition ℝ) (h : Nudged η ε c m m') (hl : NoDataLimits m) (L : ℝ)
  (hL : ∀ w, Within P m w → ∑ i, |w i| ≤ L) (hM : isMip m.weights = true → L ≤ 1000) (hs : 0 < m.scale) (hso : 0 < m.scaleObjective) (hT : 2 ≤ T) (hb : BetasOk m) (hsv : m.riskMeasure ≠ .semiVariance)
  (cs : List (Constraint ℝ n)) (hcs : getWeightConstraints m.weights (factorIsVariable m) true m.scale = .ok cs)
  (R R' : (Fin n → ℝ) → ℝ) (hR : IsRiskOf P m m.riskMeasure R) (hR' : IsRiskOf P m' m.riskMeasure R')
  (w w' : Fin n → ℝ) (k k' : ℝ) (a : (riskProgram m m.riskMeasure w k).Aux) (ho : IsOptimum m cs w k a) (a' : (riskProgram m' m'.riskMeasure w' k').Aux) (ho' : IsOptimum m' cs w' k' a')
include hη hε hc h hl hL hM hs hso hT hb hsv hcs hR hR' ho ho'

omit hη hε hc hs hso hT hb hsv hcs hR hR' ho ho' in
theorem comparable_both (v : Fin n → ℝ) (hv : Within P m v) : Comparable P m v ∧ Comparable P m' v := by
  have hbig : isMip m.weights = true → ∀ i, |v i| ≤ 1000 := fun hm i =>
    le_trans (Finset.single_le_sum (f := fun i => |v i|) (fun i _ => abs_nonneg _) (Finset.mem_univ i)) ((hL v hv).trans (hM hm))
  exact ⟨⟨hv, by simp [hl.risks], hbig⟩, comparable_nudged P h hl v hbig hv⟩

/-- **C133.** `MINIMIZE_RISK`: the least risk (plus penalty) changes by at most the slack, and on the original data the portfolio fitted on the changed data has at most twice the slack more than
the least risk. -/
theorem C133_minimize_risk (hobj : m.objective = .minimizeRisk) :
    |(R (returnedWeights w k) + penalty m (returnedWeights w k)) - (R' (returnedWeights w' k') + penalty m (returnedWeights w' k'))| ≤ slack T η ε c L m.riskMeasure ∧
    R (returnedWeights w' k') + penalty m (returnedWeights w' k') ≤ R (returnedWeights w k) + penalty m (returnedWeights w k) + 2 * slack T η ε c L m.riskMeasure := by
  have e1 : m'.riskMeasure = m.riskMeasure := by rw [h.same]
  have e2 : m'.scale = m.scale := by rw [h.same]
  have e3 : m'.scaleObjective = m.scaleObjective := by rw [h.same]
  have e4 : m'.objective = m.objective := by rw [h.same]
  have ep : ∀ v, penalty m' v = penalty m v := fun v => by rw [h.same]; rfl
  have hb' : BetasOk m' := by rw [h.same]; exact hb
  have hcs' : getWeightConstraints m'.weights (factorIsVariable m') true m'.scale = .ok cs := by rw [h.same]; exact hcs
  obtain ⟨q1, q2⟩ := C67_minimize_risk P m hs hso hT hb cs hcs R hR hobj w k a ho
  obtain ⟨q3, q4⟩ := C67_minimize_risk P m' (by rw [e2]; exact hs) (by rw [e3]; exact hso) hT hb' cs hcs' R' (by rw [e1]; exact hR') (by rw [e4]; exact hobj) w' k' a' ho'
  simp only [ep] at q4
  refine best_close (fun v => Within P m v) (fun v => R v + penalty m v) (fun v => R' v + penalty m v) _ (fun v hv => ?_) _ _ q1 (within_nudged P h hl _ q3)
    (fun v hv => q2 v (comparable_both P h hl L hL hM v hv).1) (fun v hv => q4 v (comparable_both P h hl L hL hM v hv).2)
  rw [add_sub_add_right_eq_sub]
  exact C133_risk hη hε hc P h hT hb _ hsv R R' hR hR' v L (hL v hv)

omit hη hc hsv hR' in
/-- **C133.** `MAXIMIZE_RETURN`: the greatest expected return (less penalty) changes by at most `ε L`, and the portfolio fitted on the changed data is within `2 ε L` of it. -/
theorem C133_maximize_return (hR' : IsRiskOf P m' m.riskMeasure R') (hobj : m.objective = .maximizeReturn) :
    |(netExpectedReturn m (returnedWeights w k) - penalty m (returnedWeights w k)) - (netExpectedReturn m' (returnedWeights w' k') - penalty m (returnedWeights w' k'))| ≤ ε * L ∧
    netExpectedReturn m (returnedWeights w k) - penalty m (returnedWeights w k) - 2 * (ε * L) ≤ netExpectedReturn m (returnedWeights w' k') - penalty m (returnedWeights w' k') := by
  have e1 : m'.riskMeasure = m.riskMeasure := by rw [h.same]
  have e2 : m'.scale = m.scale := by rw [h.same]
  have e3 : m'.scaleObjective = m.scaleObjective := by rw [h.same]
  have e4 : m'.objective = m.objective := by rw [h.same]
  have ep : ∀ v, penalty m' v = penalty m v := fun v => by rw [h.same]; rfl
  have hb' : BetasOk m' := by rw [h.same]; exact hb
  have hcs' : getWeightConstraints m'.weights (factorIsVariable m') true m'.scale = .ok cs := by rw [h.same]; exact hcs
  obtain ⟨q1, q2⟩ := C67_maximize_return P m hs hso hT hb cs hcs R hR hobj w k a ho
  obtain ⟨q3, q4⟩ := C67_maximize_return P m' (by rw [e2]; exact hs) (by rw [e3]; exact hso) hT hb' cs hcs' R' (by rw [e1]; exact hR') (by rw [e4]; exact hobj) w' k' a' ho'
  simp only [ep] at q4
  have := best_close (fun v => Within P m v) (fun v => -(netExpectedReturn m v - penalty m v)) (fun v => -(netExpectedReturn m' v - penalty m v)) (ε * L) (fun v hv => by
      rw [← abs_neg, show -(-(netExpectedReturn m v - penalty m v) - -(netExpectedReturn m' v - penalty m v)) = netExpectedReturn m v - netExpectedReturn m' v by ring]
      exact C133_return hε h v L (hL v hv)) _ _ q1 (within_nudged P h hl _ q3)
    (fun v hv => neg_le_neg (q2 v (comparable_both P h hl L hL hM v hv).1)) (fun v hv => neg_le_neg (q4 v (comparable_both P h hl L hL hM v hv).2))
  obtain ⟨t1, t2⟩ := this
  refine ⟨?_, by linarith⟩
  rw [← abs_neg]
  refine le_trans (le_of_eq ?_) t1
  congr 1
  ring

/-- **C133.** `MAXIMIZE_UTILITY`: the greatest utility (less penalty) changes by at most `ε L` plus the risk aversion times the slack. -/
theorem C133_maximize_utility (hobj : m.objective = .maximizeUtility) (ha0 : 0 ≤ m.riskAversion) :
    |(netExpectedReturn m (returnedWeights w k) - m.riskAversion * R (returnedWeights w k) - penalty m (returnedWeights w k)) -
      (netExpectedReturn m' (returnedWeights w' k') - m.riskAversion * R' (returnedWeights w' k') - penalty m (returnedWeights w' k'))| ≤ ε * L + m.riskAversion * slack T η ε c L m.riskMeasure ∧
    netExpectedReturn m (returnedWeights w k) - m.riskAversion * R (returnedWeights w k) - penalty m (returnedWeights w k) - 2 * (ε * L + m.riskAversion * slack T η ε c L m.riskMeasure) ≤
      netExpectedReturn m (returnedWeights w' k') - m.riskAversion * R (returnedWeights w' k') - penalty m (returnedWeights w' k') := by
  have e1 : m'.riskMeasure = m.riskMeasure := by rw [h.same]
  have e2 : m'.scale = m.scale := by rw [h.same]
  have e3 : m'.scaleObjective = m.scaleObjective := by rw [h.same]
  have e4 : m'.objective = m.objective := by rw [h.same]
  have e5 : m'.riskAversion = m.riskAversion := by rw [h.same]
  have ep : ∀ v, penalty m' v = penalty m v := fun v => by rw [h.same]; rfl
  have hb' : BetasOk m' := by rw [h.same]; exact hb
  have hcs' : getWeightConstraints m'.weights (factorIsVariable m') true m'.scale = .ok cs := by rw [h.same]; exact hcs
  obtain ⟨q1, q2⟩ := C67_maximize_utility P m hs hso hT hb cs hcs R hR hobj ha0 w k a ho
  obtain ⟨q3, q4⟩ := C67_maximize_utility P m' (by rw [e2]; exact hs) (by rw [e3]; exact hso) hT hb' cs hcs' R' (by rw [e1]; exact hR') (by rw [e4]; exact hobj) (by rw [e5]; exact ha0) w' k' a' ho'
  simp only [ep, e5] at q4
  have := best_close (fun v => Within P m v) (fun v => -(netExpectedReturn m v - m.riskAversion * R v - penalty m v)) (fun v => -(netExpectedReturn m' v - m.riskAversion * R' v - penalty m v))
    (ε * L + m.riskAversion * slack T η ε c L m.riskMeasure) (fun v hv => by
      rw [show -(netExpectedReturn m v - m.riskAversion * R v - penalty m v) - -(netExpectedReturn m' v - m.riskAversion * R' v - penalty m v) =
        -(netExpectedReturn m v - netExpectedReturn m' v) + m.riskAversion * (R v - R' v) by ring]
      refine le_trans (abs_add_le _ _) ?_
      rw [abs_neg, abs_mul, abs_of_nonneg ha0]
      exact add_le_add (C133_return hε h v L (hL v hv)) (mul_le_mul_of_nonneg_left (C133_risk hη hε hc P h hT hb _ hsv R R' hR hR' v L (hL v hv)) ha0)) _ _ q1 (within_nudged P h hl _ q3)
    (fun v hv => neg_le_neg (q2 v (comparable_both P h hl L hL hM v hv).1)) (fun v hv => neg_le_neg (q4 v (comparable_both P h hl L hL hM v hv).2))
  obtain ⟨t1, t2⟩ := this
  refine ⟨?_, by linarith⟩
  rw [← abs_neg]
  refine le_trans (le_of_eq ?_) t1
  congr 1
  ring

end

/-- **C133.** With the default limits (no short positions, a budget) the gross exposure is the budget. -/
theorem C133_long_only (p : Params ℝ n) (l : Fin n → ℝ) (hl : p.minWeights = some l) (h0 : ∀ i, 0 ≤ l i) (b : ℝ) (hb : p.budget = some b) (w : Fin n → ℝ) (hw : RespectsLimits p w) :
    ∑ i, |w i| = b := by
  rw [← hw.budget b hb]
  exact Finset.sum_congr rfl fun i _ => abs_of_nonneg (le_trans (h0 i) (hw.atLeast l hl i))

end

end Skfolio.Convex
