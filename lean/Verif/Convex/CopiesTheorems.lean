import Verif.Convex.UniverseTheorems
import Verif.Convex.TradeOffExamples

/-!
**C138.** Copies of assets: holding the same asset under several names gives `MeanRisk` nothing new, except for the L2 penalty.
-/
set_option autoImplicit false

namespace Skfolio.Convex

open Skfolio.Measures

section
variable {n n' T : Nat}

/-! ### Specification -/

/-- The total held of each asset; `f j` is the asset of which `j` is a copy. -/
noncomputable def merge (f : Fin n' → Fin n) (w : Fin n' → ℝ) (i : Fin n) : ℝ := ∑ j with f j = i, w j

/-- The columns of `d'` are copies of those of `d`; there are no transaction costs. -/
structure AreCopies (f : Fin n' → Fin n) (d : Data ℝ n T) (d' : Data ℝ n' T) : Prop where
  returns : ∀ t j, d'.returns t j = d.returns t (f j)
  mu : ∀ j, d'.mu j = d.mu (f j)
  costs : ∀ i, d.transactionCosts i = 0
  costs' : ∀ j, d'.transactionCosts j = 0
  fees : ∀ j, d'.managementFees j = d.managementFees (f j)
  riskFree : d'.riskFreeRate = d.riskFreeRate

/-- The limits are on the totals: a portfolio within the limits `p'` on the copies is, added up, within the limits `p` on the assets. -/
def LimitsAddUp (f : Fin n' → Fin n) (p : Params ℝ n) (p' : Params ℝ n') : Prop :=
  ∀ w, RespectsLimits p' w → RespectsCardinality p' w → RespectsLimits p (merge f w) ∧ RespectsCardinality p (merge f w)

/-- `m'` is the problem `m` with copies of its assets: everything else is the same. No turnover limit and no L2 penalty. -/
structure HasCopies (f : Fin n' → Fin n) (m : MeanRisk n T) (m' : MeanRisk n' T) : Prop where
  data : AreCopies f m.data m'.data
  covariance : ∀ i j, covarianceOf m' i j = covarianceOf m (f i) (f j)
  weights : LimitsAddUp f m.weights m'.weights
  objective : m'.objective = m.objective
  riskMeasure : m'.riskMeasure = m.riskMeasure
  acceptable : ∀ j, marOf m'.data m'.minAcceptableReturn j = marOf m.data m.minAcceptableReturn (f j)
  cvarBeta : m'.cvarBeta = m.cvarBeta
  evarBeta : m'.evarBeta = m.evarBeta
  cdarBeta : m'.cdarBeta = m.cdarBeta
  edarBeta : m'.edarBeta = m.edarBeta
  riskAversion : m'.riskAversion = m.riskAversion
  l1Coef : m'.l1Coef = m.l1Coef
  l1Nonneg : 0 ≤ m.l1Coef
  l2Coef : m.l2Coef = 0
  l2Coef' : m'.l2Coef = 0
  maxTrackingError : m'.maxTrackingError = m.maxTrackingError
  benchmark : m'.benchmark = m.benchmark
  maxTurnover : m.maxTurnover = none
  minReturns : m'.minReturns = m.minReturns
  riskLimits : m'.riskLimits = m.riskLimits
  uncertainty : ∀ w, muUncertainty m' w = muUncertainty m (merge f w)
  overwrite : ∀ j, m'.overwrite.getD m'.data.mu j = m.overwrite.getD m.data.mu (f j)

/-! ### Totals -/

variable (f : Fin n' → Fin n)

theorem sum_merge (w : Fin n' → ℝ) (c : Fin n → ℝ) : ∑ i, merge f w i * c i = ∑ j, w j * c (f j) := by
  rw [← Finset.sum_fiberwise Finset.univ f fun j => w j * c (f j)]
  refine Finset.sum_congr rfl fun i _ => ?_
  unfold merge
  rw [Finset.sum_mul]
  refine Finset.sum_congr rfl fun j hj => ?_
  rw [(Finset.mem_filter.1 hj).2]

theorem sum_merge' (w : Fin n' → ℝ) (c : Fin n → ℝ) : ∑ i, c i * merge f w i = ∑ j, c (f j) * w j := by
  simp only [mul_comm (c _)]
  exact sum_merge f w c

theorem total_merge (w : Fin n' → ℝ) : ∑ i, merge f w i = ∑ j, w j := by
  have := sum_merge f w fun _ => 1
  simpa only [mul_one] using this

theorem subadditive_merge (w : Fin n' → ℝ) (F : ℝ → ℝ) (h0 : F 0 = 0) (h : ∀ x y, F (x + y) ≤ F x + F y) : ∑ i, F (merge f w i) ≤ ∑ j, F (w j) := by
  rw [← Finset.sum_fiberwise Finset.univ f fun j => F (w j)]
  exact Finset.sum_le_sum fun i _ => Finset.le_sum_of_subadditive F h0.le h _ _

theorem quadratic_merge (w : Fin n' → ℝ) (c : Fin n → Fin n → ℝ) : ∑ i, ∑ j, merge f w i * c i j * merge f w j = ∑ i, ∑ j, w i * c (f i) (f j) * w j := by
  have e1 : ∀ i, ∑ j, merge f w i * c i j * merge f w j = merge f w i * ∑ j, c i (f j) * w j := by
    intro i
    rw [← sum_merge' f w (c i), Finset.mul_sum]
    exact Finset.sum_congr rfl fun j _ => mul_assoc _ _ _
  simp only [e1]
  rw [sum_merge f w fun i => ∑ j, c i (f j) * w j]
  refine Finset.sum_congr rfl fun i _ => ?_
  rw [Finset.mul_sum]
  exact Finset.sum_congr rfl fun j _ => (mul_assoc _ _ _).symm

section
variable {f}

theorem gross_merge {d : Data ℝ n T} {d' : Data ℝ n' T} (h : AreCopies f d d') (w : Fin n' → ℝ) (t : Fin T) : ∑ i, merge f w i * d.returns t i = ∑ j, w j * d'.returns t j := by
  rw [sum_merge]
  simp only [h.returns]

theorem net_merge {d : Data ℝ n T} {d' : Data ℝ n' T} (h : AreCopies f d d') (w : Fin n' → ℝ) : netReturns d (merge f w) 1 = netReturns d' w 1 := by
  unfold netReturns
  congr 1
  funext t
  unfold netReturn
  rw [gross_merge h, sum_merge]
  simp only [h.costs, h.costs', h.fees, abs_zero, zero_mul]
  simp

theorem grossReturns_merge {d : Data ℝ n T} {d' : Data ℝ n' T} (h : AreCopies f d d') (w : Fin n' → ℝ) : grossReturns d (merge f w) = grossReturns d' w := by
  unfold grossReturns
  congr 1
  funext t
  exact gross_merge h w t

theorem free_copies {d : Data ℝ n T} {d' : Data ℝ n' T} (h : AreCopies f d d') : AreCopies f { d with transactionCosts := fun _ => 0 } { d' with transactionCosts := fun _ => 0 } :=
  ⟨h.returns, h.mu, fun _ => rfl, fun _ => rfl, h.fees, h.riskFree⟩

variable {m : MeanRisk n T} {m' : MeanRisk n' T} (h : HasCopies f m m')
include h

/-- **C138.** The totals have the same risk, by every measure. -/
theorem C138_risk (P : Partition ℝ) (r : RiskMeasure) (w : Fin n' → ℝ) (x : ℝ) : RiskAtMost P m r (merge f w) x ↔ RiskAtMost P m' r w x := by
  have e1 := net_merge h.data w
  have e2 := grossReturns_merge h.data w
  have e3 : target m (merge f w) = target m' w := by
    unfold target
    rw [sum_merge']
    simp only [h.acceptable]
  have e4 : ∑ i, ∑ j, merge f w i * covarianceOf m i j * merge f w j = ∑ i, ∑ j, w i * covarianceOf m' i j * w j := by
    rw [quadratic_merge]
    simp only [h.covariance]
  have e5 := net_merge (free_copies h.data) w
  cases r <;> simp only [RiskAtMost, e1, e2, e3, e4, e5, h.cvarBeta, h.evarBeta, h.cdarBeta, h.edarBeta]
  rw [h.data.riskFree]

/-- **C138.** They have the same expected return after costs. -/
theorem C138_return (w : Fin n' → ℝ) : netExpectedReturn m (merge f w) = netExpectedReturn m' w := by
  unfold netExpectedReturn
  rw [h.uncertainty, sum_merge, sum_merge]
  simp only [h.data.costs, h.data.costs', h.data.fees, h.overwrite, abs_zero, zero_mul]
  simp

/-- Adding up does not increase the L1 penalty. -/
theorem penalty_merge (w : Fin n' → ℝ) : penalty m (merge f w) ≤ penalty m' w := by
  unfold penalty
  rw [h.l2Coef, h.l2Coef', h.l1Coef, zero_mul, zero_mul, add_zero, add_zero]
  exact mul_le_mul_of_nonneg_left (subadditive_merge f w (fun x => |x|) abs_zero abs_add_le) h.l1Nonneg

/-- **C138.** They are within the limits. -/
theorem C138_within (P : Partition ℝ) (w : Fin n' → ℝ) (hw : Within P m' w) : Within P m (merge f w) := by
  obtain ⟨h1, h2⟩ := h.weights w hw.limits hw.cardinality
  refine ⟨h1, h2, ⟨fun x hx => ?_, fun x hx => ?_⟩, fun x hx => ?_, fun r x hx => ?_⟩
  · rw [h.maxTurnover] at hx
    cases hx
  · rw [C138_return h]
    exact hw.returns.minReturn x (h.minReturns ▸ hx)
  · have : activeRisk m (merge f w) = activeRisk m' w := by
      unfold activeRisk
      simp only [gross_merge h.data, h.benchmark]
    rw [this]
    exact hw.tracking x (h.maxTrackingError ▸ hx)
  · exact (C138_risk h P r w x).2 (hw.risks r x (h.riskLimits ▸ hx))

theorem comparable_merge (P : Partition ℝ) (w : Fin n' → ℝ) (hw : Comparable P m' w) (hM : isMip m.weights = true → ∀ i, |merge f w i| ≤ 1000) : Comparable P m (merge f w) := by
  refine ⟨C138_within h P w hw.within, fun r hr x hx => ?_, hM⟩
  obtain ⟨y, hy, hle⟩ := hw.entropic r hr x (h.riskLimits ▸ hx)
  exact ⟨y, hy, (C138_risk h P r w y).2 hle⟩

theorem risk_merge (P : Partition ℝ) (r : RiskMeasure) (R : (Fin n → ℝ) → ℝ) (hR : IsRiskOf P m r R) (R' : (Fin n' → ℝ) → ℝ) (hR' : IsRiskOf P m' r R') (w : Fin n' → ℝ) : R (merge f w) = R' w :=
  le_antisymm ((hR _ _).1 ((C138_risk h P r w _).2 ((hR' w _).2 le_rfl))) ((hR' _ _).1 ((C138_risk h P r w _).1 ((hR _ _).2 le_rfl)))

section
variable (P : Partition ℝ) (hs : 0 < m.scale) (hso : 0 < m.scaleObjective) (hT : 2 ≤ T) (hb : BetasOk m) (cs : List (Constraint ℝ n))
  (hcs : getWeightConstraints m.weights (factorIsVariable m) true m.scale = .ok cs) (R : (Fin n → ℝ) → ℝ) (hR : IsRiskOf P m m.riskMeasure R) (R' : (Fin n' → ℝ) → ℝ) (hR' : IsRiskOf P m' m.riskMeasure R')
  (w : Fin n → ℝ) (k : ℝ) (a : (riskProgram m m.riskMeasure w k).Aux) (h' : IsOptimum m cs w k a) (w' : Fin n' → ℝ) (hw : Comparable P m' w') (hM : isMip m.weights = true → ∀ i, |merge f w' i| ≤ 1000)
include hs hso hT hb hcs hR hR' h' hw hM

/-- **C138.** `MINIMIZE_RISK`: the fit without the copies has no more risk (plus penalty) than any portfolio of the copies within the limits, the fit with the copies in particular. -/
theorem C138_minimize_risk (ho : m.objective = .minimizeRisk) : R (returnedWeights w k) + penalty m (returnedWeights w k) ≤ R' w' + penalty m' w' := by
  have := (C67_minimize_risk P m hs hso hT hb cs hcs R hR ho w k a h').2 _ (comparable_merge h P w' hw hM)
  rw [risk_merge h P _ R hR R' hR'] at this
  linarith [penalty_merge h w']

omit hR' in
/-- **C138.** `MAXIMIZE_RETURN`: it has no smaller expected return (less penalty). -/
theorem C138_maximize_return (ho : m.objective = .maximizeReturn) : netExpectedReturn m' w' - penalty m' w' ≤ netExpectedReturn m (returnedWeights w k) - penalty m (returnedWeights w k) := by
  have := (C67_maximize_return P m hs hso hT hb cs hcs R hR ho w k a h').2 _ (comparable_merge h P w' hw hM)
  rw [C138_return h] at this
  linarith [penalty_merge h w']

/-- **C138.** `MAXIMIZE_UTILITY`: it has no smaller utility (less penalty). -/
theorem C138_maximize_utility (ho : m.objective = .maximizeUtility) (ha0 : 0 ≤ m.riskAversion) :
    netExpectedReturn m' w' - m.riskAversion * R' w' - penalty m' w' ≤ netExpectedReturn m (returnedWeights w k) - m.riskAversion * R (returnedWeights w k) - penalty m (returnedWeights w k) := by
  have := (C67_maximize_utility P m hs hso hT hb cs hcs R hR ho ha0 w k a h').2 _ (comparable_merge h P w' hw hM)
  rw [C138_return h, risk_merge h P _ R hR R' hR'] at this
  linarith [penalty_merge h w']

end

theorem optimal_merge (P : Partition ℝ) (hs : 0 < m.scale) (hs' : 0 < m'.scale) (hT : 2 ≤ T) (hb : BetasOk m) (hb' : BetasOk m') (r : RiskMeasure) (h1 : r ≠ .evar) (h2 : r ≠ .edar) (w : Fin n' → ℝ) (rho : ℝ)
    (hrho : IsOptimalValue (riskProgram m' r w 1) rho) : IsOptimalValue (riskProgram m r (merge f w) 1) rho := by
  have hiff : ∀ x, (∃ a, (riskProgram m r (merge f w) 1).feasible a ∧ (riskProgram m r (merge f w) 1).risk a ≤ x) ↔ rho ≤ x := by
    intro x
    rw [← atMost_of_optimal hrho x]
    constructor
    · exact fun hx => (program_atMost P m' hs' hT hb' r w x).2 h1 h2 ((C138_risk h P r w x).1 ((program_atMost P m hs hT hb r _ x).1 hx))
    · exact fun hx => (program_atMost P m hs hT hb r _ x).2 h1 h2 ((C138_risk h P r w x).2 ((program_atMost P m' hs' hT hb' r w x).1 hx))
  have hle : ∀ a, (riskProgram m r (merge f w) 1).feasible a → rho ≤ (riskProgram m r (merge f w) 1).risk a := fun a ha => (hiff _).1 ⟨a, ha, le_rfl⟩
  obtain ⟨a, ha, hx⟩ := (hiff rho).2 le_rfl
  exact ⟨⟨a, ha, le_antisymm hx (hle a ha)⟩, hle⟩

/-- **C138.** `MAXIMIZE_RATIO`: the fit without the copies has a ratio of excess return to risk no smaller than that of any portfolio of the copies within the limits with positive excess return. (Cross-multiplied as in C18;
measures other than EVaR and EDaR, no integer constraints; the risk of the totals is not negative.) -/
theorem C138_ratio (P : Partition ℝ) (hs : 0 < m.scale) (hs' : 0 < m'.scale) (hso : 0 < m.scaleObjective) (hT : 2 ≤ T) (hb : BetasOk m) (hb' : BetasOk m') (cs : List (Constraint ℝ n)) (hr : m.objective = .maximizeRatio)
    (hcs : getWeightConstraints m.weights (factorIsVariable m) true m.scale = .ok cs) (hte : m.maxTrackingError = none)
    (hlim : ∀ q, q = .variance ∨ q = .semiVariance ∨ q = .evar ∨ q = .edar → m.riskLimits q = none) (hev : m.riskMeasure ≠ .evar) (hed : m.riskMeasure ≠ .edar)
    (h2 : degree m.riskMeasure = 2 → m.l1Coef = 0) (hmip : isMip m.weights = false)
    (w : Fin n → ℝ) (k : ℝ) (hk : 0 < k) (a : (riskProgram m m.riskMeasure w k).Aux) (hopt : IsOptimum m cs w k a) (rho : ℝ) (hrho : IsOptimalValue (riskProgram m m.riskMeasure (returnedWeights w k) 1) rho)
    (w' : Fin n' → ℝ) (hw : Allowed m' w') (he : 0 < excessReturn m' w') (rho' : ℝ) (hrho' : IsOptimalValue (riskProgram m' m.riskMeasure w' 1) rho') (hpos : 0 ≤ rho') :
    excessReturn m' w' ^ degree m.riskMeasure * penalised m rho (returnedWeights w k) ≤ excessReturn m (returnedWeights w k) ^ degree m.riskMeasure * penalised m' rho' w' := by
  have ee : excessReturn m (merge f w') = excessReturn m' w' := by
    unfold excessReturn
    rw [C138_return h, h.data.riskFree]
  have ep : penalised m rho' (merge f w') ≤ penalised m' rho' w' := add_le_add_right (penalty_merge h w') rho'
  have e0 : 0 ≤ penalised m rho' (merge f w') := by
    unfold penalised
    rw [h.l2Coef]
    have : 0 ≤ m.l1Coef * ∑ i, |merge f w' i| := mul_nonneg h.l1Nonneg (Finset.sum_nonneg fun _ _ => abs_nonneg _)
    linarith
  have hall : Allowed m (merge f w') := by
    obtain ⟨l1, l2⟩ := h.weights w' hw.limits hw.cardinality
    refine ⟨l1, l2, ⟨fun x hx => ?_, fun x hx => ?_⟩, fun r x hx => ?_⟩
    · rw [h.maxTurnover] at hx
      cases hx
    · rw [C138_return h]
      exact hw.returns.minReturn x (h.minReturns ▸ hx)
    · have hr1 : r ≠ .evar := by
        rintro rfl
        rw [hlim _ (by simp)] at hx
        cases hx
      have hr2 : r ≠ .edar := by
        rintro rfl
        rw [hlim _ (by simp)] at hx
        cases hx
      exact (program_atMost P m hs hT hb r _ x).2 hr1 hr2 ((C138_risk h P r w' x).2 ((program_atMost P m' hs' hT hb' r w' x).1 (hw.risks r x (h.riskLimits ▸ hx))))
  obtain ⟨hE, hle⟩ := C18_ratio m hs hso cs hr hcs hte (hlim _ (by simp)) (hlim _ (by simp)) (fun _ => h.l2Coef) h2 w k hk a hopt rho hrho (merge f w') hall (by rw [ee]; exact he) (fun hm => by rw [hmip] at hm; cases hm) rho'
    (optimal_merge h P hs hs' hT hb hb' _ hev hed w' rho' hrho') (Or.inr e0)
  rw [ee] at hle
  exact hle.trans (mul_le_mul_of_nonneg_left ep (pow_nonneg hE.le _))

end

/-! ### Limits that add up -/

/-- The default limits: long-only, at most everything in one asset, fully invested. -/
def DefaultLimits (p : Params ℝ n) : Prop :=
  p.minWeights = some (fun _ => 0) ∧ p.maxWeights = some (fun _ => 1) ∧ p.budget = some 1 ∧ p.maxLong = none ∧ p.maxShort = none ∧ p.minBudget = none ∧ p.maxBudget = none ∧ p.cardinality = none ∧ p.groupCardinalities = none ∧
    p.thresholdLong = none ∧ p.thresholdShort = none ∧ p.eqRows = [] ∧ p.ineqRows = [] ∧ p.inequality = none

/-- **C138.** The default limits add up. -/
theorem C138_default_limits (p : Params ℝ n) (p' : Params ℝ n') (hp : DefaultLimits p) (hp' : DefaultLimits p') : LimitsAddUp f p p' := by
  obtain ⟨a1, a2, a3, a4, a5, a6, a7, a8, a9, a10, a11, a12, a13, a14⟩ := hp
  obtain ⟨b1, b2, b3, -⟩ := hp'
  intro w hw _
  have h0 : ∀ j, 0 ≤ w j := fun j => hw.atLeast _ b1 j
  have hsum : ∑ j, w j = 1 := hw.budget _ b3
  have hm0 : ∀ i, 0 ≤ merge f w i := fun i => Finset.sum_nonneg fun j _ => h0 j
  refine ⟨⟨fun l hl i => ?_, fun l hl i => ?_, fun x hx => ?_, fun x hx => ?_, fun x hx => ?_, fun x hx => ?_, fun x hx => ?_, fun r hr => ?_, fun r hr => ?_, fun r hr => ?_⟩, ⟨fun c hc => ?_, fun c hc => ?_, fun c hc => ?_, fun c hc => ?_⟩⟩
  · rw [a1] at hl
    injection hl with hl
    rw [← hl]
    exact hm0 i
  · rw [a2] at hl
    injection hl with hl
    rw [← hl]
    calc merge f w i ≤ ∑ i, merge f w i := Finset.single_le_sum (fun i _ => hm0 i) (Finset.mem_univ i)
      _ = 1 := by rw [total_merge, hsum]
  · rw [a4] at hx; cases hx
  · rw [a5] at hx; cases hx
  · rw [a6] at hx; cases hx
  · rw [a7] at hx; cases hx
  · rw [a3] at hx
    injection hx with hx
    rw [total_merge, hsum, hx]
  · rw [a12] at hr; cases hr
  · rw [a13] at hr; cases hr
  · rw [a14] at hr; cases hr
  · rw [a8] at hc; cases hc
  · rw [a9] at hc; cases hc
  · rw [a10] at hc; cases hc
  · rw [a11] at hc; cases hc

end

/-! ### The L2 penalty -/

/-- **C138.** With an L2 penalty copies do help: two halves of a position are penalised half as much as the position. The weights then depend on how often an asset is listed. -/
theorem C138_l2_favours_copies {T : Nat} (m : MeanRisk 1 T) (m' : MeanRisk 2 T) (h1 : m'.l1Coef = m.l1Coef) (h2 : m'.l2Coef = m.l2Coef) (hpos : 0 < m.l2Coef) (x : ℝ) (hx : x ≠ 0) :
    merge (fun _ : Fin 2 => (0 : Fin 1)) ![x / 2, x / 2] = (fun _ => x) ∧ penalty m' ![x / 2, x / 2] = penalty m (fun _ => x) - m.l2Coef * (x ^ 2 / 2) ∧ penalty m' ![x / 2, x / 2] < penalty m (fun _ => x) := by
  have e : penalty m' ![x / 2, x / 2] = penalty m (fun _ => x) - m.l2Coef * (x ^ 2 / 2) := by
    unfold penalty
    rw [h1, h2]
    simp only [Fin.sum_univ_two, Fin.sum_univ_one, Matrix.cons_val_zero, Matrix.cons_val_one]
    have : |x / 2| = |x| / 2 := by rw [abs_div]; norm_num
    rw [this]
    ring
  refine ⟨?_, e, ?_⟩
  · funext i
    unfold merge
    rw [Finset.filter_true_of_mem fun j _ => Subsingleton.elim _ _, Fin.sum_univ_two]
    simp
  · rw [e]
    have : 0 < m.l2Coef * (x ^ 2 / 2) := by positivity
    linarith

/-! ### Examples -/

/-- The first of the assets of `frontierAssets` listed twice. -/
def listed : Fin 3 → Fin 2 := ![0, 0, 1]

noncomputable def listedTwice : MeanRisk 3 2 :=
  { data := { returns := fun t j => (frontierAssets (4 / 100) (2 / 100)).data.returns t (listed j), mu := fun j => (frontierAssets (4 / 100) (2 / 100)).data.mu (listed j),
              previousWeights := fun _ => 0, transactionCosts := fun _ => 0, managementFees := fun _ => 0, riskFreeRate := 0 },
    cholesky := ![![1, 0, 0], ![1, 0, 0], ![0, 1, 0]],
    weights := { minWeights := some fun _ => 0, maxWeights := some fun _ => 1, maxLong := none, maxShort := none, minBudget := none, maxBudget := none, budget := some 1, cardinality := none,
                 groupCardinalities := none, thresholdLong := none, thresholdShort := none, eqRows := [], ineqRows := [], inequality := none, mixedIntegerSolver := false },
    objective := .minimizeRisk, riskMeasure := .standardDeviation, minAcceptableReturn := .default,
    cvarBeta := 95 / 100, evarBeta := 95 / 100, cdarBeta := 95 / 100, edarBeta := 95 / 100, riskAversion := 1, l1Coef := 0, l2Coef := 0, maxTrackingError := none,
    benchmark := fun _ => 0, maxTurnover := none, minReturns := [], riskLimits := fun _ => none, uncertainty := none, scale := 1, scaleObjective := 1 }

theorem listed_copies : HasCopies listed (frontierAssets (4 / 100) (2 / 100)) listedTwice where
  data := ⟨fun _ _ => rfl, fun _ => rfl, fun _ => rfl, fun _ => rfl, fun _ => rfl, rfl⟩
  covariance := by
    intro i j
    fin_cases i <;> fin_cases j <;> simp [covarianceOf, frontierAssets, twoAssets, listedTwice, listed, Fin.sum_univ_three]
  weights := C138_default_limits _ _ _ ⟨rfl, rfl, rfl, rfl, rfl, rfl, rfl, rfl, rfl, rfl, rfl, rfl, rfl, rfl⟩ ⟨rfl, rfl, rfl, rfl, rfl, rfl, rfl, rfl, rfl, rfl, rfl, rfl, rfl, rfl⟩
  objective := rfl
  riskMeasure := rfl
  acceptable := fun _ => rfl
  cvarBeta := rfl
  evarBeta := rfl
  cdarBeta := rfl
  edarBeta := rfl
  riskAversion := rfl
  l1Coef := rfl
  l1Nonneg := le_refl (0 : ℝ)
  l2Coef := rfl
  l2Coef' := rfl
  maxTrackingError := rfl
  benchmark := rfl
  maxTurnover := rfl
  minReturns := rfl
  riskLimits := rfl
  uncertainty := fun _ => rfl
  overwrite := fun _ => rfl

/-- A portfolio of all three within the limits. -/
theorem listed_comparable : Comparable (sortPartition ℝ) listedTwice ![1 / 6, 1 / 3, 1 / 2] := by
  refine ⟨⟨?_, ?_, ?_, fun x hx => (by cases hx), fun r x hx => (by cases hx)⟩, fun r _ x hx => (by cases hx), fun h => (by cases h)⟩
  · refine ⟨fun l hl i => ?_, fun l hl i => ?_, fun x hx => (by cases hx), fun x hx => (by cases hx), fun x hx => (by cases hx), fun x hx => (by cases hx), fun x hx => ?_, fun r hr => (by cases hr), fun r hr => (by cases hr), fun r hr => (by cases hr)⟩
    · cases hl
      fin_cases i <;> norm_num
    · cases hl
      fin_cases i <;> norm_num
    · cases hx
      rw [Fin.sum_univ_three]
      change (1 / 6 : ℝ) + 1 / 3 + 1 / 2 = 1
      norm_num
  · constructor <;> simp [listedTwice]
  · constructor <;> simp [listedTwice]

/-- The hypotheses of `C138_minimize_risk` for this portfolio, which has the totals of the fit. -/
example : ∃ (cs : List (Constraint ℝ 2)) (a : ℝ), HasCopies listed (frontierAssets (4 / 100) (2 / 100)) listedTwice ∧ Comparable (sortPartition ℝ) listedTwice ![1 / 6, 1 / 3, 1 / 2] ∧
    getWeightConstraints (frontierAssets (4 / 100) (2 / 100)).weights (factorIsVariable (frontierAssets (4 / 100) (2 / 100))) true (frontierAssets (4 / 100) (2 / 100)).scale = .ok cs ∧
    IsOptimum (frontierAssets (4 / 100) (2 / 100)) cs ![1 / 2, 1 / 2] 1 a ∧ BetasOk (frontierAssets (4 / 100) (2 / 100)) ∧ isMip (frontierAssets (4 / 100) (2 / 100)).weights = false ∧
    merge listed ![1 / 6, 1 / 3, 1 / 2] = ![1 / 2, 1 / 2] := by
  obtain ⟨cs, hcs⟩ := frontier_ok
  refine ⟨cs, Real.sqrt (1 / 2), listed_copies, listed_comparable, hcs, frontier_min _ _ cs hcs, tradeoff_betas, rfl, ?_⟩
  funext i
  unfold merge
  rw [Finset.sum_filter, Fin.sum_univ_three]
  fin_cases i
  · change (1 / 6 : ℝ) + 1 / 3 + 0 = 1 / 2
    norm_num
  · change (0 : ℝ) + 0 + 1 / 2 = 1 / 2
    norm_num

/-- The first of the assets of `longOnly_optimum` listed twice; the ratio is maximised. -/
noncomputable def listedRatio : MeanRisk 3 2 :=
  { listedTwice with data := { listedTwice.data with mu := fun j => (twoAssets (4 / 100) (3 / 100) longOnly).data.mu (listed j) }, objective := .maximizeRatio }

theorem ratio_copies : HasCopies listed (twoAssets (4 / 100) (3 / 100) longOnly) listedRatio where
  data := ⟨fun _ _ => rfl, fun _ => rfl, fun _ => rfl, fun _ => rfl, fun _ => rfl, rfl⟩
  covariance := listed_copies.covariance
  weights := C138_default_limits _ _ _ ⟨rfl, rfl, rfl, rfl, rfl, rfl, rfl, rfl, rfl, rfl, rfl, rfl, rfl, rfl⟩ ⟨rfl, rfl, rfl, rfl, rfl, rfl, rfl, rfl, rfl, rfl, rfl, rfl, rfl, rfl⟩
  objective := rfl
  riskMeasure := rfl
  acceptable := fun _ => rfl
  cvarBeta := rfl
  evarBeta := rfl
  cdarBeta := rfl
  edarBeta := rfl
  riskAversion := rfl
  l1Coef := rfl
  l1Nonneg := le_refl (0 : ℝ)
  l2Coef := rfl
  l2Coef' := rfl
  maxTrackingError := rfl
  benchmark := rfl
  maxTurnover := rfl
  minReturns := rfl
  riskLimits := rfl
  uncertainty := fun _ => rfl
  overwrite := fun _ => rfl

/-- The hypotheses of `C138_ratio`: the fit of `longOnly_optimum`, with weights 4/7 and 3/7, and an equally weighted portfolio of the three. -/
example : ∃ cs : List (Constraint ℝ 2), HasCopies listed (twoAssets (4 / 100) (3 / 100) longOnly) listedRatio ∧ getWeightConstraints longOnly true true (1 : ℝ) = .ok cs ∧ isMip longOnly = false ∧
    IsOptimum (twoAssets (4 / 100) (3 / 100) longOnly) cs ![56 / 100, 42 / 100] (98 / 100) (7 / 10 : ℝ) ∧ BetasOk (twoAssets (4 / 100) (3 / 100) longOnly) ∧ BetasOk listedRatio ∧
    Allowed listedRatio (fun _ => 1 / 3) ∧ 0 < excessReturn listedRatio (fun _ => 1 / 3) := by
  obtain ⟨cs, hcs⟩ := longOnly_ok
  refine ⟨cs, ratio_copies, hcs, rfl, longOnly_optimum cs hcs, tradeoff_betas, tradeoff_betas, ⟨?_, ?_, ?_, fun r x hx => (by cases hx)⟩, ?_⟩
  · refine ⟨fun l hl i => ?_, fun l hl i => ?_, fun x hx => (by cases hx), fun x hx => (by cases hx), fun x hx => (by cases hx), fun x hx => (by cases hx), fun x hx => ?_, fun r hr => (by cases hr), fun r hr => (by cases hr), fun r hr => (by cases hr)⟩
    · cases hl
      norm_num
    · cases hl
      norm_num
    · cases hx
      rw [Fin.sum_univ_three]
      norm_num
  · constructor <;> simp [listedRatio, listedTwice]
  · constructor <;> simp [listedRatio, listedTwice]
  · rw [excessReturn, ← C138_return ratio_copies, ← expected_one, twoAssets_expected]
    unfold merge
    rw [Finset.sum_filter, Finset.sum_filter, Fin.sum_univ_three, Fin.sum_univ_three]
    change (0 : ℝ) < 4 / 100 * (1 / 3 + 1 / 3 + 0) + 3 / 100 * (0 + 0 + 1 / 3) - 0
    norm_num

end Skfolio.Convex
