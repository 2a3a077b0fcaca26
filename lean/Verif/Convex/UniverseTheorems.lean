import Verif.Convex.ObjectiveTheorems
import Verif.Convex.RatioTheorems
import Mathlib.Logic.Function.Basic

/-!
**C120.** More assets never hurt: the fit on more assets is at least as good, by its own criterion, as the fit on a selection of them (as made by a pre-selection step).
-/
set_option autoImplicit false

namespace Skfolio.Convex

open Skfolio.Measures

section
variable {n n' T : Nat}

/-! ### Specification -/

/-- The portfolio of a selection of the assets, as a portfolio of all of them: nothing is held of the others. `e i` is the place of asset `i` of the selection among all assets. -/
noncomputable def enlarge (e : Fin n ↪ Fin n') (w : Fin n → ℝ) : Fin n' → ℝ := Function.extend e w 0

/-- `d` are the data of a selection of the assets of `d'`; nothing was held of the others. -/
structure IsSelection (e : Fin n ↪ Fin n') (d : Data ℝ n T) (d' : Data ℝ n' T) : Prop where
  returns : ∀ t i, d'.returns t (e i) = d.returns t i
  mu : ∀ i, d'.mu (e i) = d.mu i
  previous : ∀ i, d'.previousWeights (e i) = d.previousWeights i
  others : ∀ j, j ∉ Set.range e → d'.previousWeights j = 0
  costs : ∀ i, d'.transactionCosts (e i) = d.transactionCosts i
  fees : ∀ i, d'.managementFees (e i) = d.managementFees i
  riskFree : d'.riskFreeRate = d.riskFreeRate

/-- The limits on all assets are those on the selection, or looser, and allow not to hold the others. -/
structure IsLooser (e : Fin n ↪ Fin n') (p : Params ℝ n) (p' : Params ℝ n') : Prop where
  minWeights : ∀ l', p'.minWeights = some l' → (∀ j, j ∉ Set.range e → l' j ≤ 0) ∧ ∃ l, p.minWeights = some l ∧ ∀ i, l' (e i) ≤ l i
  maxWeights : ∀ l', p'.maxWeights = some l' → (∀ j, j ∉ Set.range e → 0 ≤ l' j) ∧ ∃ l, p.maxWeights = some l ∧ ∀ i, l i ≤ l' (e i)
  maxLong : p'.maxLong = p.maxLong
  maxShort : p'.maxShort = p.maxShort
  minBudget : p'.minBudget = p.minBudget
  maxBudget : p'.maxBudget = p.maxBudget
  budget : p'.budget = p.budget
  cardinality : p'.cardinality = p.cardinality
  groups : ∀ rows', p'.groupCardinalities = some rows' → ∃ rows, p.groupCardinalities = some rows ∧ ∀ row' ∈ rows', (row'.1 ∘ e, row'.2) ∈ rows
  thresholdLong : ∀ l', p'.thresholdLong = some l' → ∃ l, p.thresholdLong = some l ∧ ∀ i, l' (e i) ≤ l i
  thresholdShort : ∀ l', p'.thresholdShort = some l' → ∃ l, p.thresholdShort = some l ∧ ∀ i, l i ≤ l' (e i)
  equations : ∀ row' ∈ p'.eqRows, (row'.1 ∘ e, row'.2) ∈ p.eqRows
  inequalities : ∀ row' ∈ p'.ineqRows, (row'.1 ∘ e, row'.2) ∈ p.ineqRows
  matrix : ∀ rows', p'.inequality = some rows' → ∃ rows, p.inequality = some rows ∧ ∀ row' ∈ rows', (row'.1 ∘ e, row'.2) ∈ rows

/-- `m` is the problem `m'` on a selection of its assets. The uncertainty of the expected return of a portfolio of the selection is the same. -/
structure IsPart (e : Fin n ↪ Fin n') (m : MeanRisk n T) (m' : MeanRisk n' T) : Prop where
  data : IsSelection e m.data m'.data
  covariance : ∀ i j, covarianceOf m' (e i) (e j) = covarianceOf m i j
  weights : IsLooser e m.weights m'.weights
  objective : m'.objective = m.objective
  riskMeasure : m'.riskMeasure = m.riskMeasure
  acceptable : ∀ i, marOf m'.data m'.minAcceptableReturn (e i) = marOf m.data m.minAcceptableReturn i
  cvarBeta : m'.cvarBeta = m.cvarBeta
  evarBeta : m'.evarBeta = m.evarBeta
  cdarBeta : m'.cdarBeta = m.cdarBeta
  edarBeta : m'.edarBeta = m.edarBeta
  riskAversion : m'.riskAversion = m.riskAversion
  l1Coef : m'.l1Coef = m.l1Coef
  l2Coef : m'.l2Coef = m.l2Coef
  maxTrackingError : m'.maxTrackingError = m.maxTrackingError
  benchmark : m'.benchmark = m.benchmark
  maxTurnover : m'.maxTurnover = m.maxTurnover
  minReturns : m'.minReturns = m.minReturns
  riskLimits : m'.riskLimits = m.riskLimits
  uncertainty : ∀ w, muUncertainty m' (enlarge e w) = muUncertainty m w
  overwrite : ∀ i, m'.overwrite.getD m'.data.mu (e i) = m.overwrite.getD m.data.mu i

/-! ### Portfolios of the selection -/

variable (e : Fin n ↪ Fin n')

theorem enlarge_apply (w : Fin n → ℝ) (i : Fin n) : enlarge e w (e i) = w i := e.injective.extend_apply w 0 i

theorem enlarge_other (w : Fin n → ℝ) (j : Fin n') (hj : j ∉ Set.range e) : enlarge e w j = 0 := Function.extend_apply' w (0 : Fin n' → ℝ) j hj

/-- A sum over all assets to which the others do not contribute. -/
theorem sum_enlarge (w : Fin n → ℝ) (F : Fin n' → ℝ → ℝ) (G : Fin n → ℝ → ℝ) (h0 : ∀ j, j ∉ Set.range e → F j 0 = 0) (h : ∀ i x, F (e i) x = G i x) : ∑ j, F j (enlarge e w j) = ∑ i, G i (w i) := by
  refine (Fintype.sum_of_injective e e.injective (fun i => G i (w i)) (fun j => F j (enlarge e w j)) (fun j hj => ?_) fun i => ?_).symm
  · simp only [enlarge_other e w j hj, h0 j hj]
  · simp only [enlarge_apply, h]

theorem gross_enlarge {d : Data ℝ n T} {d' : Data ℝ n' T} (h : IsSelection e d d') (w : Fin n → ℝ) (t : Fin T) : ∑ j, enlarge e w j * d'.returns t j = ∑ i, w i * d.returns t i :=
  sum_enlarge e w (fun j x => x * d'.returns t j) (fun i x => x * d.returns t i) (fun _ _ => zero_mul _) fun i x => by simp only [h.returns]

theorem costs_enlarge {d : Data ℝ n T} {d' : Data ℝ n' T} (h : IsSelection e d d') (w : Fin n → ℝ) :
    ∑ j, |d'.transactionCosts j| * |enlarge e w j - d'.previousWeights j| = ∑ i, |d.transactionCosts i| * |w i - d.previousWeights i| :=
  sum_enlarge e w (fun j x => |d'.transactionCosts j| * |x - d'.previousWeights j|) (fun i x => |d.transactionCosts i| * |x - d.previousWeights i|) (fun j hj => by simp only [h.others j hj, sub_self, abs_zero, mul_zero])
    fun i x => by simp only [h.costs, h.previous]

theorem fees_enlarge {d : Data ℝ n T} {d' : Data ℝ n' T} (h : IsSelection e d d') (w : Fin n → ℝ) : ∑ j, enlarge e w j * d'.managementFees j = ∑ i, w i * d.managementFees i :=
  sum_enlarge e w (fun j x => x * d'.managementFees j) (fun i x => x * d.managementFees i) (fun _ _ => zero_mul _) fun i x => by simp only [h.fees]

theorem net_enlarge {d : Data ℝ n T} {d' : Data ℝ n' T} (h : IsSelection e d d') (w : Fin n → ℝ) : netReturns d' (enlarge e w) 1 = netReturns d w 1 := by
  unfold netReturns
  congr 1
  funext t
  unfold netReturn
  simp only [one_mul]
  rw [gross_enlarge e h, costs_enlarge e h, fees_enlarge e h]

theorem grossReturns_enlarge {d : Data ℝ n T} {d' : Data ℝ n' T} (h : IsSelection e d d') (w : Fin n → ℝ) : grossReturns d' (enlarge e w) = grossReturns d w := by
  unfold grossReturns
  congr 1
  funext t
  exact gross_enlarge e h w t

theorem free_selection {d : Data ℝ n T} {d' : Data ℝ n' T} (h : IsSelection e d d') : IsSelection e { d with transactionCosts := fun _ => 0 } { d' with transactionCosts := fun _ => 0 } :=
  ⟨h.returns, h.mu, h.previous, h.others, fun _ => rfl, h.fees, h.riskFree⟩

section
variable {e} {m : MeanRisk n T} {m' : MeanRisk n' T} (h : IsPart e m m')
include h

theorem target_enlarge (w : Fin n → ℝ) : target m' (enlarge e w) = target m w :=
  sum_enlarge e w (fun j x => marOf m'.data m'.minAcceptableReturn j * x) (fun i x => marOf m.data m.minAcceptableReturn i * x) (fun _ _ => mul_zero _) fun i x => by simp only [h.acceptable]

theorem quadratic_enlarge (w : Fin n → ℝ) : ∑ i, ∑ j, enlarge e w i * covarianceOf m' i j * enlarge e w j = ∑ i, ∑ j, w i * covarianceOf m i j * w j := by
  have inner : ∀ i, ∑ j, enlarge e w i * covarianceOf m' i j * enlarge e w j = enlarge e w i * ∑ j, covarianceOf m' i (e j) * w j := by
    intro i
    rw [Finset.mul_sum, sum_enlarge e w (fun j x => enlarge e w i * covarianceOf m' i j * x) (fun j x => enlarge e w i * covarianceOf m' i (e j) * x) (fun _ _ => mul_zero _) fun _ _ => rfl]
    exact Finset.sum_congr rfl fun j _ => by ring
  simp only [inner]
  rw [sum_enlarge e w (fun i x => x * ∑ j, covarianceOf m' i (e j) * w j) (fun i x => x * ∑ j, covarianceOf m i j * w j) (fun _ _ => zero_mul _) fun i x => by simp only [h.covariance]]
  refine Finset.sum_congr rfl fun i _ => ?_
  rw [Finset.mul_sum]
  exact Finset.sum_congr rfl fun j _ => by ring

/-- **C120.** A portfolio of the selection has the same risk, by every measure, when it is seen as a portfolio of all assets. -/
theorem C120_risk (P : Partition ℝ) (r : RiskMeasure) (w : Fin n → ℝ) (x : ℝ) : RiskAtMost P m' r (enlarge e w) x ↔ RiskAtMost P m r w x := by
  have e1 := net_enlarge e h.data w
  have e2 := grossReturns_enlarge e h.data w
  have e3 := target_enlarge h w
  have e4 := quadratic_enlarge h w
  have e5 := net_enlarge e (free_selection e h.data) w
  cases r <;> simp only [RiskAtMost, e1, e2, e3, e4, e5, h.cvarBeta, h.evarBeta, h.cdarBeta, h.edarBeta]
  rw [h.data.riskFree]

/-- **C120.** It has the same expected return after costs. -/
theorem C120_return (w : Fin n → ℝ) : netExpectedReturn m' (enlarge e w) = netExpectedReturn m w := by
  unfold netExpectedReturn
  rw [costs_enlarge e h.data, fees_enlarge e h.data, h.uncertainty,
    sum_enlarge e w (fun j x => x * m'.overwrite.getD m'.data.mu j) (fun i x => x * m.overwrite.getD m.data.mu i) (fun _ _ => zero_mul _) fun i x => by simp only [h.overwrite]]

theorem penalty_enlarge (w : Fin n → ℝ) : penalty m' (enlarge e w) = penalty m w := by
  unfold penalty
  rw [h.l1Coef, h.l2Coef, sum_enlarge e w (fun _ x => |x|) (fun _ x => |x|) (fun _ _ => abs_zero) fun _ _ => rfl, sum_enlarge e w (fun _ x => x ^ 2) (fun _ x => x ^ 2) (fun _ _ => by simp) fun _ _ => rfl]

omit h in
theorem invested_enlarge (e : Fin n ↪ Fin n') (w : Fin n → ℝ) (g : Fin n' → Bool) : invested (enlarge e w) g = invested w (g ∘ e) := by
  unfold invested
  rw [← Finset.card_map e]
  congr 1
  ext j
  simp only [Finset.mem_filter, Finset.mem_univ, true_and, Finset.mem_map, Function.comp_apply]
  constructor
  · rintro ⟨hg, hw⟩
    by_cases hj : j ∈ Set.range e
    · obtain ⟨i, rfl⟩ := hj
      rw [enlarge_apply] at hw
      exact ⟨i, ⟨hg, hw⟩, rfl⟩
    · exact absurd (enlarge_other e w j hj) hw
  · rintro ⟨i, ⟨hg, hw⟩, rfl⟩
    rw [enlarge_apply]
    exact ⟨hg, hw⟩

omit h in
theorem row_enlarge (e : Fin n ↪ Fin n') (w : Fin n → ℝ) (c : Fin n' → ℝ) : ∑ j, c j * enlarge e w j = ∑ i, (c ∘ e) i * w i :=
  sum_enlarge e w (fun j x => c j * x) (fun i x => c (e i) * x) (fun _ _ => mul_zero _) fun _ _ => rfl

omit h in
theorem limits_enlarge {p : Params ℝ n} {p' : Params ℝ n'} (hp : IsLooser e p p') (w : Fin n → ℝ) (hw : RespectsLimits p w) : RespectsLimits p' (enlarge e w) := by
  have hsum : ∑ j, enlarge e w j = ∑ i, w i := sum_enlarge e w (fun _ x => x) (fun _ x => x) (fun _ _ => rfl) fun _ _ => rfl
  constructor
  · intro l' hl' j
    obtain ⟨h1, l, hl, h2⟩ := hp.minWeights l' hl'
    by_cases hj : j ∈ Set.range e
    · obtain ⟨i, rfl⟩ := hj
      rw [enlarge_apply]
      exact (h2 i).trans (hw.atLeast l hl i)
    · rw [enlarge_other e w j hj]
      exact h1 j hj
  · intro l' hl' j
    obtain ⟨h1, l, hl, h2⟩ := hp.maxWeights l' hl'
    by_cases hj : j ∈ Set.range e
    · obtain ⟨i, rfl⟩ := hj
      rw [enlarge_apply]
      exact (hw.atMost l hl i).trans (h2 i)
    · rw [enlarge_other e w j hj]
      exact h1 j hj
  · intro x hx
    rw [hp.maxLong] at hx
    rw [sum_enlarge e w (fun _ x => max x 0) (fun _ x => max x 0) (fun _ _ => max_self 0) fun _ _ => rfl]
    exact hw.long x hx
  · intro x hx
    rw [hp.maxShort] at hx
    rw [sum_enlarge e w (fun _ x => max (-x) 0) (fun _ x => max (-x) 0) (fun _ _ => by simp) fun _ _ => rfl]
    exact hw.short x hx
  · intro x hx
    rw [hp.minBudget] at hx
    rw [hsum]
    exact hw.minBudget x hx
  · intro x hx
    rw [hp.maxBudget] at hx
    rw [hsum]
    exact hw.maxBudget x hx
  · intro x hx
    rw [hp.budget] at hx
    rw [hsum]
    exact hw.budget x hx
  · intro row hrow
    rw [row_enlarge]
    exact hw.equations _ (hp.equations row hrow)
  · intro row hrow
    rw [row_enlarge]
    exact hw.inequalities _ (hp.inequalities row hrow)
  · intro rows' hrows' row hrow
    obtain ⟨rows, hrows, hall⟩ := hp.matrix rows' hrows'
    rw [row_enlarge]
    exact hw.matrix rows hrows _ (hall row hrow)

omit h in
theorem cardinality_enlarge {p : Params ℝ n} {p' : Params ℝ n'} (hp : IsLooser e p p') (w : Fin n → ℝ) (hw : RespectsCardinality p w) : RespectsCardinality p' (enlarge e w) := by
  constructor
  · intro c hc
    rw [hp.cardinality] at hc
    rw [invested_enlarge]
    exact hw.cardinality c hc
  · intro rows' hrows' row hrow
    obtain ⟨rows, hrows, hall⟩ := hp.groups rows' hrows'
    rw [invested_enlarge]
    exact hw.groups rows hrows _ (hall row hrow)
  · intro l' hl' j hj
    obtain ⟨l, hl, h2⟩ := hp.thresholdLong l' hl'
    by_cases hr : j ∈ Set.range e
    · obtain ⟨i, rfl⟩ := hr
      rw [enlarge_apply] at hj ⊢
      exact (h2 i).trans (hw.long l hl i hj)
    · rw [enlarge_other e w j hr] at hj
      exact absurd hj (lt_irrefl 0)
  · intro l' hl' j hj
    obtain ⟨l, hl, h2⟩ := hp.thresholdShort l' hl'
    by_cases hr : j ∈ Set.range e
    · obtain ⟨i, rfl⟩ := hr
      rw [enlarge_apply] at hj ⊢
      exact (hw.short l hl i hj).trans (h2 i)
    · rw [enlarge_other e w j hr] at hj
      exact absurd hj (lt_irrefl 0)

theorem return_limits_enlarge (hn : 0 < n) (w : Fin n → ℝ) (hw : RespectsReturnLimits m w) : RespectsReturnLimits m' (enlarge e w) := by
  constructor
  · intro x hx j
    rw [h.maxTurnover] at hx
    by_cases hj : j ∈ Set.range e
    · obtain ⟨i, rfl⟩ := hj
      rw [enlarge_apply, h.data.previous]
      exact hw.turnover x hx i
    · rw [enlarge_other e w j hj, h.data.others j hj, sub_self, abs_zero]
      exact (abs_nonneg _).trans (hw.turnover x hx ⟨0, hn⟩)
  · intro x hx
    rw [h.minReturns] at hx
    rw [C120_return h]
    exact hw.minReturn x hx

/-- **C120.** It is within the limits on all assets if it is within those on the selection. -/
theorem C120_within (P : Partition ℝ) (hn : 0 < n) (w : Fin n → ℝ) (hw : Within P m w) : Within P m' (enlarge e w) := by
  refine ⟨limits_enlarge h.weights w hw.limits, cardinality_enlarge h.weights w hw.cardinality, return_limits_enlarge h hn w hw.returns, fun x hx => ?_, fun r x hx => ?_⟩
  · rw [h.maxTrackingError] at hx
    have : activeRisk m' (enlarge e w) = activeRisk m w := by
      unfold activeRisk
      simp only [gross_enlarge e h.data, h.benchmark]
    rw [this]
    exact hw.tracking x hx
  · rw [h.riskLimits] at hx
    exact (C120_risk h P r w x).2 (hw.risks r x hx)

theorem comparable_enlarge (P : Partition ℝ) (hn : 0 < n) (w : Fin n → ℝ) (hw : Comparable P m w) (hM : isMip m'.weights = true → ∀ i, |w i| ≤ 1000) : Comparable P m' (enlarge e w) := by
  refine ⟨C120_within h P hn w hw.within, fun r hr x hx => ?_, fun hm j => ?_⟩
  · rw [h.riskLimits] at hx
    obtain ⟨y, hy, hle⟩ := hw.entropic r hr x hx
    exact ⟨y, hy, (C120_risk h P r w y).2 hle⟩
  · by_cases hj : j ∈ Set.range e
    · obtain ⟨i, rfl⟩ := hj
      rw [enlarge_apply]
      exact hM hm i
    · rw [enlarge_other e w j hj, abs_zero]
      norm_num

theorem risk_enlarge (P : Partition ℝ) (r : RiskMeasure) (R : (Fin n → ℝ) → ℝ) (hR : IsRiskOf P m r R) (R' : (Fin n' → ℝ) → ℝ) (hR' : IsRiskOf P m' r R') (w : Fin n → ℝ) : R' (enlarge e w) = R w :=
  le_antisymm ((hR' _ _).1 ((C120_risk h P r w _).2 ((hR w _).2 le_rfl))) ((hR _ _).1 ((C120_risk h P r w _).1 ((hR' _ _).2 le_rfl)))

section
variable (P : Partition ℝ) (hn : 0 < n) (hs : 0 < m'.scale) (hso : 0 < m'.scaleObjective) (hT : 2 ≤ T) (hb : BetasOk m') (cs : List (Constraint ℝ n'))
  (hcs : getWeightConstraints m'.weights (factorIsVariable m') true m'.scale = .ok cs) (R : (Fin n → ℝ) → ℝ) (hR : IsRiskOf P m m.riskMeasure R) (R' : (Fin n' → ℝ) → ℝ) (hR' : IsRiskOf P m' m.riskMeasure R')
  (w' : Fin n' → ℝ) (k' : ℝ) (a' : (riskProgram m' m'.riskMeasure w' k').Aux) (h' : IsOptimum m' cs w' k' a') (w : Fin n → ℝ) (hw : Comparable P m w) (hM : isMip m'.weights = true → ∀ i, |w i| ≤ 1000)
include hn hs hso hT hb hcs hR hR' h' hw hM

/-- **C120.** `MINIMIZE_RISK`: the fit on all assets has no more risk (plus penalty) than any portfolio of the selection within its limits, the fit on the selection in particular. -/
theorem C120_minimize_risk (ho : m.objective = .minimizeRisk) : R' (returnedWeights w' k') + penalty m' (returnedWeights w' k') ≤ R w + penalty m w := by
  rw [← risk_enlarge h P _ R hR R' hR' w, ← penalty_enlarge h w]
  exact (C67_minimize_risk P m' hs hso hT hb cs hcs R' (h.riskMeasure ▸ hR') (h.objective.trans ho) w' k' a' h').2 _ (comparable_enlarge h P hn w hw hM)

omit hR in
/-- **C120.** `MAXIMIZE_RETURN`: it has no smaller expected return (less penalty). -/
theorem C120_maximize_return (ho : m.objective = .maximizeReturn) : netExpectedReturn m w - penalty m w ≤ netExpectedReturn m' (returnedWeights w' k') - penalty m' (returnedWeights w' k') := by
  rw [← C120_return h w, ← penalty_enlarge h w]
  exact (C67_maximize_return P m' hs hso hT hb cs hcs R' (h.riskMeasure ▸ hR') (h.objective.trans ho) w' k' a' h').2 _ (comparable_enlarge h P hn w hw hM)

/-- **C120.** `MAXIMIZE_UTILITY`: it has no smaller utility (less penalty). -/
theorem C120_maximize_utility (ho : m.objective = .maximizeUtility) (ha0 : 0 ≤ m.riskAversion) : netExpectedReturn m w - m.riskAversion * R w - penalty m w ≤
    netExpectedReturn m' (returnedWeights w' k') - m.riskAversion * R' (returnedWeights w' k') - penalty m' (returnedWeights w' k') := by
  rw [← risk_enlarge h P _ R hR R' hR' w, ← C120_return h w, ← penalty_enlarge h w, ← h.riskAversion]
  exact (C67_maximize_utility P m' hs hso hT hb cs hcs R' (h.riskMeasure ▸ hR') (h.objective.trans ho) (h.riskAversion ▸ ha0) w' k' a' h').2 _ (comparable_enlarge h P hn w hw hM)

end

theorem optimal_enlarge (P : Partition ℝ) (hs : 0 < m.scale) (hs' : 0 < m'.scale) (hT : 2 ≤ T) (hb : BetasOk m) (hb' : BetasOk m') (r : RiskMeasure) (h1 : r ≠ .evar) (h2 : r ≠ .edar) (w : Fin n → ℝ) (rho : ℝ)
    (hrho : IsOptimalValue (riskProgram m r w 1) rho) : IsOptimalValue (riskProgram m' r (enlarge e w) 1) rho := by
  have hiff : ∀ x, (∃ a, (riskProgram m' r (enlarge e w) 1).feasible a ∧ (riskProgram m' r (enlarge e w) 1).risk a ≤ x) ↔ rho ≤ x := by
    intro x
    rw [← atMost_of_optimal hrho x]
    constructor
    · exact fun hx => (program_atMost P m hs hT hb r w x).2 h1 h2 ((C120_risk h P r w x).1 ((program_atMost P m' hs' hT hb' r _ x).1 hx))
    · exact fun hx => (program_atMost P m' hs' hT hb' r _ x).2 h1 h2 ((C120_risk h P r w x).2 ((program_atMost P m hs hT hb r w x).1 hx))
  have hle : ∀ a, (riskProgram m' r (enlarge e w) 1).feasible a → rho ≤ (riskProgram m' r (enlarge e w) 1).risk a := fun a ha => (hiff _).1 ⟨a, ha, le_rfl⟩
  obtain ⟨a, ha, hx⟩ := (hiff rho).2 le_rfl
  exact ⟨⟨a, ha, le_antisymm hx (hle a ha)⟩, hle⟩

/-- **C120.** `MAXIMIZE_RATIO`: the ratio of excess return to risk is no smaller than that of any portfolio of the selection within its limits with positive excess return. (Cross-multiplied as in C18; measures other than EVaR
and EDaR, no integer constraints.) -/
theorem C120_ratio (P : Partition ℝ) (hn : 0 < n) (hs : 0 < m.scale) (hs' : 0 < m'.scale) (hso : 0 < m'.scaleObjective) (hT : 2 ≤ T) (hb : BetasOk m) (hb' : BetasOk m') (cs : List (Constraint ℝ n')) (hr : m'.objective = .maximizeRatio)
    (hcs : getWeightConstraints m'.weights (factorIsVariable m') true m'.scale = .ok cs) (hte : m'.maxTrackingError = none)
    (hlim : ∀ q, q = .variance ∨ q = .semiVariance ∨ q = .evar ∨ q = .edar → m'.riskLimits q = none) (hev : m'.riskMeasure ≠ .evar) (hed : m'.riskMeasure ≠ .edar)
    (h1 : degree m'.riskMeasure = 1 → m'.l2Coef = 0) (h2 : degree m'.riskMeasure = 2 → m'.l1Coef = 0) (hmip : isMip m'.weights = false)
    (w' : Fin n' → ℝ) (k' : ℝ) (hk : 0 < k') (a' : (riskProgram m' m'.riskMeasure w' k').Aux) (h' : IsOptimum m' cs w' k' a') (rho' : ℝ) (hrho' : IsOptimalValue (riskProgram m' m'.riskMeasure (returnedWeights w' k') 1) rho')
    (w : Fin n → ℝ) (hw : Allowed m w) (he : 0 < excessReturn m w) (rho : ℝ) (hrho : IsOptimalValue (riskProgram m m'.riskMeasure w 1) rho) (hpos : 0 ≤ penalised m rho w) :
    excessReturn m w ^ degree m'.riskMeasure * penalised m' rho' (returnedWeights w' k') ≤ excessReturn m' (returnedWeights w' k') ^ degree m'.riskMeasure * penalised m rho w := by
  have ee : excessReturn m' (enlarge e w) = excessReturn m w := by
    unfold excessReturn
    rw [C120_return h, h.data.riskFree]
  have ep : penalised m' rho (enlarge e w) = penalised m rho w := congrArg (rho + ·) (penalty_enlarge h w)
  have hall : Allowed m' (enlarge e w) := by
    refine ⟨limits_enlarge h.weights w hw.limits, cardinality_enlarge h.weights w hw.cardinality, return_limits_enlarge h hn w hw.returns, fun r x hx => ?_⟩
    have hr1 : r ≠ .evar := by
      rintro rfl
      rw [hlim _ (by simp)] at hx
      cases hx
    have hr2 : r ≠ .edar := by
      rintro rfl
      rw [hlim _ (by simp)] at hx
      cases hx
    refine (program_atMost P m' hs' hT hb' r _ x).2 hr1 hr2 ((C120_risk h P r w x).2 ((program_atMost P m hs hT hb r w x).1 (hw.risks r x ?_)))
    rw [← h.riskLimits]
    exact hx
  have := (C18_ratio m' hs' hso cs hr hcs hte (hlim _ (by simp)) (hlim _ (by simp)) h1 h2 w' k' hk a' h' rho' hrho' (enlarge e w) hall (by rw [ee]; exact he) (fun hm => by rw [hmip] at hm; cases hm) rho
    (optimal_enlarge h P hs hs' hT hb hb' _ hev hed w rho hrho) (Or.inr (by rw [ep]; exact hpos))).2
  rw [ee, ep] at this
  exact this

end

end

end Skfolio.Convex
