import Verif.Convex.RiskBudgetingModel
import Verif.Convex.RobustModel
import Verif.Convex.FrontierExamples
import Verif.Convex.RiskBudgetingFindings
import Verif.Convex.RobustTheorems
import Verif.Moments.WindowModel
import Mathlib.Algebra.BigOperators.Group.List.Basic

/-!
**C115.** The order of the observations does not matter to the convex optimisers unless a drawdown measure is used: shuffling the days (rows of the returns, together with the benchmark) leaves the
optimal solutions the same.
-/
set_option autoImplicit false

namespace Skfolio.Convex

open Skfolio.Measures

section
variable {n T : Nat}

/-- The measures that are about the path of the cumulative returns. -/
def IsDrawdown (r : RiskMeasure) : Prop := r = .maxDrawdown ∨ r = .averageDrawdown ∨ r = .cdar ∨ r = .edar ∨ r = .ulcerIndex

/-- The observations in another order: the day `t` is the former day `s t`. -/
def shuffledData (s : Equiv.Perm (Fin T)) (d : Data ℝ n T) : Data ℝ n T := { d with returns := fun t => d.returns (s t) }

/-- The same problem on shuffled observations; the benchmark is shuffled with the assets. -/
def shuffled (s : Equiv.Perm (Fin T)) (m : MeanRisk n T) : MeanRisk n T := { m with data := shuffledData s m.data, benchmark := fun t => m.benchmark (s t) }

theorem shuffled_inverse (s : Equiv.Perm (Fin T)) (m : MeanRisk n T) : shuffled s⁻¹ (shuffled s m) = m := by
  unfold shuffled shuffledData
  simp

theorem sum_shuffled (s : Equiv.Perm (Fin T)) (f : Fin T → ℝ) : ∑ t, f (s t) = ∑ t, f t := Equiv.sum_comp s f

theorem program_shuffled (s : Equiv.Perm (Fin T)) (m : MeanRisk n T) (r : RiskMeasure) (hr : ¬ IsDrawdown r) (w : Fin n → ℝ) (k : ℝ) (a : (riskProgram m r w k).Aux) (h : (riskProgram m r w k).feasible a) :
    ∃ b, (riskProgram (shuffled s m) r w k).feasible b ∧ (riskProgram (shuffled s m) r w k).risk b = (riskProgram m r w k).risk a := by
  have hmar : ∀ t, ptfMar (shuffled s m).data w (shuffled s m).minAcceptableReturn t = ptfMar m.data w m.minAcceptableReturn (s t) := by
    intro t
    refine Finset.sum_congr rfl fun i _ => ?_
    change (m.data.returns (s t) i - marOf (shuffledData s m.data) m.minAcceptableReturn i) * w i = _
    cases m.minAcceptableReturn <;> rfl
  revert h
  revert a
  cases r with
  | meanAbsoluteDeviation =>
    rintro (v : Fin T → ℝ) ⟨h1, h2⟩
    refine ⟨fun t => v (s t), ⟨fun t => h1 (s t), fun t => ?_⟩, ?_⟩
    · rw [hmar]
      exact h2 (s t)
    · change 2 * (∑ t, v (s t)) / (T : ℝ) = 2 * (∑ t, v t) / (T : ℝ)
      rw [sum_shuffled]
  | firstLowerPartialMoment =>
    rintro (v : Fin T → ℝ) ⟨h1, h2⟩
    refine ⟨fun t => v (s t), ⟨fun t => h1 (s t), fun t => ?_⟩, ?_⟩
    · rw [hmar]
      exact h2 (s t)
    · change (∑ t, v (s t)) / (T : ℝ) = (∑ t, v t) / (T : ℝ)
      rw [sum_shuffled]
  | standardDeviation => exact fun a h => ⟨a, h, rfl⟩
  | variance => exact fun a h => ⟨a, h, rfl⟩
  | semiVariance =>
    rintro (v : Fin T → ℝ) ⟨h1, h2⟩
    refine ⟨fun t => v (s t), ⟨fun t => h1 (s t), fun t => ?_⟩, ?_⟩
    · rw [hmar]
      exact h2 (s t)
    · change (∑ t, v (s t) ^ 2) / ((T : ℝ) - 1) = (∑ t, v t ^ 2) / ((T : ℝ) - 1)
      rw [sum_shuffled s fun t => v t ^ 2]
  | semiDeviation =>
    rintro (v : Fin T → ℝ) ⟨h1, h2⟩
    refine ⟨fun t => v (s t), ⟨fun t => h1 (s t), fun t => ?_⟩, ?_⟩
    · rw [hmar]
      exact h2 (s t)
    · change Real.sqrt (∑ t, v (s t) ^ 2) / Real.sqrt ((T : ℝ) - 1) = Real.sqrt (∑ t, v t ^ 2) / Real.sqrt ((T : ℝ) - 1)
      rw [sum_shuffled s fun t => v t ^ 2]
  | worstRealization => exact fun (v : ℝ) h => ⟨v, fun t => h (s t), rfl⟩
  | cvar =>
    rintro (a : ℝ × (Fin T → ℝ)) ⟨h1, h2⟩
    refine ⟨(a.1, fun t => a.2 (s t)), ⟨fun t => h1 (s t), fun t => h2 (s t)⟩, ?_⟩
    change a.1 + 1 / ((T : ℝ) * (1 - m.cvarBeta)) * ∑ t, a.2 (s t) = a.1 + 1 / ((T : ℝ) * (1 - m.cvarBeta)) * ∑ t, a.2 t
    rw [sum_shuffled]
  | evar =>
    rintro (a : ℝ × ℝ × (Fin T → ℝ)) ⟨h1, h2, h3⟩
    refine ⟨(a.1, a.2.1, fun t => a.2.2 (s t)), ⟨h1, ?_, fun t => h3 (s t)⟩, rfl⟩
    change (∑ t, a.2.2 (s t)) * m.scale ≤ _
    rw [sum_shuffled]
    exact h2
  | maxDrawdown => exact absurd (.inl rfl) hr
  | averageDrawdown => exact absurd (.inr (.inl rfl)) hr
  | cdar => exact absurd (.inr (.inr (.inl rfl))) hr
  | edar => exact absurd (.inr (.inr (.inr (.inl rfl)))) hr
  | ulcerIndex => exact absurd (.inr (.inr (.inr (.inr rfl)))) hr
  | giniMeanDifference =>
    rintro (a : (Fin T → ℝ) × (Fin T → ℝ) × (Fin T → ℝ)) ⟨h1, h2⟩
    refine ⟨(a.1, fun t => a.2.1 (s t), fun t => a.2.2 (s t)), ⟨fun t => h1 (s t), fun i j => h2 (s i) j⟩, ?_⟩
    change 2 * ∑ t, (a.1 t + a.2.1 (s t)) = 2 * ∑ t, (a.1 t + a.2.1 t)
    rw [Finset.sum_add_distrib, Finset.sum_add_distrib, sum_shuffled]

section
variable (s : Equiv.Perm (Fin T)) (m : MeanRisk n T) (hr : ¬ IsDrawdown m.riskMeasure) (hl : ∀ r, IsDrawdown r → m.riskLimits r = none)
include hr hl

theorem feasible_shuffled (cs : List (Constraint ℝ n)) (w : Fin n → ℝ) (k : ℝ) (a : (riskProgram m m.riskMeasure w k).Aux) (h : Feasible m cs w k a) :
    ∃ b, Feasible (shuffled s m) cs w k b ∧ (riskProgram (shuffled s m) (shuffled s m).riskMeasure w k).risk b = (riskProgram m m.riskMeasure w k).risk a := by
  obtain ⟨b, hb, he⟩ := program_shuffled s m m.riskMeasure hr w k a h.aux
  refine ⟨b, ⟨h.factor, fun x hx => ?_, h.turnover, h.weight, h.return', fun r x hx => ?_, hb, h.ratio⟩, he⟩
  · have e : trackingError (shuffled s m) w k = trackingError m w k := by
      unfold trackingError
      congr 2
      exact sum_shuffled s fun t => (ptfReturns m.data w t - m.benchmark t * k) ^ 2
    rw [e]
    exact h.tracking x hx
  · have hd : ¬ IsDrawdown r := by
      intro hd
      have hx' : m.riskLimits r = some x := hx
      rw [hl r hd] at hx'
      cases hx'
    obtain ⟨a1, ha1, ha2⟩ := h.risks r x hx
    obtain ⟨b1, hb1, hb2⟩ := program_shuffled s m r hd w k a1 ha1
    refine ⟨b1, hb1, ?_⟩
    rw [hb2]
    exact ha2

theorem optimum_shuffled (cs : List (Constraint ℝ n)) (w : Fin n → ℝ) (k : ℝ) (h : ∃ a, IsOptimum m cs w k a) : ∃ b, IsOptimum (shuffled s m) cs w k b := by
  obtain ⟨a, ha, hmin⟩ := h
  obtain ⟨b, hb, he⟩ := feasible_shuffled s m hr hl cs w k a ha
  have hobj : ∀ (w : Fin n → ℝ) (k : ℝ) (a : (riskProgram m m.riskMeasure w k).Aux) (b : (riskProgram (shuffled s m) (shuffled s m).riskMeasure w k).Aux),
      (riskProgram (shuffled s m) (shuffled s m).riskMeasure w k).risk b = (riskProgram m m.riskMeasure w k).risk a → objectiveValue (shuffled s m) w k b = objectiveValue m w k a := by
    intro w k a b he
    unfold objectiveValue
    simp only [he]
    rfl
  refine ⟨b, hb, fun w' k' b' hb' => ?_⟩
  have key : ∀ m' : MeanRisk n T, m' = m → (∃ a' : (riskProgram m' m'.riskMeasure w' k').Aux, Feasible m' cs w' k' a' ∧
      (riskProgram m' m'.riskMeasure w' k').risk a' = (riskProgram (shuffled s m) (shuffled s m).riskMeasure w' k').risk b') →
      ∃ a' : (riskProgram m m.riskMeasure w' k').Aux, Feasible m cs w' k' a' ∧ (riskProgram m m.riskMeasure w' k').risk a' = (riskProgram (shuffled s m) (shuffled s m).riskMeasure w' k').risk b' := by
    rintro _ rfl h
    exact h
  obtain ⟨a', ha', he'⟩ := key _ (shuffled_inverse s m) (feasible_shuffled s⁻¹ (shuffled s m) hr hl cs w' k' b' hb')
  rw [hobj w k a b he, hobj w' k' a' b' he'.symm]
  exact hmin w' k' a' ha'

/-- **C115.** With a risk measure and risk limits other than drawdowns, the optimal solutions on shuffled observations are the same, whatever the objective and the limits. -/
theorem C115_mean_risk (cs : List (Constraint ℝ n)) (w : Fin n → ℝ) (k : ℝ) : (∃ b, IsOptimum (shuffled s m) cs w k b) ↔ ∃ a, IsOptimum m cs w k a := by
  refine ⟨fun h => ?_, optimum_shuffled s m hr hl cs w k⟩
  have key : ∀ m' : MeanRisk n T, m' = m → (∃ b, IsOptimum m' cs w k b) → ∃ a, IsOptimum m cs w k a := by
    rintro _ rfl h
    exact h
  exact key _ (shuffled_inverse s m) (optimum_shuffled s⁻¹ (shuffled s m) hr hl cs w k h)

end

/-! ### Risk budgeting -/

/-- Risk budgeting on shuffled observations. -/
def budgetShuffled (s : Equiv.Perm (Fin T)) (m : RiskBudgeting n T) : RiskBudgeting n T := { m with base := shuffled s m.base }

theorem budgetShuffled_inverse (s : Equiv.Perm (Fin T)) (m : RiskBudgeting n T) : budgetShuffled s⁻¹ (budgetShuffled s m) = m := by
  unfold budgetShuffled
  simp only [shuffled_inverse]

theorem budget_feasible_shuffled (s : Equiv.Perm (Fin T)) (m : RiskBudgeting n T) (hr : ¬ IsDrawdown m.base.riskMeasure) (cs : List (Constraint ℝ n)) (w : Fin n → ℝ) (k c : ℝ)
    (a : (riskProgram m.base m.base.riskMeasure w (riskFactor m.base.riskMeasure k)).Aux) (h : BudgetFeasible m cs w k c a) :
    ∃ b, BudgetFeasible (budgetShuffled s m) cs w k c b ∧ (riskProgram (budgetShuffled s m).base (budgetShuffled s m).base.riskMeasure w (riskFactor (budgetShuffled s m).base.riskMeasure k)).risk b =
      (riskProgram m.base m.base.riskMeasure w (riskFactor m.base.riskMeasure k)).risk a := by
  obtain ⟨b, hb, he⟩ := program_shuffled s m.base m.base.riskMeasure hr w _ a h.aux
  exact ⟨b, ⟨h.positive, h.budget, h.nonneg, h.weight, h.return', hb⟩, he⟩

theorem budget_optimum_shuffled (s : Equiv.Perm (Fin T)) (m : RiskBudgeting n T) (hr : ¬ IsDrawdown m.base.riskMeasure) (cs : List (Constraint ℝ n)) (w : Fin n → ℝ) (k c : ℝ)
    (h : ∃ a, BudgetOptimum m cs w k c a) : ∃ b, BudgetOptimum (budgetShuffled s m) cs w k c b := by
  obtain ⟨a, ha, hmin⟩ := h
  obtain ⟨b, hb, he⟩ := budget_feasible_shuffled s m hr cs w k c a ha
  refine ⟨b, hb, fun w' k' c' b' hb' => ?_⟩
  obtain ⟨a', ha', he'⟩ := budget_feasible_shuffled s⁻¹ (budgetShuffled s m) hr cs w' k' c' b' hb'
  have key : ∀ m' : RiskBudgeting n T, m' = m → ∀ a' : (riskProgram m'.base m'.base.riskMeasure w' (riskFactor m'.base.riskMeasure k')).Aux, BudgetFeasible m' cs w' k' c' a' →
      (riskProgram m.base m.base.riskMeasure w (riskFactor m.base.riskMeasure k)).risk a * m.base.scaleObjective ≤
        (riskProgram m'.base m'.base.riskMeasure w' (riskFactor m'.base.riskMeasure k')).risk a' * m.base.scaleObjective := by
    rintro _ rfl a' ha'
    exact hmin w' k' c' a' ha'
  have := key _ (budgetShuffled_inverse s m) a' ha'
  rw [he'] at this
  rw [he]
  exact this

/-- **C115.** The same for `RiskBudgeting`. -/
theorem C115_risk_budgeting (s : Equiv.Perm (Fin T)) (m : RiskBudgeting n T) (hr : ¬ IsDrawdown m.base.riskMeasure) (cs : List (Constraint ℝ n)) (w : Fin n → ℝ) (k c : ℝ) :
    (∃ b, BudgetOptimum (budgetShuffled s m) cs w k c b) ↔ ∃ a, BudgetOptimum m cs w k c a := by
  refine ⟨fun h => ?_, budget_optimum_shuffled s m hr cs w k c⟩
  have key : ∀ m' : RiskBudgeting n T, m' = m → (∃ b, BudgetOptimum m' cs w k c b) → ∃ a, BudgetOptimum m cs w k c a := by
    rintro _ rfl h
    exact h
  exact key _ (budgetShuffled_inverse s m) (budget_optimum_shuffled s⁻¹ (budgetShuffled s m) hr cs w k c h)

/-! ### Distributionally robust CVaR -/

/-- The problem on shuffled observations. -/
def robustShuffled (s : Equiv.Perm (Fin T)) (m : Robust n T) : Robust n T := { m with returns := fun t => m.returns (s t) }

/-- The variables that belong to the days, shuffled. -/
def auxShuffled (s : Equiv.Perm (Fin T)) (p : RobustAux n T) : RobustAux n T := { p with u := fun t => p.u (s t), v := fun t => p.v (s t), s := fun t => p.s (s t) }

theorem robust_feasible_shuffled (s : Equiv.Perm (Fin T)) (m : Robust n T) (w : Fin n → ℝ) (p : RobustAux n T) (h : RobustFeasible m w p) : RobustFeasible (robustShuffled s m) w (auxShuffled s p) :=
  ⟨fun i j => h.u (s i) j, fun i j => h.v (s i) j, fun i => h.first (s i), fun i => h.second (s i), fun i => h.norm1 (s i), fun i => h.norm2 (s i)⟩

theorem robust_objective_shuffled (s : Equiv.Perm (Fin T)) (m : Robust n T) (p : RobustAux n T) : robustObjective (robustShuffled s m) (auxShuffled s p) = robustObjective m p := by
  unfold robustObjective
  change _ + 1 / (T : ℝ) * (∑ t, p.s (s t)) * _ = _
  rw [sum_shuffled]
  rfl

theorem robust_optimum_shuffled (s : Equiv.Perm (Fin T)) (m : Robust n T) (cs : List (Constraint ℝ n)) (w : Fin n → ℝ) (p : RobustAux n T) (h : RobustOptimum m cs w p) :
    RobustOptimum (robustShuffled s m) cs w (auxShuffled s p) := by
  obtain ⟨⟨h1, h2⟩, h3⟩ := h
  refine ⟨⟨h1, robust_feasible_shuffled s m w p h2⟩, fun w' p' h1' h2' => ?_⟩
  have h4 := robust_feasible_shuffled s⁻¹ (robustShuffled s m) w' p' h2'
  have e : robustShuffled s⁻¹ (robustShuffled s m) = m := by
    unfold robustShuffled
    simp
  have h5 := robust_objective_shuffled s⁻¹ (robustShuffled s m) p'
  rw [e] at h4 h5
  rw [robust_objective_shuffled, ← h5]
  exact h3 w' _ h1' h4

/-- **C115.** The same for `DistributionallyRobustCVaR`. -/
theorem C115_distributionally_robust (s : Equiv.Perm (Fin T)) (m : Robust n T) (cs : List (Constraint ℝ n)) (w : Fin n → ℝ) : (∃ p, RobustOptimum (robustShuffled s m) cs w p) ↔ ∃ p, RobustOptimum m cs w p := by
  refine ⟨fun ⟨p, h⟩ => ?_, fun ⟨p, h⟩ => ⟨_, robust_optimum_shuffled s m cs w p h⟩⟩
  have := robust_optimum_shuffled s⁻¹ (robustShuffled s m) cs w p h
  have e : robustShuffled s⁻¹ (robustShuffled s m) = m := by
    unfold robustShuffled
    simp
  rw [e] at this
  exact ⟨_, this⟩

/-- **C115.** The default estimators of the moments do not depend on the order either, with no window. -/
theorem C115_empirical_moments (rows rows' : List (Fin n → ℝ)) (h : rows'.Perm rows) :
    Moments.empiricalMu none rows' = Moments.empiricalMu none rows ∧
    ∀ isPD eigh nearest higham maxIter ddof, Moments.empiricalCovariance isPD eigh nearest higham maxIter ddof none rows' = Moments.empiricalCovariance isPD eigh nearest higham maxIter ddof none rows := by
  have hmean : Moments.colMean rows' = Moments.colMean rows := by
    funext i
    unfold Moments.colMean
    rw [(h.map _).sum_eq, h.length_eq]
  refine ⟨?_, fun isPD eigh nearest higham maxIter ddof => ?_⟩
  · unfold Moments.empiricalMu Moments.lastRows
    simp only [hmean]
    have : rows' = [] ↔ rows = [] := ⟨fun e => by subst e; exact h.nil_eq.symm, fun e => by subst e; exact h.eq_nil⟩
    simp only [this]
  · have : Moments.npCov ddof rows' = Moments.npCov ddof rows := by
      unfold Moments.npCov
      rw [h.length_eq, hmean]
      congr 2
      funext i j
      rw [(h.map _).sum_eq]
    unfold Moments.empiricalCovariance Moments.lastRows
    simp only [this]

/-- **C115.** With a window the order matters: the days that are kept change. -/
theorem C115_window_order_matters : ∃ rows rows' : List (Fin 1 → ℝ), rows'.Perm rows ∧ Moments.empiricalMu (some 1) rows' ≠ Moments.empiricalMu (some 1) rows := by
  refine ⟨[fun _ => 1, fun _ => 2], [fun _ => 2, fun _ => 1], List.Perm.swap _ _ _, fun h => ?_⟩
  have h' : some (Moments.colMean [fun _ : Fin 1 => (1 : ℝ)]) = some (Moments.colMean [fun _ => 2]) := h
  have := congrFun (Option.some.inj h') 0
  norm_num [Moments.colMean] at this

/-- Two assets on three days. -/
example : Moments.empiricalMu none [![1, 2], ![3, 4], ![(5 : ℝ), 0]] = Moments.empiricalMu none [![3, 4], ![1, 2], ![5, 0]] := (C115_empirical_moments _ _ (List.Perm.swap _ _ _)).1

/-! ### Drawdowns -/

/-- Two assets over three days, long-only and fully invested, least maximum drawdown. The first loses 1, gains 1 and loses 1; the second loses 3/2 on the first day. -/
noncomputable def drawdownAssets : MeanRisk 2 3 where
  data := { returns := fun t i => if i = 0 then ![-1, 1, -1] t else ![-3 / 2, 0, 0] t, mu := fun _ => 0, previousWeights := fun _ => 0, transactionCosts := fun _ => 0, managementFees := fun _ => 0, riskFreeRate := 0 }
  cholesky := fun i j => if i = j then 1 else 0
  weights := longOnly
  objective := .minimizeRisk
  riskMeasure := .maxDrawdown
  minAcceptableReturn := .default
  cvarBeta := 95 / 100
  evarBeta := 95 / 100
  cdarBeta := 95 / 100
  edarBeta := 95 / 100
  riskAversion := 1
  l1Coef := 0
  l2Coef := 0
  maxTrackingError := none
  benchmark := fun _ => 0
  maxTurnover := none
  minReturns := []
  riskLimits := fun _ => none
  uncertainty := none
  scale := 1
  scaleObjective := 1

/-- The last two days swapped. -/
def swapDays : Equiv.Perm (Fin 3) := Equiv.swap 1 2

theorem four_two (a b c d : ℝ) : (![a, b, c, d] : Fin 4 → ℝ) 2 = c := rfl

theorem three_two (a b c : ℝ) : (![a, b, c] : Fin 3 → ℝ) 2 = c := rfl

theorem drawdownAssets_feasible (s : Equiv.Perm (Fin 3)) (cs : List (Constraint ℝ 2)) (hcs : getWeightConstraints longOnly false true (1 : ℝ) = .ok cs) (w : Fin 2 → ℝ) (k : ℝ) (a : (Fin 4 → ℝ) × ℝ) :
    Feasible (shuffled s drawdownAssets) cs w k a ↔ k = 1 ∧ 0 ≤ w 0 ∧ 0 ≤ w 1 ∧ w 0 + w 1 = 1 ∧ (maxDrawdownRisk (shuffled s drawdownAssets).data w k 1).feasible a := by
  constructor
  · intro h
    have hk : k = 1 := h.factor fun h => (by cases h)
    subst hk
    have hl := (C19_weight_limits longOnly false true 1 1 one_pos one_pos w cs hcs rfl).1 h.weight
    have h0 := hl.atLeast _ rfl 0
    have h1 := hl.atLeast _ rfl 1
    have hb := hl.budget 1 rfl
    simp only [div_one] at h0 h1 hb
    rw [Fin.sum_univ_two] at hb
    exact ⟨rfl, h0, h1, hb, h.aux⟩
  · rintro ⟨rfl, h0, h1, hb, ha⟩
    refine ⟨fun _ => rfl, fun x hx => (by cases hx), fun x hx => (by cases hx), ?_, fun z hz => absurd hz List.not_mem_nil, fun r x hx => (by cases hx), ha, fun h => (by cases h)⟩
    refine (C19_weight_limits longOnly false true 1 1 one_pos one_pos w cs hcs rfl).2 (longOnly_limits _ ?_ ?_ ?_)
    · simpa using h0
    · simpa using h1
    · simpa using hb

/-- **C115.** For drawdowns the order matters: in the first order all the money in the first asset is optimal; with the last two days swapped it is not. -/
theorem C115_drawdown_order_matters : ∃ cs, getWeightConstraints longOnly false true (1 : ℝ) = .ok cs ∧ (∃ a, IsOptimum drawdownAssets cs ![1, 0] 1 a) ∧ ¬ ∃ b, IsOptimum (shuffled swapDays drawdownAssets) cs ![1, 0] 1 b := by
  obtain ⟨cs, hcs⟩ := frontier_ok
  refine ⟨cs, hcs, ?_, ?_⟩
  · have e : shuffled (1 : Equiv.Perm (Fin 3)) drawdownAssets = drawdownAssets := rfl
    refine ⟨((![0, 1, 0, 1] : Fin 4 → ℝ), (1 : ℝ)), (drawdownAssets_feasible 1 cs hcs _ _ _).2 ⟨rfl, by norm_num, by norm_num, by norm_num, ?_⟩, ?_⟩
    · refine ⟨⟨fun t => ?_, fun t => ?_, by norm_num⟩, fun t => ?_⟩ <;> fin_cases t <;> norm_num [ptfReturns, transactionCost, managementFee, shuffled, shuffledData, drawdownAssets, Fin.sum_univ_two, four_two, three_two]
    · intro w' k' a' h'
      obtain ⟨rfl, h0, h1, hb, ⟨⟨h2, -, h3⟩, h4⟩⟩ := (drawdownAssets_feasible 1 cs hcs _ _ _).1 h'
      have h20 := h2 0
      have h40 := h4 0
      simp [ptfReturns, transactionCost, managementFee, shuffled, shuffledData, drawdownAssets, Fin.sum_univ_two] at h20 h3 h40
      change (1 : ℝ) * 1 + (0 * _ + 0 * _) * 1 ≤ a'.2 * 1 + (0 * _ + 0 * _) * 1
      linarith
  · rintro ⟨b, h, hmin⟩
    obtain ⟨-, -, -, -, ⟨⟨h2, -, h3⟩, h4⟩⟩ := (drawdownAssets_feasible swapDays cs hcs _ _ _).1 h
    have s0 : swapDays 0 = 0 := by decide
    have s1 : swapDays 1 = 2 := by decide
    have s2 : swapDays 2 = 1 := by decide
    have h20 := h2 0
    have h21 := h2 1
    have h41 := h4 1
    simp [ptfReturns, transactionCost, managementFee, shuffled, shuffledData, drawdownAssets, Fin.sum_univ_two, s0, s1] at h20 h21 h3 h41
    have hf : Feasible (shuffled swapDays drawdownAssets) cs ![0, 1] 1 ((![0, 3 / 2, 3 / 2, 3 / 2] : Fin 4 → ℝ), (3 / 2 : ℝ)) := by
      refine (drawdownAssets_feasible swapDays cs hcs _ _ _).2 ⟨rfl, by norm_num, by norm_num, by norm_num, ?_⟩
      refine ⟨⟨fun t => ?_, fun t => ?_, by norm_num⟩, fun t => ?_⟩ <;> fin_cases t <;> norm_num [ptfReturns, transactionCost, managementFee, shuffled, shuffledData, drawdownAssets, Fin.sum_univ_two, s0, s1, s2, show swapDays ⟨2, by decide⟩ = 1 from s2, four_two, three_two]
    have h5 := hmin _ _ _ hf
    change b.2 * 1 + (0 * _ + 0 * _) * 1 ≤ (3 / 2 : ℝ) * 1 + (0 * _ + 0 * _) * 1 at h5
    linarith

/-! ### Concrete cases -/

/-- Least standard deviation, days swapped. -/
example : ¬ IsDrawdown (frontierAssets (4 / 100) (2 / 100)).riskMeasure ∧ ∃ cs, getWeightConstraints longOnly false true (1 : ℝ) = .ok cs ∧ ∃ b, IsOptimum (shuffled (Equiv.swap 0 1) (frontierAssets (4 / 100) (2 / 100))) cs ![1 / 2, 1 / 2] 1 b := by
  obtain ⟨cs, hcs⟩ := frontier_ok
  have h : ¬ IsDrawdown (frontierAssets (4 / 100) (2 / 100)).riskMeasure := by
    rintro (h | h | h | h | h) <;> cases h
  exact ⟨h, cs, hcs, (C115_mean_risk _ _ h (fun _ _ => rfl) cs _ _).2 ⟨_, frontier_min (4 / 100) (2 / 100) cs hcs⟩⟩

example : ∃ cs w k c, (∃ b, BudgetOptimum (budgetShuffled (Equiv.swap 0 1) fourToOne) cs w k c b) ∧ returnedWeights w k = ![2 / 3, 1 / 3] := by
  obtain ⟨cs, w, k, c, a, -, h, hw, -⟩ := fourToOne_optimum (sortPartition ℝ)
  refine ⟨cs, w, k, c, (C115_risk_budgeting _ _ ?_ cs w k c).2 ⟨a, h⟩, hw⟩
  rintro (h | h | h | h | h) <;> cases h

/-- One asset that gains 10 % on a day and loses 10 % on the other. -/
noncomputable def twoDays : Robust 1 2 := { robustExample with returns := fun t _ => if t = 0 then 1 / 10 else -1 / 10 }

noncomputable def twoDaysAux : RobustAux 1 2 where
  u := fun _ _ => 0
  v := fun _ _ => 0
  lb := 3
  tau := 0
  s := fun t => if t = 0 then -1 / 10 else 3 / 10

theorem twoDays_optimum : ∃ cs, getWeightConstraints twoDays.weights false true twoDays.scale = .ok cs ∧ RobustOptimum twoDays cs (fun _ => 1) twoDaysAux := by
  obtain ⟨cs, hcs, -⟩ := robustExample_optimum
  have hlim := fun w' => C19_weight_limits robustExample.weights false true robustExample.scale 1 (by simp [robustExample]) one_pos w' cs hcs (by simp [isMip, robustExample])
  refine ⟨cs, hcs, ⟨⟨?_, ?_⟩, ?_⟩⟩
  · refine (hlim _).2 ?_
    constructor <;> simp [robustExample]
  · constructor
    · simp [twoDaysAux]
    · simp [twoDaysAux]
    · intro i
      fin_cases i <;> norm_num [twoDays, robustExample, twoDaysAux, slope1, offset1]
    · intro i
      fin_cases i <;> norm_num [twoDays, robustExample, twoDaysAux, slope2, offset2]
    · intro i
      simp [twoDays, robustExample, twoDaysAux, slope1]
    · intro i
      simp only [twoDays, robustExample, twoDaysAux, slope2, mul_one]
      rw [pi_norm_le_iff_of_nonneg (by norm_num)]
      intro j
      norm_num
  · intro w' p' hw' hp'
    have h1 := ((hlim w').1 hw').budget 1 rfl
    simp only [div_one, Finset.univ_unique, Finset.sum_singleton] at h1
    have h1 : w' 0 = 1 := h1
    have a0 := hp'.first 0
    have a1 := hp'.second 1
    have u0 := hp'.u 0 0
    have v1 := hp'.v 1 0
    have b1 := (norm_le_pi_norm _ (0 : Fin 1)).trans ((mul_one _).symm.le.trans ((hp'.norm2 1).trans (mul_one _).le))
    have b2 := (abs_le.1 b1).2
    simp [twoDays, robustExample, offset1, offset2, slope1, slope2, h1] at a0 a1 u0 v1 b2
    simp [robustObjective, twoDays, robustExample, twoDaysAux, Fin.sum_univ_two]
    norm_num at a0 a1 u0 v1 b2 ⊢
    linarith

/-- With the two days swapped, `DistributionallyRobustCVaR` still returns a weight of 1, and the distribution of the losses over the days is swapped. -/
example : ∃ cs p, RobustOptimum (robustShuffled (Equiv.swap 0 1) twoDays) cs (fun _ => 1) p ∧ (robustShuffled (Equiv.swap 0 1) twoDays).returns ≠ twoDays.returns := by
  obtain ⟨cs, -, h⟩ := twoDays_optimum
  obtain ⟨p, hp⟩ := (C115_distributionally_robust (Equiv.swap 0 1) twoDays cs _).2 ⟨_, h⟩
  refine ⟨cs, p, hp, fun he => ?_⟩
  have := congrFun (congrFun he 0) 0
  norm_num [robustShuffled, twoDays] at this

end

end Skfolio.Convex
