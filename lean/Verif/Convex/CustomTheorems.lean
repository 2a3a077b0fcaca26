import Verif.Convex.CustomModel
import Verif.Convex.ObjectiveTheorems
import Verif.Convex.RiskBudgetingFindings
import Verif.Convex.RobustTheorems

/-!
**C92**: custom objectives and constraints.
-/
set_option autoImplicit false

namespace Skfolio.Convex

open Skfolio.Measures MeasureTheory

/-! ### The call -/

theorem guard_ok {β : Type} (o : Option β) (v : β) : guardCall o = .ok v ↔ o = some v := by
  cases o with
  | none => simp [guardCall]
  | some x => simp [guardCall]

/-- **C92.** A function is called with the weights if it has one parameter, and with the weights and the estimator if it has two, and what it returns is used; in every other case, and if the function raises, the fit raises. -/
theorem C92_call {β : Type} (f : PyCallable β) (v : β) :
    callCustomFunc f = .ok v ↔
      (∃ defaults body, f = .function 1 defaults false body ∧ body [.weights] = some v) ∨ (∃ defaults body, f = .function 2 defaults false body ∧ body [.weights, .estimator] = some v) := by
  cases f with
  | noCode => simp [callCustomFunc]
  | function argcount defaults bound body =>
    by_cases h1 : argcount = 1
    · subst h1
      cases bound <;> simp [callCustomFunc, pyCall, guard_ok]
    · by_cases h2 : argcount = 2
      · subst h2
        cases bound <;> simp [callCustomFunc, pyCall, guard_ok]
      · simp [callCustomFunc, h1, h2]

/-- **C92, finding.** A bound method is never accepted, though it could be called with the weights: `co_argcount` counts the object it is bound to, so that a method with one parameter is called with two arguments. -/
theorem C92_bound_method {β : Type} (argcount defaults : Nat) (body : List CustomArg → Option β) : ∃ e, callCustomFunc (.function argcount defaults true body) = .error e ∧
    (argcount = 2 → e = .calling ∧ pyCall argcount defaults true body [.weights] = body [.weights]) := by
  by_cases h1 : argcount = 1
  · exact ⟨.calling, by subst h1; simp [callCustomFunc, pyCall, guardCall], fun h => by omega⟩
  · by_cases h2 : argcount = 2
    · exact ⟨.calling, by subst h2; simp [callCustomFunc, pyCall, guardCall], fun _ => ⟨rfl, by subst h2; simp [pyCall]⟩⟩
    · exact ⟨.arguments argcount, by simp [callCustomFunc, h1, h2], fun h => absurd h h2⟩

/-- **C92, finding.** An optional second parameter is not left at its default: the estimator is passed for it. -/
theorem C92_optional_parameter {β : Type} (body : List CustomArg → Option β) (v u : β) (hv : body [.weights] = some v) (hu : body [.weights, .estimator] = some u) :
    pyCall 2 1 false body [.weights] = some v ∧ callCustomFunc (.function 2 1 false body) = .ok u := by
  simp [callCustomFunc, pyCall, hv, hu, guardCall]

/-- **C92.** A single constraint counts like a list of one. -/
theorem C92_constraints {n : Nat} (f : PyCallable (OneOrMany (WeightProp n))) (con : List (WeightProp n)) :
    getCustomConstraints (some f) = .ok con ↔ callCustomFunc f = .ok (.many con) ∨ ∃ c, callCustomFunc f = .ok (.one c) ∧ con = [c] := by
  unfold getCustomConstraints
  cases h : callCustomFunc f with
  | error e => simp [h]
  | ok v =>
    cases v with
    | one c => simp [h, eq_comm]
    | many l => simp [h]

/-! ### MeanRisk without ratio -/

section
variable {n T : Nat}

/-- The custom functions are not read by the rest of the problem. -/
theorem custom_value (m : MeanRisk n T) (g : WeightExpr n) (w : Fin n → ℝ) (k : ℝ) (a : (riskProgram m m.riskMeasure w k).Aux) :
    customObjectiveValue m g w k a = objectiveValue m w k a + (if m.objective = .maximizeReturn ∨ m.objective = .maximizeUtility then -g w else g w) * m.scaleObjective := by
  unfold customObjectiveValue objectiveValue
  cases m.objective <;> simp <;> ring

section
variable (P : Partition ℝ) (m : MeanRisk n T) (hs : 0 < m.scale) (hso : 0 < m.scaleObjective) (hT : 2 ≤ T) (hb : BetasOk m) (cs : List (Constraint ℝ n))
  (hcs : getWeightConstraints m.weights (factorIsVariable m) true m.scale = .ok cs) (R : (Fin n → ℝ) → ℝ) (hR : IsRiskOf P m m.riskMeasure R)
  (con : List (WeightProp n)) (g : WeightExpr n)
include hs hso hT hb hcs hR

/-- **C92.** `MINIMIZE_RISK`: the returned portfolio is within the limits and meets the custom constraints, and of all such portfolios it has the smallest sum of risk, penalty and custom objective. -/
theorem C92_minimize_risk (ho : m.objective = .minimizeRisk) (w : Fin n → ℝ) (k : ℝ) (a : (riskProgram m m.riskMeasure w k).Aux) (h : CustomOptimum m cs con g w k a) :
    Within P m (returnedWeights w k) ∧ (∀ c ∈ con, c (returnedWeights w k)) ∧
      ∀ w', Comparable P m w' → (∀ c ∈ con, c w') → R (returnedWeights w k) + penalty m (returnedWeights w k) + g (returnedWeights w k) ≤ R w' + penalty m w' + g w' := by
  have hr : m.objective ≠ .maximizeRatio := by rw [ho]; decide
  obtain ⟨rfl, hin⟩ := feasible_within P m hs hT hb hr cs hcs w k a h.1.1
  rw [returned_one]
  refine ⟨hin, h.1.2, fun w' hw' hc' => ?_⟩
  have hv := (risk_glb P m hs hT hb _ R hR w).1 a h.1.1.aux
  have key : R w + penalty m w + g w - penalty m w' - g w' ≤ R w' := by
    refine (risk_glb P m hs hT hb _ R hR w').2 _ fun a' ha' => ?_
    have := h.2 w' 1 a' ⟨comparable_feasible P m hs hT hb hr cs hcs w' hw' a' ha', hc'⟩
    unfold customObjectiveValue at this
    simp only [ho] at this
    rw [← add_mul, ← add_mul, ← add_mul, ← add_mul, mul_le_mul_iff_left₀ hso, penalty_eq, penalty_eq] at this
    linarith
  linarith

/-- **C92.** `MAXIMIZE_RETURN`: the custom objective is *added* to what is maximised. -/
theorem C92_maximize_return (ho : m.objective = .maximizeReturn) (w : Fin n → ℝ) (k : ℝ) (a : (riskProgram m m.riskMeasure w k).Aux) (h : CustomOptimum m cs con g w k a) :
    Within P m (returnedWeights w k) ∧ (∀ c ∈ con, c (returnedWeights w k)) ∧
      ∀ w', Comparable P m w' → (∀ c ∈ con, c w') →
        netExpectedReturn m w' - penalty m w' + g w' ≤ netExpectedReturn m (returnedWeights w k) - penalty m (returnedWeights w k) + g (returnedWeights w k) := by
  have hr : m.objective ≠ .maximizeRatio := by rw [ho]; decide
  obtain ⟨rfl, hin⟩ := feasible_within P m hs hT hb hr cs hcs w k a h.1.1
  rw [returned_one]
  refine ⟨hin, h.1.2, fun w' hw' hc' => ?_⟩
  obtain ⟨a', ha'⟩ : ∃ a', (riskProgram m m.riskMeasure w' 1).feasible a' := by
    by_contra hno
    push Not at hno
    have := (risk_glb P m hs hT hb _ R hR w').2 (R w' + 1) fun a' ha' => absurd ha' (hno a')
    linarith
  have := h.2 w' 1 a' ⟨comparable_feasible P m hs hT hb hr cs hcs w' hw' a' ha', hc'⟩
  unfold customObjectiveValue at this
  simp only [ho] at this
  rw [neg_le_neg_iff, ← sub_mul, ← sub_mul, ← add_mul, ← add_mul, mul_le_mul_iff_left₀ hso, penalty_eq, penalty_eq, expected_one, expected_one] at this
  exact this

/-- **C92.** `MAXIMIZE_UTILITY`, likewise. -/
theorem C92_maximize_utility (ho : m.objective = .maximizeUtility) (ha0 : 0 ≤ m.riskAversion) (w : Fin n → ℝ) (k : ℝ) (a : (riskProgram m m.riskMeasure w k).Aux) (h : CustomOptimum m cs con g w k a) :
    Within P m (returnedWeights w k) ∧ (∀ c ∈ con, c (returnedWeights w k)) ∧
      ∀ w', Comparable P m w' → (∀ c ∈ con, c w') →
        netExpectedReturn m w' - m.riskAversion * R w' - penalty m w' + g w' ≤
          netExpectedReturn m (returnedWeights w k) - m.riskAversion * R (returnedWeights w k) - penalty m (returnedWeights w k) + g (returnedWeights w k) := by
  have hr : m.objective ≠ .maximizeRatio := by rw [ho]; decide
  obtain ⟨rfl, hin⟩ := feasible_within P m hs hT hb hr cs hcs w k a h.1.1
  rw [returned_one]
  refine ⟨hin, h.1.2, fun w' hw' hc' => ?_⟩
  have hv := mul_le_mul_of_nonneg_left ((risk_glb P m hs hT hb _ R hR w).1 a h.1.1.aux) ha0
  have hopt : ∀ a', (riskProgram m m.riskMeasure w' 1).feasible a' →
      netExpectedReturn m w' - m.riskAversion * (riskProgram m m.riskMeasure w' 1).risk a' - penalty m w' + g w' ≤ netExpectedReturn m w - m.riskAversion * (riskProgram m m.riskMeasure w 1).risk a - penalty m w + g w := by
    intro a' ha'
    have := h.2 w' 1 a' ⟨comparable_feasible P m hs hT hb hr cs hcs w' hw' a' ha', hc'⟩
    unfold customObjectiveValue at this
    simp only [ho] at this
    rw [neg_le_neg_iff, ← sub_mul, ← sub_mul, ← sub_mul, ← sub_mul, ← add_mul, ← add_mul, mul_le_mul_iff_left₀ hso, penalty_eq, penalty_eq, expected_one, expected_one] at this
    exact this
  rcases ha0.eq_or_lt with h0 | h0
  · obtain ⟨a', ha'⟩ : ∃ a', (riskProgram m m.riskMeasure w' 1).feasible a' := by
      by_contra hno
      push Not at hno
      have := (risk_glb P m hs hT hb _ R hR w').2 (R w' + 1) fun a' ha' => absurd ha' (hno a')
      linarith
    have := hopt a' ha'
    rw [← h0] at this ⊢
    linarith
  · have key : (netExpectedReturn m w' - penalty m w' + g w' - (netExpectedReturn m w - m.riskAversion * (riskProgram m m.riskMeasure w 1).risk a - penalty m w + g w)) / m.riskAversion ≤ R w' := by
      refine (risk_glb P m hs hT hb _ R hR w').2 _ fun a' ha' => ?_
      rw [div_le_iff₀ h0]
      linarith [hopt a' ha']
    rw [div_le_iff₀ h0] at key
    linarith

end

/-! ### Maximising the ratio -/

/-- A constraint that does not change when the weights are multiplied by a positive number. -/
def IsCone (c : WeightProp n) : Prop := ∀ l : ℝ, 0 < l → ∀ w, c w → c fun i => l * w i

/-- An objective that is homogeneous of degree `d`. -/
def IsHomogeneous (d : Nat) (g : WeightExpr n) : Prop := ∀ l : ℝ, 0 < l → ∀ w, (g fun i => l * w i) = l ^ d * g w

theorem cone_returned (c : WeightProp n) (hc : IsCone c) (w : Fin n → ℝ) (k : ℝ) (hk : 0 < k) (h : c w) : c (returnedWeights w k) := by
  rw [returned_eq_scaled]
  exact hc k⁻¹ (inv_pos.2 hk) w h

/-- **C92.** `MAXIMIZE_RATIO`: if the custom constraints are about proportions only (not changed by a positive factor) and the custom objective is homogeneous of the degree of the risk measure, then the returned
portfolio meets the custom constraints, and of all portfolios within the limits that meet them it has the largest ratio of excess return to the sum of risk, penalty and custom objective (cross-multiplied, the excess
return squared for the measures of degree 2). Missing: other custom constraints and objectives, for which it is false (`C92_ratio_constraint_violated`). -/
theorem C92_ratio_partial (m : MeanRisk n T) (hs : 0 < m.scale) (hso : 0 < m.scaleObjective) (cs : List (Constraint ℝ n)) (hr : m.objective = .maximizeRatio)
    (hcs : getWeightConstraints m.weights (factorIsVariable m) true m.scale = .ok cs) (hte : m.maxTrackingError = none)
    (hvar : m.riskLimits .variance = none) (hsv : m.riskLimits .semiVariance = none)
    (h1 : degree m.riskMeasure = 1 → m.l2Coef = 0) (h2 : degree m.riskMeasure = 2 → m.l1Coef = 0)
    (con : List (WeightProp n)) (hcon : ∀ c ∈ con, IsCone c) (g : WeightExpr n) (hg : IsHomogeneous (degree m.riskMeasure) g)
    (w : Fin n → ℝ) (k : ℝ) (hk : 0 < k) (a : (riskProgram m m.riskMeasure w k).Aux) (h : CustomOptimum m cs con g w k a)
    (rho : ℝ) (hrho : IsOptimalValue (riskProgram m m.riskMeasure (returnedWeights w k) 1) rho)
    (w' : Fin n → ℝ) (hw' : Allowed m w') (hc' : ∀ c ∈ con, c w') (he : 0 < excessReturn m w')
    (hM : isMip m.weights = true → homogenizationFactor m.data.mu / excessReturn m w' ≤ 1000 ∧
      ∀ i, |homogenizationFactor m.data.mu / excessReturn m w' * w' i| ≤ 1000)
    (rho' : ℝ) (hrho' : IsOptimalValue (riskProgram m m.riskMeasure w' 1) rho') (hpos : isAffine m ∨ 0 ≤ penalised m rho' w' + g w') :
    (∀ c ∈ con, c (returnedWeights w k)) ∧ 0 < excessReturn m (returnedWeights w k) ∧
      excessReturn m w' ^ degree m.riskMeasure * (penalised m rho (returnedWeights w k) + g (returnedWeights w k)) ≤
        excessReturn m (returnedWeights w k) ^ degree m.riskMeasure * (penalised m rho' w' + g w') := by
  refine ⟨fun c hc => cone_returned c (hcon c hc) w k hk (h.1.2 c hc), ?_⟩
  obtain ⟨⟨a', ha', rfl⟩, -⟩ := hrho'
  obtain ⟨c, hc⟩ : ∃ c, c = homogenizationFactor m.data.mu := ⟨_, rfl⟩
  have hc0 : 0 < c := hc ▸ homogenization_pos _
  rw [← hc] at hM
  obtain ⟨l, hl⟩ : ∃ l, l = c / excessReturn m w' := ⟨_, rfl⟩
  rw [← hl] at hM
  obtain ⟨q, hq, hqv⟩ := allowed_feasible m hs cs hr hcs hte hvar hsv w' hw' he l (hc ▸ hl) hM a' ha'
  have hl0 : 0 < l := hl ▸ div_pos hc0 he
  have hopt := h.2 _ _ q ⟨hq, fun p hp => hcon p hp l hl0 w' (hc' p hp)⟩
  obtain ⟨b, hb, hbv⟩ := program_down m m.riskMeasure w k hk a h.1.1.aux
  have hobj : ∀ (w : Fin n → ℝ) (k : ℝ) (a : (riskProgram m m.riskMeasure w k).Aux),
      customObjectiveValue m g w k a = ((riskProgram m m.riskMeasure w k).risk a + regularization m w + g w) * m.scaleObjective := by
    intro w k a
    unfold customObjectiveValue
    rw [hr, add_mul, add_mul]
  rw [hobj, hobj, mul_le_mul_iff_left₀ hso, hqv, ← hbv] at hopt
  have hreg1 : regularization m w = k ^ degree m.riskMeasure * regularization m (returnedWeights w k) := by
    conv_lhs => rw [← scaled_returned w k hk]
    exact regularization_scaled m _ h1 h2 k hk _
  have hg1 : g w = k ^ degree m.riskMeasure * g (returnedWeights w k) := by
    conv_lhs => rw [← scaled_returned w k hk]
    exact hg k hk _
  have hg2 : g (scaled l w') = l ^ degree m.riskMeasure * g w' := hg l hl0 w'
  rw [hreg1, hg1, hg2, regularization_scaled m _ h1 h2 l hl0, ← mul_add, ← mul_add, ← mul_add, ← mul_add] at hopt
  change k ^ degree m.riskMeasure * (penalised m _ _ + g (returnedWeights w k)) ≤ l ^ degree m.riskMeasure * (penalised m _ _ + g w') at hopt
  have hle : penalised m rho (returnedWeights w k) + g (returnedWeights w k) ≤ penalised m ((riskProgram m m.riskMeasure (returnedWeights w k) 1).risk b) (returnedWeights w k) + g (returnedWeights w k) := by
    have := hrho.2 b hb
    unfold penalised
    linarith
  set D := degree m.riskMeasure
  set Pw' := penalised m ((riskProgram m m.riskMeasure w' 1).risk a') w' + g w'
  have hopt := (mul_le_mul_of_nonneg_left hle (pow_pos hk D).le).trans hopt
  set Pw := penalised m rho (returnedWeights w k) + g (returnedWeights w k)
  have hexc : expectedReturn m w k * m.scale - m.data.riskFreeRate * k * m.scale = k * excessReturn m (returnedWeights w k) * m.scale := by
    rw [expected_returned m w k hk]
    unfold excessReturn
    ring
  have hE : (isAffine m → k * excessReturn m (returnedWeights w k) = c) ∧ c ≤ k * excessReturn m (returnedWeights w k) := by
    obtain ⟨r1, r2⟩ := h.1.1.ratio hr
    rw [hexc, ← hc] at r1 r2
    by_cases ha : isAffine m
    · have := mul_right_cancel₀ hs.ne' (r1 ha)
      exact ⟨fun _ => this, this.ge⟩
    · exact ⟨fun h => absurd h ha, (mul_le_mul_iff_left₀ hs).1 (r2 ha)⟩
  set E := excessReturn m (returnedWeights w k)
  set E' := excessReturn m w'
  have hE0 : 0 < E := by
    by_contra hneg
    have := mul_nonpos_of_nonneg_of_nonpos hk.le (not_lt.1 hneg)
    linarith [hE.2]
  refine ⟨hE0, ?_⟩
  have key : E' ^ D * (k ^ D * Pw) ≤ c ^ D * Pw' := by
    have := mul_le_mul_of_nonneg_left hopt (pow_nonneg he.le D)
    rwa [← mul_assoc (E' ^ D) (l ^ D), ← mul_pow, hl, mul_div_cancel₀ _ he.ne'] at this
  have key2 : c ^ D * Pw' ≤ (k * E) ^ D * Pw' := by
    rcases hpos with ha | hp
    · rw [hE.1 ha]
    · exact mul_le_mul_of_nonneg_right (pow_le_pow_left₀ hc0.le hE.2 D) hp
  have key3 := key.trans key2
  rw [mul_pow, mul_assoc, ← mul_assoc (E' ^ D), mul_comm (E' ^ D), mul_assoc] at key3
  exact (mul_le_mul_iff_right₀ (pow_pos hk D)).1 key3

/-! ### RiskBudgeting and DistributionallyRobustCVaR -/

/-- **C92.** `RiskBudgeting`: custom constraints about proportions hold at the returned weights; the returned weights are the optimum of risk plus custom objective in the scaled weights. Missing: other custom
constraints, for which it is false (`C92_budget_constraint_violated`). -/
theorem C92_budget_partial (m : RiskBudgeting n T) (cs : List (Constraint ℝ n)) (con : List (WeightProp n)) (hcon : ∀ c ∈ con, IsCone c) (g : WeightExpr n) (w : Fin n → ℝ) (k c : ℝ) (hk : 0 < k)
    (a : (riskProgram m.base m.base.riskMeasure w (riskFactor m.base.riskMeasure k)).Aux) (h : CustomBudgetOptimum m cs con g w k c a) : ∀ p ∈ con, p (returnedWeights w k) :=
  fun p hp => cone_returned p (hcon p hp) w k hk (h.1.2 p hp)

/-- **C92.** `DistributionallyRobustCVaR`: the weights meet the limits and the custom constraints; the worst case of the disutility over the Wasserstein ball, plus the custom objective, is the optimal value `V`, and no
portfolio within the limits that meets the custom constraints has a smaller one. -/
theorem C92_robust (m : Robust n T) (hs : 0 < m.scale) (hso : 0 < m.scaleObjective) (hT : 0 < T) (hb0 : 0 ≤ m.cvarBeta) (hb : m.cvarBeta < 1) (hr : 0 ≤ m.riskAversion) (hret : ∀ i j, -1 ≤ m.returns i j)
    (cs : List (Constraint ℝ n)) (hcs : getWeightConstraints m.weights false true m.scale = .ok cs) (hm : isMip m.weights = false) (con : List (WeightProp n)) (g : WeightExpr n) (w : Fin n → ℝ) (p : RobustAux n T)
    (h : CustomRobustOptimum m cs con g w p) :
    RespectsLimits m.weights w ∧ (∀ c ∈ con, c w) ∧ ∃ V, IsLUB {y | ∃ P, InBall m.returns m.radius P ∧ y = disutility P m.cvarBeta m.riskAversion w + g w} V ∧
      ∀ w', RespectsLimits m.weights w' → (∀ c ∈ con, c w') → ∀ ε, 0 < ε → ∃ P, InBall m.returns m.radius P ∧ V - ε ≤ disutility P m.cvarBeta m.riskAversion w' + g w' := by
  obtain ⟨⟨hc, hf, hcw⟩, hopt⟩ := h
  have hlim : ∀ w', (∀ c ∈ cs, c w' 1) ↔ RespectsLimits m.weights w' := by
    intro w'
    have := C19_weight_limits m.weights false true m.scale 1 hs one_pos w' cs hcs hm
    simpa [Holds] using this
  have hother : ∀ w', RespectsLimits m.weights w' → (∀ c ∈ con, c w') → ∀ ε, 0 < ε → ∃ P, InBall m.returns m.radius P ∧ robustObjective m p / m.scaleObjective + g w - ε ≤ disutility P m.cvarBeta m.riskAversion w' + g w' := by
    intro w' hw' hc' ε hε
    obtain ⟨P, hP, hle⟩ := C62_approached m hs hso hT hb0 hb hr hret w' (robustObjective m p / m.scaleObjective + g w - g w') (fun p' hp' => by
      have := hopt w' p' ((hlim w').2 hw') hp' hc'
      rw [le_div_iff₀ hso, sub_mul, add_mul, div_mul_cancel₀ _ hso.ne']
      linarith) ε hε
    exact ⟨P, hP, by linarith⟩
  refine ⟨(hlim w).1 hc, hcw, robustObjective m p / m.scaleObjective + g w, ⟨?_, ?_⟩, hother⟩
  · rintro _ ⟨P, hP, rfl⟩
    have := C62_bound m hs hso hT hb0 hb hr hret w p hf P hP
    linarith
  · intro b hb'
    by_contra hlt
    push Not at hlt
    obtain ⟨P, hP, hle⟩ := hother w ((hlim w).1 hc) hcw ((robustObjective m p / m.scaleObjective + g w - b) / 2) (by linarith)
    have := hb' ⟨P, hP, rfl⟩
    linarith

end

/-! ### Findings -/

/-- The Python function `lambda w: w[0] <= x`. -/
def firstAtMost (x : ℝ) : PyCallable (OneOrMany (WeightProp 2)) := .function 1 0 false fun _ => some (.one fun w => w 0 ≤ x)

/-- The Python function `lambda w: w[0] >= x`. -/
def firstAtLeast (x : ℝ) : PyCallable (OneOrMany (WeightProp 2)) := .function 1 0 false fun _ => some (.one fun w => x ≤ w 0)

/-- **C92, finding.** When the ratio is maximised, a custom constraint is imposed on the scaled weights, not on the weights. Two uncorrelated assets with expected returns 2 % and 0, long-only and fully invested;
`add_constraints = lambda w: w[0] <= 0.5`. The optimum of the problem is `w = (1/2, 0)` with scale `1/2`: everything is invested in the first asset, although (1/2, 1/2) is within the limits and meets the constraint. -/
theorem C92_ratio_constraint_violated : ∃ (cs : List (Constraint ℝ 2)) (con : List (WeightProp 2)) (w : Fin 2 → ℝ) (k : ℝ) (a : (riskProgram (twoAssets (2 / 100) 0 longOnly) .standardDeviation w k).Aux),
    getWeightConstraints longOnly true true (1 : ℝ) = .ok cs ∧ getCustomConstraints (some (firstAtMost (1 / 2))) = .ok con ∧ CustomOptimum (twoAssets (2 / 100) 0 longOnly) cs con (fun _ => 0) w k a ∧ 0 < k ∧
    returnedWeights w k = ![1, 0] ∧ ¬ (∀ c ∈ con, c (returnedWeights w k)) ∧ RespectsLimits longOnly ![1 / 2, 1 / 2] ∧ ∀ c ∈ con, c ![1 / 2, 1 / 2] := by
  obtain ⟨cs, hcs⟩ := longOnly_ok
  have hret : returnedWeights ![(1 / 2 : ℝ), 0] (1 / 2) = ![1, 0] := by
    funext i
    fin_cases i <;> norm_num [returnedWeights]
  have hc : homogenizationFactor (twoAssets (2 / 100) 0 longOnly).data.mu = 1 / 100 := by
    rw [twoAssets_factor] <;> norm_num
  refine ⟨cs, [fun w => w 0 ≤ 1 / 2], ![1 / 2, 0], 1 / 2, (1 / 2 : ℝ), hcs, rfl, ⟨⟨⟨fun h => absurd rfl h, fun x hx => (by cases hx), fun x hx => (by cases hx), ?_,
    fun x hx => absurd hx (List.not_mem_nil), fun r x hx => (by cases hx), ?_, fun _ => ⟨fun _ => ?_, fun h => absurd (twoAssets_affine (2 / 100) 0 longOnly) h⟩⟩, ?_⟩, ?_⟩, by norm_num, hret, ?_, ?_, ?_⟩
  · refine (C19_weight_limits longOnly true true 1 (1 / 2) one_pos (by norm_num) _ cs hcs rfl).2 (longOnly_limits _ ?_ ?_ ?_) <;> norm_num
  · refine (twoAssets_std (2 / 100) 0 longOnly _ (1 / 2) _).2 ⟨by norm_num, Real.sqrt_le_iff.2 ⟨by norm_num, ?_⟩⟩
    norm_num
  · rw [hc, twoAssets_expected]
    norm_num [twoAssets]
  · simp
  · intro w' k' (v : ℝ) h
    have h1 := (h.1.ratio rfl).1 (twoAssets_affine (2 / 100) 0 longOnly)
    rw [hc, twoAssets_expected] at h1
    have h2 := (twoAssets_std (2 / 100) 0 longOnly _ k' _).1 h.1.aux
    have h3 : w' 0 ^ 2 + w' 1 ^ 2 ≤ v ^ 2 := (Real.sqrt_le_left h2.1).1 h2.2
    have h4 : (2 / 100 : ℝ) * w' 0 = 1 / 100 := by
      have : (twoAssets (2 / 100) 0 longOnly).data.riskFreeRate = 0 := rfl
      rw [this] at h1
      have : (twoAssets (2 / 100) 0 longOnly).scale = 1 := rfl
      rw [this] at h1
      linarith
    change (1 / 2 : ℝ) * 1 + (0 * _ + 0 * _) * 1 + 0 * 1 ≤ v * 1 + (0 * _ + 0 * _) * 1 + 0 * 1
    have : (1 / 2 : ℝ) ≤ v := by
      have : w' 0 = 1 / 2 := by linarith
      rw [this] at h3
      by_contra hlt
      nlinarith [sq_nonneg (w' 1), h2.1, not_le.1 hlt]
    linarith
  · rw [hret]
    norm_num
  · exact longOnly_limits _ (by norm_num) (by norm_num) (by norm_num)
  · simp

/-- Two uncorrelated assets of variance 1 with equal risk budgets. -/
noncomputable def equalBudgets : RiskBudgeting 2 2 := ⟨twoAssets 0 0 longOnly, none, none⟩

/-- **C92, finding.** In `RiskBudgeting`, too, a custom constraint is imposed on the scaled weights: with `add_constraints = lambda w: w[0] >= 0.9` the optimum is `w = (1, 1)` with scale 2, and the weight of the first
asset is 0.5. -/
theorem C92_budget_constraint_violated : ∃ (cs : List (Constraint ℝ 2)) (con : List (WeightProp 2)) (w : Fin 2 → ℝ) (k c : ℝ)
    (a : (riskProgram equalBudgets.base equalBudgets.base.riskMeasure w (riskFactor equalBudgets.base.riskMeasure k)).Aux),
    getWeightConstraints equalBudgets.base.weights true false equalBudgets.base.scale = .ok cs ∧ getCustomConstraints (some (firstAtLeast (9 / 10))) = .ok con ∧
    CustomBudgetOptimum equalBudgets cs con (fun _ => 0) w k c a ∧ returnedWeights w k = ![1 / 2, 1 / 2] ∧ ¬ ∀ c ∈ con, c (returnedWeights w k) := by
  obtain ⟨cs, hcs⟩ := longOnly_ok'
  have hret : returnedWeights (![1, 1] : Fin 2 → ℝ) 2 = ![1 / 2, 1 / 2] := by
    funext i
    fin_cases i <;> norm_num [returnedWeights]
  have hbud : riskBudget equalBudgets = fun _ => 1 := rfl
  refine ⟨cs, [fun w => 9 / 10 ≤ w 0], ![1, 1], 2, 0, (Real.sqrt 2 : ℝ), hcs, rfl, ⟨⟨⟨?_, ?_, le_refl _, ?_, fun y hy => (by cases hy), ?_⟩, ?_⟩, ?_⟩, hret, ?_⟩
  · intro i; fin_cases i <;> norm_num
  · rw [hbud, Fin.sum_univ_two]
    simp
  · refine (C19_weight_limits longOnly true false 1 2 one_pos (by norm_num) _ cs hcs rfl).2 (longOnly_limits _ ?_ ?_ ?_) <;> norm_num
  · refine (twoAssets_std 0 0 longOnly _ 1 _).2 ⟨Real.sqrt_nonneg _, Real.sqrt_le_sqrt ?_⟩
    norm_num
  · norm_num
  · intro w' k' c' (v : ℝ) hfe _
    have h2 := (twoAssets_std 0 0 longOnly _ 1 _).1 hfe.aux
    have hl : 0 ≤ ∑ i, riskBudget equalBudgets i * Real.log (w' i) := hfe.nonneg.trans (le_of_mul_le_mul_right hfe.budget one_pos)
    have p0 := hfe.positive 0
    have p1 := hfe.positive 1
    rw [hbud, Fin.sum_univ_two, one_mul, one_mul, ← Real.log_mul p0.ne' p1.ne'] at hl
    have hprod : 1 ≤ w' 0 * w' 1 := (Real.log_nonneg_iff (mul_pos p0 p1)).1 hl
    change Real.sqrt 2 * 1 + 0 * 1 ≤ v * 1 + 0 * 1
    have : Real.sqrt 2 ≤ v := (Real.sqrt_le_sqrt (by nlinarith [sq_nonneg (w' 0 - w' 1)])).trans h2.2
    linarith
  · rw [hret]
    norm_num

/-! #### Cases that meet the hypotheses -/

/-- A constraint on proportions: `lambda w: w[0] <= 2 * w[1]`. -/
example : IsCone (n := 2) fun w => w 0 ≤ 2 * w 1 := by
  intro l hl w h
  have := mul_le_mul_of_nonneg_left h hl.le
  linarith

/-- An objective of degree 1: `lambda w: cp.norm(w, 1)`. -/
example : IsHomogeneous (n := 2) 1 fun w => |w 0| + |w 1| := by
  intro l hl w
  change |l * w 0| + |l * w 1| = _
  rw [abs_mul, abs_mul, abs_of_pos hl]
  ring

/-- The optimum for `lambda w: w[0] <= w[1]`, expected returns 4 % and 3 %: equal weights instead of 4/7 and 3/7. -/
example : ∃ (cs : List (Constraint ℝ 2)) (w : Fin 2 → ℝ) (k : ℝ) (a : (riskProgram (twoAssets (4 / 100) (3 / 100) longOnly) .standardDeviation w k).Aux),
    getWeightConstraints longOnly true true (1 : ℝ) = .ok cs ∧ CustomOptimum (twoAssets (4 / 100) (3 / 100) longOnly) cs [fun w => w 0 ≤ w 1] (fun _ => 0) w k a ∧ 0 < k ∧ returnedWeights w k = ![1 / 2, 1 / 2] := by
  obtain ⟨cs, hcs⟩ := longOnly_ok
  have hc : homogenizationFactor (twoAssets (4 / 100) (3 / 100) longOnly).data.mu = 35 / 1000 := by
    rw [twoAssets_factor] <;> norm_num
  refine ⟨cs, ![1 / 2, 1 / 2], 1, (Real.sqrt (1 / 2) : ℝ), hcs, ⟨⟨⟨fun h => absurd rfl h, fun x hx => (by cases hx), fun x hx => (by cases hx), ?_,
    fun x hx => absurd hx (List.not_mem_nil), fun r x hx => (by cases hx), ?_, fun _ => ⟨fun _ => ?_, fun h => absurd (twoAssets_affine (4 / 100) (3 / 100) longOnly) h⟩⟩, ?_⟩, ?_⟩, by norm_num, returned_one _⟩
  · refine (C19_weight_limits longOnly true true 1 1 one_pos (by norm_num) _ cs hcs rfl).2 (longOnly_limits _ ?_ ?_ ?_) <;> norm_num
  · refine (twoAssets_std _ _ longOnly _ 1 _).2 ⟨Real.sqrt_nonneg _, Real.sqrt_le_sqrt ?_⟩
    norm_num
  · rw [hc, twoAssets_expected]
    norm_num [twoAssets]
  · simp
  · intro w' k' (v : ℝ) h
    have h1 := (h.1.ratio rfl).1 (twoAssets_affine (4 / 100) (3 / 100) longOnly)
    rw [hc, twoAssets_expected] at h1
    have h2 := (twoAssets_std _ _ longOnly _ k' _).1 h.1.aux
    have h5 : w' 0 ≤ w' 1 := h.2 _ (List.mem_singleton.2 rfl)
    have h4 : (4 / 100 : ℝ) * w' 0 + 3 / 100 * w' 1 = 35 / 1000 := by
      have : (twoAssets (4 / 100) (3 / 100) longOnly).data.riskFreeRate = 0 := rfl
      rw [this] at h1
      have : (twoAssets (4 / 100) (3 / 100) longOnly).scale = 1 := rfl
      rw [this] at h1
      linarith
    change Real.sqrt (1 / 2) * 1 + (0 * _ + 0 * _) * 1 + 0 * 1 ≤ v * 1 + (0 * _ + 0 * _) * 1 + 0 * 1
    have : Real.sqrt (1 / 2) ≤ v := (Real.sqrt_le_sqrt (by nlinarith [sq_nonneg (w' 0 - w' 1)])).trans h2.2
    linarith

/-- The least variance with `lambda w: w[0] <= 0.25` and the custom objective `lambda w: -w[0]`: the weights are 1/4 and 3/4. -/
noncomputable def leastRisk : MeanRisk 2 2 := { twoAssets 0 0 longOnly with objective := .minimizeRisk }

example : ∃ (cs : List (Constraint ℝ 2)) (con : List (WeightProp 2)) (w : Fin 2 → ℝ) (k : ℝ) (a : (riskProgram leastRisk .standardDeviation w k).Aux),
    getWeightConstraints leastRisk.weights (factorIsVariable leastRisk) true leastRisk.scale = .ok cs ∧ getCustomConstraints (some (firstAtMost (1 / 4))) = .ok con ∧ CustomOptimum leastRisk cs con (fun w => -w 0) w k a ∧
    returnedWeights w k = ![1 / 4, 3 / 4] ∧ BetasOk leastRisk := by
  obtain ⟨cs, hcs⟩ : ∃ cs, getWeightConstraints longOnly false true (1 : ℝ) = .ok cs := by
    unfold getWeightConstraints
    simp [longOnly, noLimits, isMip, simpleConstraints, minConstraint, longConstraint, shortConstraint, budgetConstraint, mipPart, bind, Except.bind, pure, Except.pure]
  have hlim : ∀ w : Fin 2 → ℝ, (∀ c ∈ cs, c w 1) → w 0 + w 1 = 1 := by
    intro w h
    have := ((C19_weight_limits longOnly false true 1 1 one_pos one_pos w cs hcs rfl).1 h).budget 1 rfl
    rw [Fin.sum_univ_two] at this
    simpa using this
  have hcs' : getWeightConstraints leastRisk.weights (factorIsVariable leastRisk) true leastRisk.scale = .ok cs := by
    rw [show factorIsVariable leastRisk = false from rfl]
    exact hcs
  refine ⟨cs, [fun w => w 0 ≤ 1 / 4], ![1 / 4, 3 / 4], 1, (Real.sqrt (10 / 16) : ℝ), hcs', rfl, ⟨⟨⟨fun h => rfl, fun x hx => (by cases hx), fun x hx => (by cases hx), ?_,
    fun x hx => absurd hx (List.not_mem_nil), fun r x hx => (by cases hx), ?_, fun h => (by cases h)⟩, ?_⟩, ?_⟩, returned_one _, ?_⟩
  · refine (C19_weight_limits longOnly false true 1 1 one_pos (by norm_num) _ cs hcs rfl).2 (longOnly_limits _ ?_ ?_ ?_) <;> norm_num
  · refine (twoAssets_std 0 0 longOnly _ 1 _).2 ⟨Real.sqrt_nonneg _, Real.sqrt_le_sqrt ?_⟩
    norm_num
  · simp
  · intro w' k' (v : ℝ) h
    have hk' : k' = 1 := h.1.factor (by decide)
    subst hk'
    have h2 := (twoAssets_std 0 0 longOnly _ 1 _).1 h.1.aux
    have h5 : w' 0 ≤ 1 / 4 := h.2 _ (List.mem_singleton.2 rfl)
    have h4 := hlim w' h.1.weight
    change Real.sqrt (10 / 16) * 1 + (0 * _ + 0 * _) * 1 + (-(1 / 4)) * 1 ≤ v * 1 + (0 * _ + 0 * _) * 1 + (-w' 0) * 1
    have : Real.sqrt (10 / 16) ≤ v := (Real.sqrt_le_sqrt (by nlinarith [sq_nonneg (w' 0 - w' 1)])).trans h2.2
    linarith
  · unfold BetasOk
    norm_num [leastRisk, twoAssets]

end Skfolio.Convex
