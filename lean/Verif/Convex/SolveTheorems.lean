import Verif.Convex.SolveModel
import Verif.Convex.FrontierExamples
import Verif.Uncertainty.CovTheorems

/-! **C69**: several parameter values give several portfolios. **C70**: the reported values are those of the returned portfolio. -/
set_option autoImplicit false

namespace Skfolio.Convex

open Skfolio.Measures

section
variable {S : Type}

/-- Specification: every array has `N` elements. -/
def AllOfLength (params : List ParamValue) (N : Nat) : Prop := ∀ xs, .array xs ∈ params → xs.length = N

/-- Specification: the `i`-th values of the parameters; a number counts for every `i`. -/
def entryAt (i : Nat) : ParamValue → ℝ
  | .scalar x => x
  | .array xs => xs.getD i 0

@[inherit_doc entryAt]
def rowAt (params : List ParamValue) (i : Nat) : List ℝ := params.map (entryAt i)

theorem mapM_row (params : List ParamValue) (N i : Nat) (h : AllOfLength params N) (hi : i < N) : params.mapM (valueAt i) = some (rowAt params i) := by
  induction params with
  | nil => rfl
  | cons p params ih =>
    have ih := ih fun xs hx => h xs (List.mem_cons_of_mem _ hx)
    have hp : valueAt i p = some (entryAt i p) := by
      cases p with
      | scalar x => rfl
      | array xs =>
        have := h xs List.mem_cons_self
        change xs[i]? = some (xs.getD i 0)
        rw [List.getD_eq_getElem?_getD, List.getElem?_eq_getElem (by omega)]
        rfl
    rw [List.mapM_cons, ih, hp]
    rfl

theorem sizes_mem (params : List ParamValue) (s : Nat) : s ∈ sizesOf params ↔ ∃ xs, .array xs ∈ params ∧ xs.length = s := by
  unfold sizesOf
  rw [List.mem_filterMap]
  constructor
  · rintro ⟨p, hp, h⟩
    cases p with
    | scalar x => cases h
    | array xs => exact ⟨xs, hp, Option.some.inj h⟩
  · rintro ⟨xs, hx, rfl⟩
    exact ⟨_, hx, rfl⟩

theorem loop_ok (solve : Nat → List ℝ → Option S) (raise : Bool) (params : List ParamValue) (N : Nat) (h : AllOfLength params N) (hr : raise = true → ∀ j < N, (solve j (rowAt params j)).isSome) (i left : Nat) (hl : i + left ≤ N) :
    solveLoop solve raise params i left = .ok ((List.range' i left).filterMap fun j => solve j (rowAt params j)) := by
  induction left generalizing i with
  | zero => rfl
  | succ left ih =>
    rw [solveLoop, mapM_row params N i h (by omega), List.range'_succ]
    simp only [List.filterMap_cons]
    rw [ih (i + 1) (by omega)]
    cases hs : solve i (rowAt params i) with
    | some s => rfl
    | none =>
      cases raise with
      | false => rfl
      | true =>
        have := hr rfl i (by omega)
        rw [hs] at this
        cases this

theorem loop_raise (solve : Nat → List ℝ → Option S) (params : List ParamValue) (N : Nat) (h : AllOfLength params N) (i left : Nat) (hl : i + left ≤ N) (j : Nat) (hj1 : i ≤ j) (hj2 : j < i + left)
    (hn : solve j (rowAt params j) = none) : solveLoop solve true params i left = .error .solver := by
  induction left generalizing i with
  | zero => omega
  | succ left ih =>
    rw [solveLoop, mapM_row params N i h (by omega)]
    simp only
    by_cases hij : i = j
    · subst hij
      rw [hn]
      rfl
    · cases hs : solve i (rowAt params i) with
      | none => rfl
      | some s =>
        rw [ih (i + 1) (by omega) (by omega) (by omega)]
        rfl

theorem solve_cases (solve : Nat → List ℝ → Option S) (raise : Bool) (params : List ParamValue) (N : Nat) (hN : 0 < N) (h : AllOfLength params N) (hne : ∃ xs, .array xs ∈ params) :
    (sizesOf params).all (· != 0) = true ∧ (sizesOf params).headD 1 = N := by
  have hall : ∀ s ∈ sizesOf params, s = N := by
    intro s hs
    obtain ⟨xs, hx, rfl⟩ := (sizes_mem params s).1 hs
    exact h xs hx
  constructor
  · rw [List.all_eq_true]
    intro s hs
    rw [hall s hs]
    simp
    omega
  · obtain ⟨xs, hx⟩ := hne
    have hmem := (sizes_mem params _).2 ⟨xs, hx, rfl⟩
    cases hs : sizesOf params with
    | nil =>
      rw [hs] at hmem
      cases hmem
    | cons a l =>
      rw [hs] at hall
      exact hall a List.mem_cons_self

/-- **C69.** When all lists have the same length `N` and every problem is solved, there are `N` portfolios, and the `i`-th is the solution for the `i`-th elements. -/
theorem C69_aligned (solve : Nat → List ℝ → Option S) (raise : Bool) (params : List ParamValue) (N : Nat) (hN : 2 ≤ N) (h : AllOfLength params N) (hne : ∃ xs, .array xs ∈ params) (sol : Nat → S)
    (hsol : ∀ i < N, solve i (rowAt params i) = some (sol i)) :
    solveProblem solve raise params = .ok (.many ((List.range N).map sol)) := by
  obtain ⟨h1, h2⟩ := solve_cases solve raise params N (by omega) h hne
  have hl := loop_ok solve raise params N h (fun _ j hj => by rw [hsol j hj]; rfl) 0 N (by omega)
  have he : (List.range' 0 N).filterMap (fun j => solve j (rowAt params j)) = (List.range N).map sol := by
    rw [← List.range_eq_range', ← List.filterMap_eq_map']
    refine List.filterMap_congr fun j hj => ?_
    exact hsol j (List.mem_range.1 hj)
  rw [he] at hl
  unfold solveProblem
  simp only [h1, h2, hl]
  rw [if_neg (by simp), if_neg (by omega)]

/-- **C69.** Numbers only (or lists of one element) give one portfolio. -/
theorem C69_single (solve : Nat → List ℝ → Option S) (raise : Bool) (params : List ParamValue) (h : AllOfLength params 1) (s : S) (hs : solve 0 (rowAt params 0) = some s) :
    solveProblem solve raise params = .ok (.single s) := by
  have hl := loop_ok solve raise params 1 h (fun _ j hj => by rw [show j = 0 by omega, hs]; rfl) 0 1 (by omega)
  have hall : (sizesOf params).all (· != 0) = true := by
    rw [List.all_eq_true]
    intro s hs
    obtain ⟨xs, hx, rfl⟩ := (sizes_mem params s).1 hs
    rw [h xs hx]
    rfl
  have hhead : (sizesOf params).headD 1 = 1 := by
    cases hs' : sizesOf params with
    | nil => rfl
    | cons a l =>
      obtain ⟨xs, hx, hlen⟩ := (sizes_mem params a).1 (by rw [hs']; exact List.mem_cons_self)
      rw [h xs hx] at hlen
      exact hlen.symm
  unfold solveProblem
  simp only [hall, hhead, hl]
  simp [List.range', hs]

/-- **C69.** With `raise_on_failure=True` a failure of any of the problems raises `SolverError`: no partial result is returned. -/
theorem C69_failure_raises (solve : Nat → List ℝ → Option S) (params : List ParamValue) (N : Nat) (hN : 0 < N) (h : AllOfLength params N) (hne : ∃ xs, .array xs ∈ params) (i : Nat) (hi : i < N)
    (hfail : solve i (rowAt params i) = none) : solveProblem solve true params = .error .solver := by
  obtain ⟨h1, h2⟩ := solve_cases solve true params N hN h hne
  have hl := loop_raise solve params N h 0 N (by omega) i (by omega) (by omega) hfail
  unfold solveProblem
  simp only [h1, h2, hl]
  rw [if_neg (by simp)]

/-- **C69.** With `raise_on_failure=False` the solutions found are returned in order, without a trace of the failed ones: the positions of the parameters are lost. A single failed problem
(a list of one element, or numbers only) is an `IndexError`. -/
theorem C69_failure_drops (solve : Nat → List ℝ → Option S) (params : List ParamValue) (N : Nat) (h : AllOfLength params N) :
    (2 ≤ N → (∃ xs, .array xs ∈ params) → solveProblem solve false params = .ok (.many ((List.range N).filterMap fun j => solve j (rowAt params j)))) ∧
    (N = 1 → solve 0 (rowAt params 0) = none → solveProblem solve false params = .error .index) := by
  have hl := loop_ok solve false params N h (fun h => by cases h) 0 N (by omega)
  constructor
  · intro hN hne
    obtain ⟨h1, h2⟩ := solve_cases solve false params N (by omega) h hne
    rw [← List.range_eq_range'] at hl
    unfold solveProblem
    simp only [h1, h2, hl]
    rw [if_neg (by simp), if_neg (by omega)]
  · rintro rfl hn
    have hall : (sizesOf params).all (· != 0) = true := by
      rw [List.all_eq_true]
      intro s hs
      obtain ⟨xs, hx, rfl⟩ := (sizes_mem params s).1 hs
      rw [h xs hx]
      rfl
    have hhead : (sizesOf params).headD 1 = 1 := by
      cases hs' : sizesOf params with
      | nil => rfl
      | cons a l =>
        obtain ⟨xs, hx, hlen⟩ := (sizes_mem params a).1 (by rw [hs']; exact List.mem_cons_self)
        rw [h xs hx] at hlen
        exact hlen.symm
    unfold solveProblem
    simp only [hall, hhead, hl]
    simp [List.range', hn]

/-- **C69** (partial: the comment in the code says "each list must have same length"). The `ValueError` "All list elements from `parameters_values` should have same length" is raised exactly when a list is
empty, whatever the lengths are. -/
theorem C69_length_check_partial (solve : Nat → List ℝ → Option S) (raise : Bool) (params : List ParamValue) :
    solveProblem solve raise params = .error .lengths ↔ .array [] ∈ params := by
  have hloop : ∀ i left, solveLoop solve raise params i left ≠ .error .lengths := by
    intro i left
    induction left generalizing i with
    | zero => simp [solveLoop]
    | succ left ih =>
      rw [solveLoop]
      cases params.mapM (valueAt i) with
      | none => simp
      | some v =>
        simp only
        cases solve i v with
        | none =>
          simp only
          split_ifs
          · simp
          · exact ih _
        | some s =>
          simp only
          intro h
          cases hl : solveLoop solve raise params (i + 1) left with
          | error e =>
            rw [hl] at h
            cases h
            exact ih _ hl
          | ok l =>
            rw [hl] at h
            cases h
  have hempty : (sizesOf params).all (· != 0) = false ↔ .array [] ∈ params := by
    rw [Bool.eq_false_iff, ne_eq, List.all_eq_true]
    constructor
    · intro h
      push Not at h
      obtain ⟨s, hs, h0⟩ := h
      obtain ⟨xs, hx, rfl⟩ := (sizes_mem params s).1 hs
      have : xs = [] := by
        have : xs.length = 0 := by simpa using h0
        exact List.eq_nil_of_length_eq_zero this
      rwa [← this]
    · intro h hall
      have := hall 0 ((sizes_mem params 0).2 ⟨[], h, rfl⟩)
      simp at this
  rw [← hempty]
  constructor
  · intro h
    by_contra hcon
    rw [Bool.not_eq_false] at hcon
    unfold solveProblem at h
    simp only [hcon] at h
    rw [if_neg (by simp)] at h
    cases hl : solveLoop solve raise params 0 ((sizesOf params).headD 1) with
    | error e =>
      rw [hl] at h
      simp only [Except.error.injEq] at h
      subst h
      exact hloop _ _ hl
    | ok l =>
      rw [hl] at h
      simp only at h
      split_ifs at h
      cases l with
      | nil => cases h
      | cons a l => cases h
  · intro h
    unfold solveProblem
    simp only [h]
    rfl

/-- **C69** (finding). Lists of different lengths: a longer second list is cut without a message; a shorter one is an `IndexError`. -/
theorem C69_lengths (solve : Nat → List ℝ → Option S) (sol : Nat → S) (hsol : ∀ i l, solve i l = some (sol i)) (raise : Bool) (a b c d e : ℝ) :
    solveProblem solve raise [.array [a, b], .array [c, d, e]] = .ok (.many [sol 0, sol 1]) ∧ solveProblem solve raise [.array [c, d, e], .array [a, b]] = .error .index := by
  constructor
  · simp [solveProblem, sizesOf, solveLoop, valueAt, hsol, List.mapM_cons, Except.map]
  · simp [solveProblem, sizesOf, solveLoop, valueAt, hsol, List.mapM_cons, Except.map]

/-- Two minimum returns and a number: all hypotheses hold, and the second portfolio is that of the second return. -/
example : solveProblem (fun _ v => some v) true [.array [1, 2], .scalar 5] = .ok (.many [[1, 5], [2, 5]]) :=
  C69_aligned (fun _ v => some v) true [.array [1, 2], .scalar 5] 2 le_rfl (by rintro xs (_ | ⟨_, _ | ⟨_, h⟩⟩); rfl; cases h) ⟨_, List.mem_cons_self⟩ (rowAt [.array [1, 2], .scalar 5]) fun _ _ => rfl

/-- The first of three problems fails: the first portfolio returned is that of the second parameter. -/
example : solveProblem (fun i v => if i = 0 then none else some v) false [.array [1, 2, 3]] = .ok (.many [[2], [3]]) := by
  simp [solveProblem, sizesOf, solveLoop, valueAt, List.mapM_cons, Except.map]

end

/-! ### Reported values -/

section
variable {n T : Nat}

/-- **C70.** `problem_values_["expected_return"]` is the expected return of the returned weights. -/
theorem C70_return (m : MeanRisk n T) (w : Fin n → ℝ) (k : ℝ) (hk : 0 < k) : reportedReturn m w k = netExpectedReturn m (returnedWeights w k) := by
  rw [reportedReturn, expected_returned m w k hk, mul_div_cancel_left₀ _ hk.ne']

section
variable (P : Partition ℝ) (m : MeanRisk n T) (hs : 0 < m.scale) (hso : 0 < m.scaleObjective) (hT : 2 ≤ T) (hb : BetasOk m) (cs : List (Constraint ℝ n)) (R : (Fin n → ℝ) → ℝ) (hR : IsRiskOf P m m.riskMeasure R)
include hs hso hT hb hR

/-- **C70.** `problem_values_["risk"]` is the risk of the returned weights, for every objective in which the risk counts. -/
theorem C70_risk (ho : m.objective = .minimizeRisk ∨ m.objective = .maximizeRatio ∨ m.objective = .maximizeUtility ∧ 0 < m.riskAversion) (w : Fin n → ℝ) (k : ℝ) (hk : 0 < k)
    (a : (riskProgram m m.riskMeasure w k).Aux) (h : IsOptimum m cs w k a) : reportedRisk m.riskMeasure ((riskProgram m m.riskMeasure w k).risk a) k = R (returnedWeights w k) := by
  have hmin : ∀ a', (riskProgram m m.riskMeasure w k).feasible a' → (riskProgram m m.riskMeasure w k).risk a ≤ (riskProgram m m.riskMeasure w k).risk a' := by
    intro a' ha'
    have := h.2 w k a' ⟨h.1.factor, h.1.tracking, h.1.turnover, h.1.weight, h.1.return', h.1.risks, ha', h.1.ratio⟩
    unfold objectiveValue at this
    rcases ho with ho | ho | ⟨ho, hra⟩
    · simp only [ho] at this
      rwa [add_le_add_iff_right, mul_le_mul_iff_left₀ hso] at this
    · simp only [ho] at this
      rwa [add_le_add_iff_right, mul_le_mul_iff_left₀ hso] at this
    · simp only [ho] at this
      rw [neg_le_neg_iff, sub_le_sub_iff_right, sub_le_sub_iff_left, mul_le_mul_iff_left₀ hso, mul_le_mul_iff_right₀ hra] at this
      exact this
  have hpow : 0 < k ^ degree m.riskMeasure := pow_pos hk _
  have hrep : reportedRisk m.riskMeasure ((riskProgram m m.riskMeasure w k).risk a) k = (riskProgram m m.riskMeasure w k).risk a / k ^ degree m.riskMeasure := by
    have : ∀ r (x : ℝ), reportedRisk r x k = x / k ^ degree r := by
      intro r x
      unfold reportedRisk degree
      cases r <;> simp [pow_two, div_div]
    exact this _ _
  rw [hrep]
  have ek : ∀ b, (riskProgram m m.riskMeasure (returnedWeights w k) 1).feasible b → ∃ a' : (riskProgram m m.riskMeasure w k).Aux, (riskProgram m m.riskMeasure w k).feasible a' ∧
      (riskProgram m m.riskMeasure w k).risk a' = k ^ degree m.riskMeasure * (riskProgram m m.riskMeasure (returnedWeights w k) 1).risk b := by
    intro b hb'
    have := program_scaled m m.riskMeasure (returnedWeights w k) 1 k hk b hb'
    rwa [scaled_returned w k hk, mul_one] at this
  have ek' : ∃ b, (riskProgram m m.riskMeasure (returnedWeights w k) 1).feasible b ∧ (riskProgram m m.riskMeasure (returnedWeights w k) 1).risk b = (riskProgram m m.riskMeasure w k).risk a / k ^ degree m.riskMeasure := by
    obtain ⟨b, hb1, hb2⟩ := program_scaled m m.riskMeasure w k k⁻¹ (inv_pos.2 hk) a h.1.aux
    have : ∃ b, (riskProgram m m.riskMeasure (scaled k⁻¹ w) (k⁻¹ * k)).feasible b ∧ (riskProgram m m.riskMeasure (scaled k⁻¹ w) (k⁻¹ * k)).risk b = k⁻¹ ^ degree m.riskMeasure * (riskProgram m m.riskMeasure w k).risk a := ⟨b, hb1, hb2⟩
    have e : scaled k⁻¹ w = returnedWeights w k := by
      funext i
      simp only [scaled, returnedWeights]
      field_simp
    rw [e, inv_mul_cancel₀ hk.ne'] at this
    obtain ⟨b, hb1, hb2⟩ := this
    refine ⟨b, hb1, ?_⟩
    rw [hb2, inv_pow]
    field_simp
  obtain ⟨b, hb1, hb2⟩ := ek'
  refine le_antisymm ((risk_glb P m hs hT hb _ R hR _).2 _ fun b' hb' => ?_) ?_
  · obtain ⟨a', ha', he⟩ := ek b' hb'
    have := hmin a' ha'
    rw [he] at this
    rwa [div_le_iff₀ hpow, mul_comm]
  · rw [← hb2]
    exact (risk_glb P m hs hT hb _ R hR _).1 b hb1

/-- **C70.** `problem_values_["objective"]` is the objective at the returned weights, when the ratio is not maximised. -/
theorem C70_objective (w : Fin n → ℝ) (k : ℝ) (a : (riskProgram m m.riskMeasure w k).Aux) (h : IsOptimum m cs w k a) :
    (m.objective = .minimizeRisk → reportedObjective m w k a = R (returnedWeights w k) + penalty m (returnedWeights w k)) ∧
    (m.objective = .maximizeReturn → reportedObjective m w k a = netExpectedReturn m (returnedWeights w k) - penalty m (returnedWeights w k)) ∧
    (m.objective = .maximizeUtility → 0 < m.riskAversion →
      reportedObjective m w k a = netExpectedReturn m (returnedWeights w k) - m.riskAversion * R (returnedWeights w k) - penalty m (returnedWeights w k)) := by
  have e1 : ∀ r (x : ℝ), reportedRisk r x 1 = x := by
    intro r x
    unfold reportedRisk
    split_ifs <;> simp
  have hne := hso.ne'
  refine ⟨fun ho => ?_, fun ho => ?_, fun ho hra => ?_⟩
  · have hk : k = 1 := h.1.factor (by rw [ho]; decide)
    subst hk
    have hrisk := C70_risk P m hs hso hT hb cs R hR (Or.inl ho) w 1 one_pos a h
    rw [e1, returned_one] at hrisk
    unfold reportedObjective objectiveValue
    simp only [ho]
    rw [returned_one, hrisk, penalty_eq]
    field_simp
  · have hk : k = 1 := h.1.factor (by rw [ho]; decide)
    subst hk
    unfold reportedObjective objectiveValue
    simp only [ho]
    rw [returned_one, penalty_eq, expected_one]
    field_simp
  · have hk : k = 1 := h.1.factor (by rw [ho]; decide)
    subst hk
    have hrisk := C70_risk P m hs hso hT hb cs R hR (Or.inr (Or.inr ⟨ho, hra⟩)) w 1 one_pos a h
    rw [e1, returned_one] at hrisk
    unfold reportedObjective objectiveValue
    simp only [ho]
    rw [returned_one, hrisk, penalty_eq, expected_one]
    field_simp

end

/-- **C70** (finding). When the return is maximised, the variables of the risk are free: every optimum with a larger reported risk is an optimum as well. Two assets, all invested in the first, whose standard
deviation is 1: any number from 1 on may be reported. -/
theorem C70_max_return_risk (x y : ℝ) (hxy : y ≤ x) : ∃ cs, getWeightConstraints longOnly false true (1 : ℝ) = .ok cs ∧ IsRiskOf (sortPartition ℝ) (frontierAssets x y) .standardDeviation (fun w => Real.sqrt (w 0 ^ 2 + w 1 ^ 2)) ∧
    ∀ v : ℝ, 1 ≤ v → IsOptimum { frontierAssets x y with objective := .maximizeReturn } cs ![1, 0] 1 v ∧ reportedRisk .standardDeviation ((riskProgram (frontierAssets x y) .standardDeviation ![1, 0] 1).risk v) 1 = v := by
  obtain ⟨cs, hcs⟩ := frontier_ok
  refine ⟨cs, hcs, fun w z => ?_, fun v hv => ⟨⟨?_, ?_⟩, ?_⟩⟩
  · have e : ∑ i, ∑ j, w i * covarianceOf (frontierAssets x y) i j * w j = w 0 ^ 2 + w 1 ^ 2 := by
      simp [Fin.sum_univ_two, covarianceOf, frontierAssets, twoAssets]
      ring
    change Real.sqrt (∑ i, ∑ j, w i * covarianceOf (frontierAssets x y) i j * w j) ≤ z ↔ _
    rw [e]
  · refine (frontier_feasible x y .maximizeReturn (by decide) [] cs hcs _ _ _).2 ⟨rfl, by norm_num, by norm_num, by norm_num, by simp, by linarith, ?_⟩
    norm_num
    exact hv
  · intro w' k' (v' : ℝ) h
    exact (frontier_max x y hxy cs hcs).2 w' k' v' h
  · change reportedRisk .standardDeviation v 1 = v
    simp [reportedRisk]

/-- **C70** (finding). The reported regularization is not the penalty of the returned weights when the ratio is maximised: its quadratic part is multiplied by the scale. -/
theorem C70_regularization (m : MeanRisk n T) (w : Fin n → ℝ) (k : ℝ) (hk : 0 < k) :
    reportedRegularization m w k = m.l1Coef * (∑ i, |returnedWeights w k i|) + k * (m.l2Coef * ∑ i, returnedWeights w k i ^ 2) := by
  have e1 : ∑ i, |returnedWeights w k i| = (∑ i, |w i|) / k := by
    rw [Finset.sum_div]
    refine Finset.sum_congr rfl fun i _ => ?_
    rw [returnedWeights, abs_div, abs_of_pos hk]
  have e2 : ∑ i, returnedWeights w k i ^ 2 = (∑ i, w i ^ 2) / k ^ 2 := by
    rw [Finset.sum_div]
    refine Finset.sum_congr rfl fun i _ => ?_
    rw [returnedWeights, div_pow]
  rw [e1, e2, reportedRegularization, regularization]
  field_simp

/-- **C70** (finding). With a covariance uncertainty set the worst-case variance of the scaled problem is of degree one, but the reported risk is divided twice by the scale: what is reported is the worst-case
variance of the returned weights divided by the scale. -/
theorem C70_worst_case_variance (cov : Skfolio.Uncertainty.Mat n) (hcov : ∀ x, x ≠ 0 → 0 < Skfolio.Uncertainty.varianceUnder cov x) (kappa : ℝ) (hkappa : 0 ≤ kappa) (S : Matrix (Fin (n * n)) (Fin (n * n)) ℝ) (hS : S.transpose = S)
    (w : Fin n → ℝ) (k s : ℝ) (hk : 0 < k) (hs : 0 < s) (v V : ℝ) (hv : IsOptimalValue (Skfolio.Uncertainty.worstCaseVarianceRisk cov kappa S w k s) v)
    (hV : IsLUB {y | ∃ C, Skfolio.Uncertainty.PlausibleCov cov kappa S C ∧ y = Skfolio.Uncertainty.varianceUnder C (returnedWeights w k)} V) : reportedRisk .variance v k = V / k := by
  have h1 := (Skfolio.Uncertainty.C64_worst_case cov hcov kappa hkappa S hS w k s hk hs v).1 hv
  have h2 : IsLUB {y | ∃ C, Skfolio.Uncertainty.PlausibleCov cov kappa S C ∧ y = k * Skfolio.Uncertainty.varianceUnder C fun i => w i / k} (k * V) := by
    constructor
    · rintro _ ⟨C, hC, rfl⟩
      exact mul_le_mul_of_nonneg_left (hV.1 ⟨C, hC, rfl⟩) hk.le
    · intro b hb
      have : V ≤ b / k := hV.2 fun y ⟨C, hC, he⟩ => by
        rw [he, le_div_iff₀ hk, mul_comm]
        exact hb ⟨C, hC, rfl⟩
      rwa [le_div_iff₀ hk, mul_comm] at this
  rw [h1.unique h2]
  simp only [reportedRisk, true_or, if_true]
  field_simp

end

end Skfolio.Convex
