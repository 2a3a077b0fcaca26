import Verif.Convex.RatioTheorems

/-! C18 and C19: a concrete optimum that meets the hypotheses, and concrete optima at which the claims fail. -/
set_option autoImplicit false

namespace Skfolio.Convex

open Skfolio.Measures

section

/-- No limits. -/
def noLimits : Params ℝ 2 :=
  { minWeights := none, maxWeights := none, maxLong := none, maxShort := none, minBudget := none, maxBudget := none, budget := some 1, cardinality := none,
    groupCardinalities := none, thresholdLong := none, thresholdShort := none, eqRows := [], ineqRows := [], inequality := none, mixedIntegerSolver := false }

/-- Two assets with uncorrelated returns of variance 1 and expected returns `x`, `y`; the ratio to the standard deviation is maximised. -/
noncomputable def twoAssets (x y : ℝ) (p : Params ℝ 2) : MeanRisk 2 2 :=
  { data := { returns := fun t i => if i = 0 then (if t = 0 then 3 / 100 else 4 / 100) else 0, mu := fun i => if i = 0 then x else y,
              previousWeights := fun _ => 0, transactionCosts := fun _ => 0, managementFees := fun _ => 0, riskFreeRate := 0 },
    cholesky := fun i j => if i = j then 1 else 0, weights := p, objective := .maximizeRatio, riskMeasure := .standardDeviation, minAcceptableReturn := .default,
    cvarBeta := 95 / 100, evarBeta := 95 / 100, cdarBeta := 95 / 100, edarBeta := 95 / 100, riskAversion := 1, l1Coef := 0, l2Coef := 0, maxTrackingError := none,
    benchmark := fun _ => 0, maxTurnover := none, minReturns := [], riskLimits := fun _ => none, uncertainty := none, scale := 1, scaleObjective := 1 }

theorem twoAssets_factor (x y : ℝ) (h1 : 1 / 1000 ≤ (|x| + |y|) / 2) (h2 : (|x| + |y|) / 2 ≤ 1000) (p : Params ℝ 2) :
    homogenizationFactor (twoAssets x y p).data.mu = (|x| + |y|) / 2 := by
  have : (∑ i, |(twoAssets x y p).data.mu i|) / ((2 : Nat) : ℝ) = (|x| + |y|) / 2 := by
    simp [twoAssets, Fin.sum_univ_two]
  unfold homogenizationFactor
  rw [this, max_eq_right h1, min_eq_right h2]

theorem twoAssets_expected (x y : ℝ) (p : Params ℝ 2) (w : Fin 2 → ℝ) (k : ℝ) : expectedReturn (twoAssets x y p) w k = x * w 0 + y * w 1 := by
  simp [expectedReturn, returnVector, twoAssets, transactionCost, managementFee, muUncertainty, Fin.sum_univ_two]

theorem twoAssets_affine (x y : ℝ) (p : Params ℝ 2) : isAffine (twoAssets x y p) := ⟨fun _ => rfl, rfl⟩

theorem twoAssets_std (x y : ℝ) (p : Params ℝ 2) (w : Fin 2 → ℝ) (k v : ℝ) :
    (riskProgram (twoAssets x y p) .standardDeviation w k).feasible v ↔ 0 ≤ v ∧ Real.sqrt (w 0 ^ 2 + w 1 ^ 2) ≤ v := by
  change (0 ≤ v ∧ Real.sqrt (∑ j, ((∑ i, (twoAssets x y p).cholesky i j * w i) * 1) ^ 2) ≤ v * 1) ↔ _
  simp [twoAssets, Fin.sum_univ_two]

/-! #### A case that meets the hypotheses of C18: long-only, fully invested -/

def longOnly : Params ℝ 2 := { noLimits with minWeights := some fun _ => 0, maxWeights := some fun _ => 1 }

/-- The constraints of `longOnly`. -/
theorem longOnly_ok : ∃ cs, getWeightConstraints longOnly true true (1 : ℝ) = .ok cs := by
  unfold getWeightConstraints
  simp [longOnly, noLimits, isMip, simpleConstraints, minConstraint, longConstraint, shortConstraint, budgetConstraint, mipPart, bind, Except.bind, pure, Except.pure]

theorem longOnly_limits (w : Fin 2 → ℝ) (h0 : 0 ≤ w 0) (h1 : 0 ≤ w 1) (hs : w 0 + w 1 = 1) : RespectsLimits longOnly w where
  atLeast := by
    rintro m ⟨⟩ i
    fin_cases i <;> assumption
  atMost := by
    rintro m ⟨⟩ i
    fin_cases i
    · change w 0 ≤ 1
      linarith
    · change w 1 ≤ 1
      linarith
  long := by rintro m ⟨⟩
  short := by rintro m ⟨⟩
  minBudget := by rintro m ⟨⟩
  maxBudget := by rintro m ⟨⟩
  budget := by
    rintro m ⟨⟩
    rw [Fin.sum_univ_two, hs]
  equations := by intro row h; exact absurd h (List.not_mem_nil)
  inequalities := by intro row h; exact absurd h (List.not_mem_nil)
  matrix := by rintro m ⟨⟩

/-- Expected returns 4% and 3%: the optimum is `w = (0.56, 0.42)`, `k = 0.98`, risk 0.7; the returned weights are 4/7 and 3/7. All hypotheses of `C18_ratio_division` hold. -/
theorem longOnly_optimum (cs : List (Constraint ℝ 2)) (hcs : getWeightConstraints longOnly true true (1 : ℝ) = .ok cs) :
    IsOptimum (twoAssets (4 / 100) (3 / 100) longOnly) cs ![56 / 100, 42 / 100] (98 / 100) (7 / 10 : ℝ) := by
  have hc : homogenizationFactor (twoAssets (4 / 100) (3 / 100) longOnly).data.mu = 35 / 1000 := by
    rw [twoAssets_factor] <;> norm_num
  refine ⟨⟨fun h => absurd rfl h, fun x hx => (by cases hx), fun x hx => (by cases hx), ?_, fun x hx => absurd hx (List.not_mem_nil), fun r x hx => (by cases hx), ?_,
    fun _ => ⟨fun _ => ?_, fun h => absurd (twoAssets_affine _ _ _) h⟩⟩, ?_⟩
  · refine (C19_weight_limits longOnly true true 1 (98 / 100) one_pos (by norm_num) _ cs hcs rfl).2 (longOnly_limits _ ?_ ?_ ?_)
    · norm_num
    · norm_num
    · norm_num
  · refine (twoAssets_std _ _ _ _ _ _).2 ⟨by norm_num, Real.sqrt_le_iff.2 ⟨by norm_num, ?_⟩⟩
    norm_num
  · rw [hc, twoAssets_expected]
    norm_num [twoAssets]
  · intro w' k' (v : ℝ) h
    have h1 := (h.ratio rfl).1 (twoAssets_affine _ _ _)
    rw [hc, twoAssets_expected] at h1
    have h2 := (twoAssets_std _ _ _ _ _ _).1 h.aux
    have h3 : w' 0 ^ 2 + w' 1 ^ 2 ≤ v ^ 2 := (Real.sqrt_le_left h2.1).1 h2.2
    have h4 : (4 / 100 : ℝ) * w' 0 + 3 / 100 * w' 1 = 35 / 1000 := by
      have : (twoAssets (4 / 100) (3 / 100) longOnly).data.riskFreeRate = 0 := rfl
      rw [this] at h1
      have : (twoAssets (4 / 100) (3 / 100) longOnly).scale = 1 := rfl
      rw [this] at h1
      linarith
    change (7 / 10 : ℝ) * 1 + (0 * _ + 0 * _) * 1 ≤ v * 1 + (0 * _ + 0 * _) * 1
    have : (7 / 10 : ℝ) ≤ v := by
      by_contra hlt
      nlinarith [sq_nonneg (3 * w' 0 - 4 * w' 1), h2.1, not_le.1 hlt]
    linarith

example : ∃ (m : MeanRisk 2 2) (cs : List (Constraint ℝ 2)) (w : Fin 2 → ℝ) (k : ℝ) (a : (riskProgram m m.riskMeasure w k).Aux) (rho : ℝ),
    0 < m.scale ∧ 0 < m.scaleObjective ∧ m.objective = .maximizeRatio ∧ getWeightConstraints m.weights (factorIsVariable m) true m.scale = .ok cs ∧
    isMip m.weights = false ∧ 0 < k ∧ IsOptimum m cs w k a ∧ IsOptimalValue (riskProgram m m.riskMeasure (returnedWeights w k) 1) rho ∧ 0 < rho ∧
    ∃ w' : Fin 2 → ℝ, w' ≠ returnedWeights w k ∧ Allowed m w' ∧ 0 < excessReturn m w' := by
  obtain ⟨cs, hcs⟩ := longOnly_ok
  refine ⟨twoAssets (4 / 100) (3 / 100) longOnly, cs, ![56 / 100, 42 / 100], 98 / 100, (7 / 10 : ℝ), 5 / 7, one_pos, one_pos, rfl, hcs, rfl, by norm_num,
    longOnly_optimum cs hcs, ?_, by norm_num, ![1 / 2, 1 / 2], ?_, ?_, ?_⟩
  · constructor
    · refine ⟨(5 / 7 : ℝ), (twoAssets_std _ _ _ _ _ _).2 ⟨by norm_num, Real.sqrt_le_iff.2 ⟨by norm_num, ?_⟩⟩, rfl⟩
      norm_num [returnedWeights]
    · intro (v : ℝ) hv
      have h2 := (twoAssets_std _ _ _ _ _ _).1 hv
      have h3 := (Real.sqrt_le_left h2.1).1 h2.2
      have e : returnedWeights ![(56 / 100 : ℝ), 42 / 100] (98 / 100) 0 ^ 2 + returnedWeights ![(56 / 100 : ℝ), 42 / 100] (98 / 100) 1 ^ 2 = (5 / 7) ^ 2 := by
        norm_num [returnedWeights]
      rw [e] at h3
      exact (pow_le_pow_iff_left₀ (by norm_num) h2.1 (by norm_num)).1 h3
  · intro h
    have := congrFun h 0
    norm_num [returnedWeights] at this
  · exact ⟨longOnly_limits _ (by norm_num) (by norm_num) (by norm_num),
      ⟨fun c hc => (by cases hc), fun c hc => (by cases hc), fun c hc => (by cases hc), fun c hc => (by cases hc)⟩,
      ⟨fun c hc => (by cases hc), fun c hc => absurd hc (List.not_mem_nil)⟩, fun r x hx => (by cases hx)⟩
  · rw [excessReturn, ← expected_one, twoAssets_expected]
    norm_num [twoAssets]

/-! #### Finding: tracking error and variance limits when the ratio is maximised -/

/-- Everything in the first asset. -/
def pinned : Params ℝ 2 := { noLimits with minWeights := some fun i => if i = 0 then 1 else 0, maxWeights := some fun i => if i = 0 then 1 else 0 }

/-- Expected returns 2% and 0, at most 2.5% of tracking error and a variance of at most 1/2. -/
noncomputable def limited : MeanRisk 2 2 :=
  { twoAssets (2 / 100) 0 pinned with maxTrackingError := some (25 / 1000), riskLimits := fun r => if r = .variance then some (1 / 2) else none }

theorem pinned_ok : ∃ cs, getWeightConstraints pinned true true (1 : ℝ) = .ok cs := by
  unfold getWeightConstraints
  simp [pinned, noLimits, isMip, simpleConstraints, minConstraint, longConstraint, shortConstraint, budgetConstraint, mipPart, bind, Except.bind, pure, Except.pure]

theorem pinned_limits (w : Fin 2 → ℝ) (h0 : w 0 = 1) (h1 : w 1 = 0) : RespectsLimits pinned w where
  atLeast := by
    rintro m ⟨⟩ i
    fin_cases i
    · exact h0.ge
    · exact h1.ge
  atMost := by
    rintro m ⟨⟩ i
    fin_cases i
    · exact h0.le
    · exact h1.le
  long := by rintro m ⟨⟩
  short := by rintro m ⟨⟩
  minBudget := by rintro m ⟨⟩
  maxBudget := by rintro m ⟨⟩
  budget := by
    rintro m ⟨⟩
    rw [Fin.sum_univ_two, h0, h1, add_zero]
  equations := by intro row h; exact absurd h (List.not_mem_nil)
  inequalities := by intro row h; exact absurd h (List.not_mem_nil)
  matrix := by rintro m ⟨⟩

theorem limited_active : activeRisk limited ![1, 0] = 5 / 100 := by
  have : (∑ t, ((∑ i, (![1, 0] : Fin 2 → ℝ) i * limited.data.returns t i) - limited.benchmark t) ^ 2) / (((2 : Nat) : ℝ) - 1) = (5 / 100) ^ 2 := by
    norm_num [limited, twoAssets, Fin.sum_univ_two]
  unfold activeRisk
  rw [this]
  exact Real.sqrt_sq (by norm_num)

/-- Finding: when the ratio is maximised, an optimum of the problem gives weights with a tracking error of 5% although `max_tracking_error` is 2.5%, and a variance of 1 although `max_variance` is
1/2. The scale is `k = 1/2`; the constraint on the tracking error lacks the factor `k`, and the variance scales with `k²`. -/
theorem C19_ratio_limits_violated : ∃ (cs : List (Constraint ℝ 2)) (w : Fin 2 → ℝ) (k : ℝ) (a : (riskProgram limited limited.riskMeasure w k).Aux),
    getWeightConstraints limited.weights (factorIsVariable limited) true limited.scale = .ok cs ∧ 0 < k ∧ IsOptimum limited cs w k a ∧
    limited.maxTrackingError = some (25 / 1000) ∧ activeRisk limited (returnedWeights w k) = 50 / 1000 ∧
    limited.riskLimits .variance = some (1 / 2) ∧ ∑ i, ∑ j, returnedWeights w k i * covarianceOf limited i j * returnedWeights w k j = 1 := by
  obtain ⟨cs, hcs⟩ := pinned_ok
  have hret : returnedWeights ![(1 / 2 : ℝ), 0] (1 / 2) = ![1, 0] := by
    funext i
    fin_cases i <;> norm_num [returnedWeights]
  have hc : homogenizationFactor limited.data.mu = 1 / 100 := by
    change homogenizationFactor (twoAssets (2 / 100) 0 pinned).data.mu = 1 / 100
    rw [twoAssets_factor] <;> norm_num
  refine ⟨cs, ![1 / 2, 0], 1 / 2, (1 / 2 : ℝ), hcs, by norm_num, ⟨⟨fun h => absurd rfl h, fun x hx => ?_, fun x hx => (by cases hx), ?_,
    fun x hx => absurd hx (List.not_mem_nil), fun r x hx => ?_, ?_, fun _ => ⟨fun _ => ?_, fun h => absurd (twoAssets_affine (2 / 100) 0 pinned) h⟩⟩, ?_⟩, rfl, ?_, ?_, ?_⟩
  · cases hx
    rw [tracking_returned _ _ _ (by norm_num), hret, limited_active]
    norm_num [limited, twoAssets]
  · refine (C19_weight_limits pinned true true 1 (1 / 2) one_pos (by norm_num) _ cs hcs rfl).2 (pinned_limits _ ?_ ?_)
    · norm_num
    · norm_num
  · have hr : r = .variance := by
      by_contra hne
      simp [limited, hne] at hx
    subst hr
    have hx : x = 1 / 2 := by
      have : limited.riskLimits .variance = some (1 / 2) := by simp [limited]
      rw [this] at hx
      exact (Option.some.inj hx).symm
    subst hx
    refine ⟨(1 / 2 : ℝ), (twoAssets_std (2 / 100) 0 pinned _ (1 / 2) _).2 ⟨by norm_num, Real.sqrt_le_iff.2 ⟨by norm_num, ?_⟩⟩, ?_⟩
    · norm_num
    · change (1 / 2 : ℝ) ^ 2 * 1 ≤ 1 / 2 * (1 / 2) * 1
      norm_num
  · refine (twoAssets_std (2 / 100) 0 pinned _ (1 / 2) _).2 ⟨by norm_num, Real.sqrt_le_iff.2 ⟨by norm_num, ?_⟩⟩
    norm_num
  · rw [hc]
    have := twoAssets_expected (2 / 100) 0 pinned ![1 / 2, 0] (1 / 2)
    change expectedReturn limited _ _ = _ at this
    rw [this]
    norm_num [limited, twoAssets]
  · intro w' k' (v : ℝ) h
    have h1 := (h.ratio rfl).1 (twoAssets_affine (2 / 100) 0 pinned)
    have he := twoAssets_expected (2 / 100) 0 pinned w' k'
    change expectedReturn limited _ _ = _ at he
    rw [hc, he] at h1
    have h2 := (twoAssets_std (2 / 100) 0 pinned _ k' _).1 h.aux
    have h3 : w' 0 ^ 2 + w' 1 ^ 2 ≤ v ^ 2 := (Real.sqrt_le_left h2.1).1 h2.2
    have h4 : (2 / 100 : ℝ) * w' 0 = 1 / 100 := by
      have : limited.data.riskFreeRate = 0 := rfl
      rw [this] at h1
      have : limited.scale = 1 := rfl
      rw [this] at h1
      linarith
    change (1 / 2 : ℝ) * 1 + (0 * _ + 0 * _) * 1 ≤ v * 1 + (0 * _ + 0 * _) * 1
    have : (1 / 2 : ℝ) ≤ v := by
      have : w' 0 = 1 / 2 := by linarith
      rw [this] at h3
      by_contra hlt
      nlinarith [sq_nonneg (w' 1), h2.1, not_le.1 hlt]
    linarith
  · rw [hret, limited_active]
    norm_num
  · simp [limited]
  · rw [hret]
    norm_num [covarianceOf, limited, twoAssets, Fin.sum_univ_two]

/-- The hypotheses of C19 hold in this case too. -/
example : 0 < limited.scale ∧ BetasOk limited := by
  refine ⟨one_pos, ?_⟩
  norm_num [BetasOk, limited, twoAssets]

/-! #### Finding: the scale may be negative -/

theorem noLimits_ok : ∃ cs, getWeightConstraints noLimits true true (1 : ℝ) = .ok cs := by
  unfold getWeightConstraints
  simp [noLimits, isMip, simpleConstraints, minConstraint, longConstraint, shortConstraint, budgetConstraint, mipPart, bind, Except.bind, pure, Except.pure]

/-- Finding: the scale is a free variable. Without bounds on the weights (`min_weights = None`) an optimum can have `k < 0`: here the expected returns are -2% and 0, the budget is 1. The problem's
optimum is `w = (-1/2, 0)`, `k = -1/2`, and the returned portfolio is fully invested in the asset with negative expected return, although the portfolio (-1, 2) is allowed and has expected return +2%. -/
theorem C18_negative_scale : ∃ (cs : List (Constraint ℝ 2)) (w : Fin 2 → ℝ) (k : ℝ) (a : (riskProgram (twoAssets (-2 / 100) 0 noLimits) .standardDeviation w k).Aux),
    getWeightConstraints noLimits true true (1 : ℝ) = .ok cs ∧ IsOptimum (twoAssets (-2 / 100) 0 noLimits) cs w k a ∧
    returnedWeights w k = ![1, 0] ∧ excessReturn (twoAssets (-2 / 100) 0 noLimits) (returnedWeights w k) = -2 / 100 ∧
    Allowed (twoAssets (-2 / 100) 0 noLimits) ![-1, 2] ∧ excessReturn (twoAssets (-2 / 100) 0 noLimits) ![-1, 2] = 2 / 100 := by
  obtain ⟨cs, hcs⟩ := noLimits_ok
  have hret : returnedWeights ![(-1 / 2 : ℝ), 0] (-1 / 2) = ![1, 0] := by
    funext i
    fin_cases i <;> norm_num [returnedWeights]
  have hc : homogenizationFactor (twoAssets (-2 / 100) 0 noLimits).data.mu = 1 / 100 := by
    rw [twoAssets_factor] <;> norm_num [abs_of_neg]
  refine ⟨cs, ![-1 / 2, 0], -1 / 2, (1 / 2 : ℝ), hcs, ⟨⟨fun h => absurd rfl h, fun x hx => (by cases hx), fun x hx => (by cases hx), ?_,
    fun x hx => absurd hx (List.not_mem_nil), fun r x hx => (by cases hx), ?_, fun _ => ⟨fun _ => ?_, fun h => absurd (twoAssets_affine _ _ _) h⟩⟩, ?_⟩, hret, ?_, ?_, ?_⟩
  · have : cs = [fun w k => (∑ i, w i) * 1 = 1 * k * 1] ++ linearConstraints noLimits 1 := by
      unfold getWeightConstraints at hcs
      simp [noLimits, isMip, simpleConstraints, minConstraint, maxConstraint, longConstraint, shortConstraint, budgetBounds, budgetConstraint, mipPart, bind, Except.bind, pure,
        Except.pure] at hcs
      rw [← hcs]
      simp [noLimits]
    rw [this]
    intro c hc
    simp only [linearConstraints, noLimits, List.append_nil, List.cons_append, List.nil_append, List.mem_cons, List.not_mem_nil, or_false] at hc
    rcases hc with rfl | rfl | rfl
    · norm_num [Fin.sum_univ_two]
    · intro row h
      simp at h
    · intro row h
      simp at h
  · refine (twoAssets_std _ _ _ _ _ _).2 ⟨by norm_num, Real.sqrt_le_iff.2 ⟨by norm_num, ?_⟩⟩
    norm_num
  · rw [hc, twoAssets_expected]
    norm_num [twoAssets]
  · intro w' k' (v : ℝ) h
    have h1 := (h.ratio rfl).1 (twoAssets_affine _ _ _)
    rw [hc, twoAssets_expected] at h1
    have h2 := (twoAssets_std _ _ _ _ _ _).1 h.aux
    have h3 : w' 0 ^ 2 + w' 1 ^ 2 ≤ v ^ 2 := (Real.sqrt_le_left h2.1).1 h2.2
    have h4 : (-2 / 100 : ℝ) * w' 0 = 1 / 100 := by
      have : (twoAssets (-2 / 100) 0 noLimits).data.riskFreeRate = 0 := rfl
      rw [this] at h1
      have : (twoAssets (-2 / 100) 0 noLimits).scale = 1 := rfl
      rw [this] at h1
      linarith
    change (1 / 2 : ℝ) * 1 + (0 * _ + 0 * _) * 1 ≤ v * 1 + (0 * _ + 0 * _) * 1
    have : (1 / 2 : ℝ) ≤ v := by
      have : w' 0 = -1 / 2 := by linarith
      rw [this] at h3
      by_contra hlt
      nlinarith [sq_nonneg (w' 1), h2.1, not_le.1 hlt]
    linarith
  · rw [hret, excessReturn, ← expected_one, twoAssets_expected]
    norm_num [twoAssets]
  · refine ⟨⟨fun m hm => (by cases hm), fun m hm => (by cases hm), fun m hm => (by cases hm), fun m hm => (by cases hm), fun m hm => (by cases hm), fun m hm => (by cases hm), ?_,
        fun row h => absurd h (List.not_mem_nil), fun row h => absurd h (List.not_mem_nil), fun m hm => (by cases hm)⟩,
      ⟨fun c hc => (by cases hc), fun c hc => (by cases hc), fun c hc => (by cases hc), fun c hc => (by cases hc)⟩,
      ⟨fun c hc => (by cases hc), fun c hc => absurd hc (List.not_mem_nil)⟩, fun r x hx => (by cases hx)⟩
    rintro m ⟨⟩
    norm_num [Fin.sum_univ_two]
  · rw [excessReturn, ← expected_one, twoAssets_expected]
    norm_num [twoAssets]

end

end Skfolio.Convex
