import Verif.Convex.CacheModel
import Verif.Convex.RiskTheorems
import Verif.Convex.MeanRiskTheorems

/-! **C71**: fitting an estimator again. -/
set_option autoImplicit false

namespace Skfolio.Convex

open Skfolio.Measures

section
variable {n T : Nat}

theorem calls_some (keys : List Nat) (fit : Nat) (used : List RiskMeasure) : (∀ b ∈ (riskCalls (some keys) fit used).1, b = false) ∧ (riskCalls (some keys) fit used).2.isSome := by
  induction used generalizing keys with
  | nil => simp [riskCalls]
  | cons r l ih =>
    unfold riskCalls
    cases hr : usesDrawdown r with
    | false => simpa using ih keys
    | true =>
      have : ∃ keys', (cvxDrawdown (some keys) fit).2 = some keys' := by
        simp only [cvxDrawdown, remember]
        split_ifs
        · exact ⟨_, rfl⟩
        · exact ⟨_, rfl⟩
      obtain ⟨keys', hk⟩ := this
      have := ih keys'
      simp only [if_true, hk]
      refine ⟨fun b hb => ?_, this.2⟩
      rcases List.mem_cons.1 hb with rfl | hb
      · rfl
      · exact this.1 b hb

theorem calls_none (fit : Nat) (used : List RiskMeasure) : ((riskCalls none fit used).1.any id = used.any usesDrawdown) ∧ (riskCalls none fit used).1.count true ≤ 1 ∧ ((riskCalls none fit used).2.isSome = used.any usesDrawdown) := by
  induction used with
  | nil => simp [riskCalls]
  | cons r l ih =>
    unfold riskCalls
    cases hr : usesDrawdown r with
    | false => simpa [hr] using ih
    | true =>
      have hk : (cvxDrawdown none fit).2 = some [fit] := by simp [cvxDrawdown, remember]
      have := calls_some [fit] fit l
      simp only [if_true, hk]
      refine ⟨by simp [cvxDrawdown, hr], ?_, by simpa [hr] using this.2⟩
      rw [List.count_cons]
      have h0 : (riskCalls (some [fit]) fit l).1.count true = 0 := List.count_eq_zero.2 fun h => by
        have := this.1 _ h
        cases this
      rw [h0]
      split_ifs <;> omega

/-- Specification: the last fit that used a drawdown measure or came to its end, came to its end. -/
def NoFailureSince : List Fit → Prop
  | [] => True
  | f :: earlier => f.success = true ∨ f.used.any usesDrawdown = false ∧ NoFailureSince earlier

theorem cache_iff (fits : List Fit) : cacheAfter fits = none ↔ NoFailureSince fits := by
  induction fits with
  | nil => simp [cacheAfter, NoFailureSince]
  | cons f earlier ih =>
    unfold cacheAfter NoFailureSince
    cases hf : f.success with
    | true => simp
    | false =>
      simp only [Bool.false_eq_true, if_false, false_or]
      cases hc : cacheAfter earlier with
      | none =>
        have h := (calls_none earlier.length f.used).2.2
        rw [← ih, hc]
        simp only [and_true]
        cases hu : f.used.any usesDrawdown with
        | false =>
          rw [hu] at h
          simpa using h
        | true =>
          rw [hu] at h
          constructor
          · intro h'
            rw [h'] at h
            cases h
          · intro h'
            cases h'
      | some keys =>
        have h := (calls_some keys earlier.length f.used).2
        rw [← ih, hc]
        constructor
        · intro h'
          rw [h'] at h
          cases h
        · rintro ⟨-, h'⟩
          cases h'

/-- **C71.** In a problem that uses drawdown measures, the constraints on the drawdowns are present exactly if no fit has failed since the last complete one (fits without drawdown measures aside), and then once. -/
theorem C71_constraints_present (fits : List Fit) (used : List RiskMeasure) (hu : used.any usesDrawdown = true) :
    (constrained (cacheAfter fits) fits.length used = true ↔ NoFailureSince fits) ∧ (riskCalls (cacheAfter fits) fits.length used).1.count true ≤ 1 := by
  unfold constrained
  rw [← cache_iff]
  cases hc : cacheAfter fits with
  | none =>
    obtain ⟨h1, h2, -⟩ := calls_none fits.length used
    exact ⟨by simp [h1, hu], h2⟩
  | some keys =>
    have h := (calls_some keys fits.length used).1
    constructor
    · constructor
      · intro h'
        obtain ⟨b, hb, hb'⟩ := List.any_eq_true.1 h'
        rw [h b hb] at hb'
        cases hb'
      · intro h'
        cases h'
    · have : (riskCalls (some keys) fits.length used).1.count true = 0 := List.count_eq_zero.2 fun ht => by
        have := h _ ht
        cases this
      omega

/-! ### Sharing the variable -/

theorem own_mono (m : MeanRisk n T) (hs : 0 < m.scale) (r : RiskMeasure) (v v' : Fin (T + 1) → ℝ) (h0 : ∀ t : Fin T, 0 ≤ v' t.succ) (hle : ∀ t : Fin T, v' t.succ ≤ v t.succ) (a : OwnVars T r) (h : ownFeasible m.scale r v a) :
    ownFeasible m.scale r v' a ∧ ownRisk m r v' a ≤ ownRisk m r v a := by
  have hle' : ∀ t : Fin T, v' t.succ * m.scale ≤ v t.succ * m.scale := fun t => mul_le_mul_of_nonneg_right (hle t) hs.le
  cases r with
  | maxDrawdown => exact ⟨fun t => (hle' t).trans (h t), le_rfl⟩
  | averageDrawdown => exact ⟨trivial, div_le_div_of_nonneg_right (Finset.sum_le_sum fun t _ => hle t) (Nat.cast_nonneg T)⟩
  | cdar => exact ⟨⟨h.1, fun t => by have := h.2 t; have := hle' t; linarith⟩, le_rfl⟩
  | edar =>
    refine ⟨⟨h.1, h.2.1, fun t => ?_⟩, le_rfl⟩
    rcases h.2.2 t with ⟨hy, hz⟩ | ⟨hy, hx, hz⟩
    · refine Or.inl ⟨hy, le_trans (mul_le_mul_of_nonneg_left (Real.exp_le_exp.2 (div_le_div_of_nonneg_right ?_ hy.le)) hy.le) hz⟩
      have := hle' t
      linarith
    · refine Or.inr ⟨hy, ?_, hz⟩
      have := hle' t
      linarith
  | ulcerIndex => exact ⟨trivial, div_le_div_of_nonneg_right (Real.sqrt_le_sqrt (Finset.sum_le_sum fun t _ => pow_le_pow_left₀ (h0 t) (hle t) 2)) (Real.sqrt_nonneg _)⟩
  | _ => exact ⟨trivial, le_rfl⟩

/-- A program of the model of C17 is the shared variable together with the measure's own ones. -/
theorem own_program (m : MeanRisk n T) (r : RiskMeasure) (hr : usesDrawdown r = true) (w : Fin n → ℝ) (k x : ℝ) :
    (∃ a, (riskProgram m r w k).feasible a ∧ (riskProgram m r w k).risk a ≤ x) ↔ ∃ v, drawdownFeasible m.data w k m.scale v ∧ ∃ a, ownFeasible m.scale r v a ∧ ownRisk m r v a ≤ x := by
  cases r with
  | maxDrawdown => exact ⟨fun ⟨a, h, hx⟩ => ⟨a.1, h.1, a.2, h.2, hx⟩, fun ⟨v, h1, a, h2, hx⟩ => ⟨(v, a), ⟨h1, h2⟩, hx⟩⟩
  | averageDrawdown => exact ⟨fun ⟨a, h, hx⟩ => ⟨a, h, (), trivial, hx⟩, fun ⟨v, h1, a, h2, hx⟩ => ⟨v, h1, hx⟩⟩
  | cdar => exact ⟨fun ⟨a, h, hx⟩ => ⟨a.1, h.1, a.2, h.2, hx⟩, fun ⟨v, h1, a, h2, hx⟩ => ⟨(v, a), ⟨h1, h2⟩, hx⟩⟩
  | edar => exact ⟨fun ⟨a, h, hx⟩ => ⟨a.1, h.1, a.2, h.2, hx⟩, fun ⟨v, h1, a, h2, hx⟩ => ⟨(v, a), ⟨h1, h2⟩, hx⟩⟩
  | ulcerIndex => exact ⟨fun ⟨a, h, hx⟩ => ⟨a, h, (), trivial, hx⟩, fun ⟨v, h1, a, h2, hx⟩ => ⟨v, h1, hx⟩⟩
  | _ => cases hr

/-- **C71.** With the constraints present, one variable for all drawdown measures is as good as one for each: the risks in use can all be at most their limits with the shared variable exactly if each can
with its own. -/
theorem C71_shared (m : MeanRisk n T) (hs : 0 < m.scale) (used : List RiskMeasure) (w : Fin n → ℝ) (k : ℝ) (limit : RiskMeasure → ℝ) :
    sharedAtMost m true used w k limit ↔ ∀ r ∈ used, usesDrawdown r = true → ∃ a, (riskProgram m r w k).feasible a ∧ (riskProgram m r w k).risk a ≤ limit r := by
  constructor
  · rintro ⟨v, hv, h⟩ r hr hu
    exact (own_program m r hu w k _).2 ⟨v, hv rfl, h r hr hu⟩
  · intro h
    refine ⟨_, fun _ => drawdown_least m.data w k m.scale hs, fun r hr hu => ?_⟩
    obtain ⟨v, hv, a, ha, hx⟩ := (own_program m r hu w k _).1 (h r hr hu)
    obtain ⟨h1, h2⟩ := own_mono m hs r v (fun t => leastV (netReturns m.data w k) t) (fun t => leastV_nonneg _ _) (fun t => drawdown_ge m.data w k m.scale hs v hv t.succ) a ha
    exact ⟨a, h1, h2.trans hx⟩

/-- **C71.** A problem built after a complete fit, or by a new estimator, has the drawdown limits of the measures' own definitions. -/
theorem C71_refit (m : MeanRisk n T) (hs : 0 < m.scale) (fits : List Fit) (hf : NoFailureSince fits) (used : List RiskMeasure) (hu : used.any usesDrawdown = true) (w : Fin n → ℝ) (k : ℝ) (limit : RiskMeasure → ℝ) :
    sharedAtMost m (constrained (cacheAfter fits) fits.length used) used w k limit ↔
      ∀ r ∈ used, usesDrawdown r = true → ∃ a, (riskProgram m r w k).feasible a ∧ (riskProgram m r w k).risk a ≤ limit r := by
  rw [(C71_constraints_present fits used hu).1.2 hf]
  exact C71_shared m hs used w k limit

theorem not_constrained (fits : List Fit) (hf : ¬ NoFailureSince fits) (used : List RiskMeasure) : constrained (cacheAfter fits) fits.length used = false := by
  cases hc : cacheAfter fits with
  | none => exact absurd ((cache_iff fits).1 hc) hf
  | some keys =>
    unfold constrained
    rw [Bool.eq_false_iff]
    intro h'
    obtain ⟨b, hb, hb'⟩ := List.any_eq_true.1 h'
    rw [(calls_some keys fits.length used).1 b hb] at hb'
    cases hb'

theorem own_constant (m : MeanRisk n T) (hT : 0 < T) (r : RiskMeasure) (hu : usesDrawdown r = true) (c : ℝ) (hc : r = .ulcerIndex → c = 0) : ∃ a, ownFeasible m.scale r (fun _ : Fin (T + 1) => c) a ∧ ownRisk m r (fun _ : Fin (T + 1) => c) a = c := by
  have hT' : (T : ℝ) ≠ 0 := by exact_mod_cast hT.ne'
  cases r with
  | maxDrawdown => exact ⟨c, fun t => le_rfl, rfl⟩
  | averageDrawdown =>
    refine ⟨(), trivial, ?_⟩
    change (∑ t : Fin T, c) / (T : ℝ) = c
    rw [Finset.sum_const, Finset.card_univ, Fintype.card_fin, nsmul_eq_mul, mul_div_cancel_left₀ _ hT']
  | cdar =>
    refine ⟨(c, fun _ => 0), ⟨fun t => le_rfl, fun t => ?_⟩, ?_⟩
    · change 0 * m.scale ≥ c * m.scale - c * m.scale
      simp
    · change c + 1 / ((T : ℝ) * (1 - m.cdarBeta)) * ∑ t : Fin T, 0 = c
      simp
  | edar =>
    refine ⟨(c, 0, fun _ => 0), ⟨le_rfl, ?_, fun t => Or.inr ⟨?_, ?_, ?_⟩⟩, ?_⟩
    · change (∑ t : Fin T, 0) * m.scale ≤ 0 * m.scale
      simp
    · exact zero_mul _
    · change c * m.scale - c * m.scale ≤ 0
      simp
    · change 0 ≤ 0 * m.scale
      simp
    · change c + 0 * _ = c
      simp
  | ulcerIndex =>
    refine ⟨(), trivial, ?_⟩
    rw [hc rfl]
    change Real.sqrt (∑ t : Fin T, 0 ^ 2) / Real.sqrt (T : ℝ) = 0
    simp
  | _ => cases hu

/-- **C71** (finding). After a fit that failed while drawdown measures were in use, the next problem of the same estimator has no constraints on the drawdowns: all weights are within all limits on drawdown
measures, whatever their drawdowns are. -/
theorem C71_limits_void (m : MeanRisk n T) (hT : 0 < T) (fits : List Fit) (hf : ¬ NoFailureSince fits) (used : List RiskMeasure) (w : Fin n → ℝ) (k : ℝ) (limit : RiskMeasure → ℝ) (h0 : ∀ r, 0 ≤ limit r) :
    sharedAtMost m (constrained (cacheAfter fits) fits.length used) used w k limit := by
  rw [not_constrained fits hf used]
  refine ⟨fun _ => 0, fun h => (by cases h), fun r hr hu => ?_⟩
  obtain ⟨a, ha, he⟩ := own_constant m hT r hu 0 fun _ => rfl
  exact ⟨a, ha, he.trans_le (h0 r)⟩

/-- **C71** (finding). In the same situation, minimising a drawdown measure is unbounded below, for any weights; only the ulcer index has a minimum, 0 for all weights. -/
theorem C71_risk_void (m : MeanRisk n T) (hT : 0 < T) (fits : List Fit) (hf : ¬ NoFailureSince fits) (r : RiskMeasure) (hu : usesDrawdown r = true) (w : Fin n → ℝ) (k : ℝ) :
    (r ≠ .ulcerIndex → ∀ c, sharedAtMost m (constrained (cacheAfter fits) fits.length [r]) [r] w k fun _ => c) ∧
    (r = .ulcerIndex → sharedAtMost m (constrained (cacheAfter fits) fits.length [r]) [r] w k fun _ => 0) := by
  rw [not_constrained fits hf [r]]
  constructor
  · intro hr c
    refine ⟨fun _ => c, fun h => (by cases h), fun r' hr' _ => ?_⟩
    rw [List.mem_singleton.1 hr']
    obtain ⟨a, ha, he⟩ := own_constant m hT r hu c fun h => absurd h hr
    exact ⟨a, ha, he.le⟩
  · intro _
    refine ⟨fun _ => 0, fun h => (by cases h), fun r' hr' _ => ?_⟩
    rw [List.mem_singleton.1 hr']
    obtain ⟨a, ha, he⟩ := own_constant m hT r hu 0 fun _ => rfl
    exact ⟨a, ha, he.le⟩

/-! Fits with CDaR and a limit on the maximum drawdown: first one that fails, then one that does not, then another. -/

example : ¬ NoFailureSince [⟨[.cdar, .maxDrawdown], false⟩] := by simp [NoFailureSince, usesDrawdown]

example : ¬ NoFailureSince [⟨[.variance], false⟩, ⟨[.cdar, .maxDrawdown], false⟩] := by simp [NoFailureSince, usesDrawdown]

example : NoFailureSince [⟨[.cdar, .maxDrawdown], true⟩, ⟨[.cdar, .maxDrawdown], false⟩] := by simp [NoFailureSince]

/-- The drawdown constraints: present in a first fit (once, for two measures), absent after the failure, present again after the fit that came to its end. -/
example : riskCalls (cacheAfter []) 0 [.cdar, .maxDrawdown] = ([true, false], some [0]) ∧ riskCalls (cacheAfter [⟨[.cdar, .maxDrawdown], false⟩]) 1 [.cdar, .maxDrawdown] = ([false, false], some [1, 0]) ∧
    (riskCalls (cacheAfter [⟨[.cdar, .maxDrawdown], true⟩, ⟨[.cdar, .maxDrawdown], false⟩]) 2 [.cdar, .maxDrawdown]).1 = [true, false] := by decide

/-- One asset that loses 50 % in the one observation. -/
noncomputable def halved : MeanRisk 1 1 :=
  { data := { returns := fun _ _ => -1 / 2, mu := fun _ => -1 / 2, previousWeights := fun _ => 0, transactionCosts := fun _ => 0, managementFees := fun _ => 0, riskFreeRate := 0 },
    cholesky := fun _ _ => 1, weights := { minWeights := none, maxWeights := none, maxLong := none, maxShort := none, minBudget := none, maxBudget := none, budget := some 1, cardinality := none, groupCardinalities := none, thresholdLong := none, thresholdShort := none, eqRows := [], ineqRows := [], inequality := none, mixedIntegerSolver := false },
    objective := .maximizeReturn, riskMeasure := .maxDrawdown, minAcceptableReturn := .default, cvarBeta := 95 / 100, evarBeta := 95 / 100, cdarBeta := 95 / 100, edarBeta := 95 / 100, riskAversion := 1, l1Coef := 0, l2Coef := 0,
    maxTrackingError := none, benchmark := fun _ => 0, maxTurnover := none, minReturns := [], riskLimits := fun r => if r = .maxDrawdown then some (1 / 10) else none, uncertainty := none, scale := 1, scaleObjective := 1 }

/-- **C71** (finding). A limit of 10 % on the maximum drawdown excludes a portfolio that loses 50 % — but not when the previous fit of the same estimator failed. -/
theorem C71_witness : ¬ sharedAtMost halved (constrained (cacheAfter []) 0 [.maxDrawdown]) [.maxDrawdown] (fun _ => 1) 1 (fun _ => 1 / 10) ∧
    sharedAtMost halved (constrained (cacheAfter [⟨[.maxDrawdown], false⟩]) 1 [.maxDrawdown]) [.maxDrawdown] (fun _ => 1) 1 (fun _ => 1 / 10) := by
  constructor
  · rw [show constrained (cacheAfter []) 0 [.maxDrawdown] = true by decide]
    rintro ⟨v, hv, h⟩
    obtain ⟨h1, h2, h3⟩ := hv rfl
    obtain ⟨(u : ℝ), hu, hx⟩ := h .maxDrawdown List.mem_cons_self rfl
    have a1 := h1 0
    have a2 : u * 1 ≥ v (Fin.succ 0) * 1 := hu 0
    have a3 : u ≤ 1 / 10 := hx
    have a4 : v 0 * 1 = 0 := h3
    simp [halved, ptfReturns, transactionCost, managementFee] at a1
    simp at a2 a4
    rw [a4] at a1
    linarith
  · exact C71_limits_void halved one_pos [⟨[.maxDrawdown], false⟩] (by simp [NoFailureSince, usesDrawdown]) _ _ _ _ fun _ => by norm_num

end

end Skfolio.Convex
