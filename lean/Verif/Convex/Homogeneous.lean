import Verif.Convex.MeanRiskModel
import Mathlib.Tactic.Linarith
import Mathlib.Tactic.FieldSimp

/-! Every risk program scales with the weights. -/
set_option autoImplicit false

namespace Skfolio.Convex

section
variable {n T : Nat}

/-- Degree of homogeneity of a risk measure. -/
def degree : RiskMeasure → Nat
  | .variance => 2
  | .semiVariance => 2
  | _ => 1

/-- `w` scaled. -/
def scaled (l : ℝ) (w : Fin n → ℝ) : Fin n → ℝ := fun i => l * w i

theorem ptf_scaled (d : Data ℝ n T) (l : ℝ) (w : Fin n → ℝ) (t : Fin T) : ptfReturns d (scaled l w) t = l * ptfReturns d w t := by
  simp only [ptfReturns, scaled, Finset.mul_sum]
  exact Finset.sum_congr rfl fun i _ => by ring

theorem mar_scaled (d : Data ℝ n T) (m : Mar ℝ n) (l : ℝ) (w : Fin n → ℝ) (t : Fin T) : ptfMar d (scaled l w) m t = l * ptfMar d w m t := by
  simp only [ptfMar, scaled, Finset.mul_sum]
  exact Finset.sum_congr rfl fun i _ => by ring

theorem fee_scaled (d : Data ℝ n T) (l : ℝ) (w : Fin n → ℝ) : managementFee d (scaled l w) = l * managementFee d w := by
  simp only [managementFee, scaled, Finset.mul_sum]
  exact Finset.sum_congr rfl fun i _ => by ring

theorem cost_scaled (d : Data ℝ n T) (l : ℝ) (hl : 0 < l) (w : Fin n → ℝ) (k : ℝ) :
    transactionCost d (scaled l w) (l * k) = l * transactionCost d w k := by
  simp only [transactionCost, scaled, Finset.mul_sum]
  refine Finset.sum_congr rfl fun i _ => ?_
  rw [show d.transactionCosts i * (d.previousWeights i * (l * k) - l * w i) = l * (d.transactionCosts i * (d.previousWeights i * k - w i)) by ring,
    abs_mul, abs_of_pos hl]

theorem drawdown_scaled (d : Data ℝ n T) (l : ℝ) (hl : 0 < l) (w : Fin n → ℝ) (k s : ℝ) (v : Fin (T + 1) → ℝ) (h : drawdownFeasible d w k s v) :
    drawdownFeasible d (scaled l w) (l * k) s (fun t => l * v t) := by
  obtain ⟨h1, h2, h3⟩ := h
  refine ⟨fun t => ?_, fun t => ?_, ?_⟩
  · have := mul_le_mul_of_nonneg_left (h1 t) hl.le
    rw [ptf_scaled, cost_scaled d l hl, fee_scaled]
    nlinarith [this]
  · have := mul_nonneg hl.le (h2 t)
    change l * v t.succ * s ≥ 0
    linarith
  · change l * v 0 * s = 0
    rw [mul_assoc, h3, mul_zero]

theorem expCone_scaled (l : ℝ) (hl : 0 < l) (x y z : ℝ) (h : ExpCone x y z) : ExpCone (l * x) (l * y) (l * z) := by
  rcases h with ⟨hy, h⟩ | ⟨hy, hx, hz⟩
  · left
    refine ⟨mul_pos hl hy, ?_⟩
    rw [mul_div_mul_left _ _ hl.ne', mul_assoc]
    exact mul_le_mul_of_nonneg_left h hl.le
  · right
    exact ⟨by rw [hy, mul_zero], mul_nonpos_of_nonneg_of_nonpos hl.le hx, mul_nonneg hl.le hz⟩

theorem le_of_scaled (l a b : ℝ) (hl : 0 < l) (h : a ≤ b) : l * a ≤ l * b := mul_le_mul_of_nonneg_left h hl.le

theorem sqrt_scaled {m : Nat} (l : ℝ) (hl : 0 < l) (f : Fin m → ℝ) : Real.sqrt (∑ t, (l * f t) ^ 2) = l * Real.sqrt (∑ t, f t ^ 2) := by
  simp only [mul_pow]
  rw [← Finset.mul_sum, Real.sqrt_mul (sq_nonneg l), Real.sqrt_sq hl.le]

/-- Scaling the weights and the scale by `l` scales feasible auxiliary values, and the risk by `l` to the degree of the measure. -/
theorem program_scaled (m : MeanRisk n T) (r : RiskMeasure) (w : Fin n → ℝ) (k l : ℝ) (hl : 0 < l) (a : (riskProgram m r w k).Aux)
    (h : (riskProgram m r w k).feasible a) :
    ∃ a' : (riskProgram m r (scaled l w) (l * k)).Aux, (riskProgram m r (scaled l w) (l * k)).feasible a' ∧
      (riskProgram m r (scaled l w) (l * k)).risk a' = l ^ degree r * (riskProgram m r w k).risk a := by
  have hmar : ∀ (v : Fin T → ℝ), ((∀ t, 0 ≤ v t) ∧ ∀ t, ptfMar m.data w m.minAcceptableReturn t * m.scale ≥ -v t * m.scale) →
      (∀ t, 0 ≤ l * v t) ∧ ∀ t, ptfMar m.data (scaled l w) m.minAcceptableReturn t * m.scale ≥ -(l * v t) * m.scale := by
    rintro v ⟨h1, h2⟩
    refine ⟨fun t => mul_nonneg hl.le (h1 t), fun t => ?_⟩
    have := le_of_scaled l _ _ hl (h2 t)
    rw [mar_scaled]
    linarith
  have hstd : ∀ v : ℝ, (0 ≤ v ∧ Real.sqrt (∑ j, ((∑ i, m.cholesky i j * w i) * m.scale) ^ 2) ≤ v * m.scale) →
      0 ≤ l * v ∧ Real.sqrt (∑ j, ((∑ i, m.cholesky i j * scaled l w i) * m.scale) ^ 2) ≤ l * v * m.scale := by
    rintro v ⟨h1, h2⟩
    refine ⟨mul_nonneg hl.le h1, ?_⟩
    have e : ∀ j, (∑ i, m.cholesky i j * scaled l w i) * m.scale = l * ((∑ i, m.cholesky i j * w i) * m.scale) := by
      intro j
      rw [← mul_assoc, Finset.mul_sum]
      congr 1
      exact Finset.sum_congr rfl fun i _ => by simp only [scaled]; ring
    simp only [e]
    rw [sqrt_scaled l hl, mul_assoc]
    exact le_of_scaled l _ _ hl h2
  cases r with
  | meanAbsoluteDeviation =>
    revert h
    revert a
    intro (v : Fin T → ℝ) h
    refine ⟨fun t => l * v t, hmar v h, ?_⟩
    change 2 * (∑ t, l * v t) / (T : ℝ) = l ^ 1 * (2 * (∑ t, v t) / (T : ℝ))
    rw [← Finset.mul_sum]
    ring
  | firstLowerPartialMoment =>
    revert h
    revert a
    rintro (v : Fin T → ℝ) ⟨h1, h2⟩
    refine ⟨fun t => l * v t, ⟨fun t => mul_nonneg hl.le (h1 t), fun t => ?_⟩, ?_⟩
    · have := le_of_scaled l _ _ hl (h2 t)
      rw [mar_scaled]
      linarith
    · change (∑ t, l * v t) / (T : ℝ) = l ^ 1 * ((∑ t, v t) / (T : ℝ))
      rw [← Finset.mul_sum]
      ring
  | standardDeviation =>
    revert h
    revert a
    intro (v : ℝ) h
    refine ⟨l * v, hstd v h, ?_⟩
    change l * v = l ^ 1 * v
    ring
  | variance =>
    revert h
    revert a
    intro (v : ℝ) h
    refine ⟨l * v, hstd v h, ?_⟩
    change (l * v) ^ 2 = l ^ 2 * v ^ 2
    ring
  | semiVariance =>
    revert h
    revert a
    intro (v : Fin T → ℝ) h
    refine ⟨fun t => l * v t, hmar v h, ?_⟩
    change (∑ t, (l * v t) ^ 2) / ((T : ℝ) - 1) = l ^ 2 * ((∑ t, v t ^ 2) / ((T : ℝ) - 1))
    simp only [mul_pow]
    rw [← Finset.mul_sum]
    ring
  | semiDeviation =>
    revert h
    revert a
    intro (v : Fin T → ℝ) h
    refine ⟨fun t => l * v t, hmar v h, ?_⟩
    change Real.sqrt (∑ t, (l * v t) ^ 2) / Real.sqrt ((T : ℝ) - 1) = l ^ 1 * (Real.sqrt (∑ t, v t ^ 2) / Real.sqrt ((T : ℝ) - 1))
    rw [sqrt_scaled l hl]
    ring
  | worstRealization =>
    revert h
    revert a
    intro (v : ℝ) h
    refine ⟨l * v, fun t => ?_, ?_⟩
    · have := le_of_scaled l _ _ hl (h t)
      rw [ptf_scaled, cost_scaled m.data l hl, fee_scaled]
      linarith
    · change l * v = l ^ 1 * v
      ring
  | cvar =>
    revert h
    revert a
    rintro (a : ℝ × (Fin T → ℝ)) ⟨h1, h2⟩
    refine ⟨(l * a.1, fun t => l * a.2 t), ⟨fun t => mul_nonneg hl.le (h1 t), fun t => ?_⟩, ?_⟩
    · have := le_of_scaled l _ _ hl (h2 t)
      rw [ptf_scaled, cost_scaled m.data l hl, fee_scaled]
      change _ + l * a.1 * m.scale + l * a.2 t * m.scale ≥ 0
      linarith
    · change l * a.1 + 1 / ((T : ℝ) * (1 - m.cvarBeta)) * ∑ t, l * a.2 t = l ^ 1 * (a.1 + 1 / ((T : ℝ) * (1 - m.cvarBeta)) * ∑ t, a.2 t)
      rw [← Finset.mul_sum]
      ring
  | evar =>
    revert h
    revert a
    rintro (a : ℝ × ℝ × (Fin T → ℝ)) ⟨h1, h2, h3⟩
    refine ⟨(l * a.1, l * a.2.1, fun t => l * a.2.2 t), ⟨mul_nonneg hl.le h1, ?_, fun t => ?_⟩, ?_⟩
    · have := le_of_scaled l _ _ hl h2
      change (∑ t, l * a.2.2 t) * m.scale ≤ l * a.2.1 * m.scale
      rw [← Finset.mul_sum]
      linarith
    · have := expCone_scaled l hl _ _ _ (h3 t)
      rw [ptf_scaled, fee_scaled]
      change ExpCone (_ - l * a.1 * m.scale) (l * a.2.1 * m.scale) (l * a.2.2 t * m.scale)
      convert this using 1 <;> ring
    · change l * a.1 + l * a.2.1 * _ = l ^ 1 * (a.1 + a.2.1 * _)
      ring
  | maxDrawdown =>
    revert h
    revert a
    rintro (a : (Fin (T + 1) → ℝ) × ℝ) ⟨h1, h2⟩
    refine ⟨(fun t => l * a.1 t, l * a.2), ⟨drawdown_scaled _ l hl _ _ _ _ h1, fun t => ?_⟩, ?_⟩
    · have := le_of_scaled l _ _ hl (h2 t)
      change l * a.2 * m.scale ≥ l * a.1 t.succ * m.scale
      linarith
    · change l * a.2 = l ^ 1 * a.2
      ring
  | averageDrawdown =>
    revert h
    revert a
    intro (v : Fin (T + 1) → ℝ) h
    refine ⟨fun t => l * v t, drawdown_scaled _ l hl _ _ _ _ h, ?_⟩
    change (∑ t : Fin T, l * v t.succ) / (T : ℝ) = l ^ 1 * ((∑ t : Fin T, v t.succ) / (T : ℝ))
    rw [← Finset.mul_sum]
    ring
  | cdar =>
    revert h
    revert a
    rintro (a : (Fin (T + 1) → ℝ) × ℝ × (Fin T → ℝ)) ⟨h1, h2, h3⟩
    refine ⟨(fun t => l * a.1 t, l * a.2.1, fun t => l * a.2.2 t), ⟨drawdown_scaled _ l hl _ _ _ _ h1, fun t => mul_nonneg hl.le (h2 t), fun t => ?_⟩, ?_⟩
    · have := le_of_scaled l _ _ hl (h3 t)
      change l * a.2.2 t * m.scale ≥ l * a.1 t.succ * m.scale - l * a.2.1 * m.scale
      linarith
    · change l * a.2.1 + 1 / ((T : ℝ) * (1 - m.cdarBeta)) * ∑ t, l * a.2.2 t = l ^ 1 * (a.2.1 + 1 / ((T : ℝ) * (1 - m.cdarBeta)) * ∑ t, a.2.2 t)
      rw [← Finset.mul_sum]
      ring
  | edar =>
    revert h
    revert a
    rintro (a : (Fin (T + 1) → ℝ) × ℝ × ℝ × (Fin T → ℝ)) ⟨h0, h1, h2, h3⟩
    refine ⟨(fun t => l * a.1 t, l * a.2.1, l * a.2.2.1, fun t => l * a.2.2.2 t),
      ⟨drawdown_scaled _ l hl _ _ _ _ h0, mul_nonneg hl.le h1, ?_, fun t => ?_⟩, ?_⟩
    · have := le_of_scaled l _ _ hl h2
      change (∑ t, l * a.2.2.2 t) * m.scale ≤ l * a.2.2.1 * m.scale
      rw [← Finset.mul_sum]
      linarith
    · have := expCone_scaled l hl _ _ _ (h3 t)
      change ExpCone (l * a.1 t.succ * m.scale - l * a.2.1 * m.scale) (l * a.2.2.1 * m.scale) (l * a.2.2.2 t * m.scale)
      convert this using 1 <;> ring
    · change l * a.2.1 + l * a.2.2.1 * _ = l ^ 1 * (a.2.1 + a.2.2.1 * _)
      ring
  | ulcerIndex =>
    revert h
    revert a
    intro (v : Fin (T + 1) → ℝ) h
    refine ⟨fun t => l * v t, drawdown_scaled _ l hl _ _ _ _ h, ?_⟩
    change Real.sqrt (∑ t : Fin T, (l * v t.succ) ^ 2) / Real.sqrt (T : ℝ) = l ^ 1 * (Real.sqrt (∑ t : Fin T, v t.succ ^ 2) / Real.sqrt (T : ℝ))
    rw [sqrt_scaled l hl]
    ring
  | giniMeanDifference =>
    revert h
    revert a
    rintro (a : (Fin T → ℝ) × (Fin T → ℝ) × (Fin T → ℝ)) ⟨h1, h2⟩
    refine ⟨(fun t => l * a.1 t, fun t => l * a.2.1 t, fun t => l * a.2.2 t), ⟨fun t => ?_, fun i j => ?_⟩, ?_⟩
    · have := congrArg (l * ·) (h1 t)
      rw [ptf_scaled, cost_scaled m.data l hl, fee_scaled]
      change _ = l * a.2.2 t * m.scale
      linarith
    · have := le_of_scaled l _ _ hl (h2 i j)
      change l * a.2.2 i * _ ≤ l * a.1 j + l * a.2.1 i
      linarith
    · change 2 * ∑ t, (l * a.1 t + l * a.2.1 t) = l ^ 1 * (2 * ∑ t, (a.1 t + a.2.1 t))
      simp only [← mul_add]
      rw [← Finset.mul_sum]
      ring

end

end Skfolio.Convex
