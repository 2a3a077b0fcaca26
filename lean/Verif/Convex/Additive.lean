import Verif.Convex.MeanRiskTheorems
import Mathlib.Analysis.Convex.SpecificFunctions.Basic
import Mathlib.Algebra.BigOperators.Intervals

/-! Every risk program is subadditive in the weights (the variance and the semi-variance after taking square roots). -/
set_option autoImplicit false

namespace Skfolio.Convex

open Skfolio.Measures

section
variable {n T : Nat}

/-- The risk on the scale on which it is homogeneous of degree 1. -/
noncomputable def root (r : RiskMeasure) (x : ℝ) : ℝ := if degree r = 2 then Real.sqrt x else x

theorem ptf_add (d : Data ℝ n T) (w w' : Fin n → ℝ) (t : Fin T) : ptfReturns d (w + w') t = ptfReturns d w t + ptfReturns d w' t := by
  simp only [ptfReturns, Pi.add_apply, mul_add, Finset.sum_add_distrib]

theorem mar_add (d : Data ℝ n T) (m : Mar ℝ n) (w w' : Fin n → ℝ) (t : Fin T) : ptfMar d (w + w') m t = ptfMar d w m t + ptfMar d w' m t := by
  simp only [ptfMar, Pi.add_apply, mul_add, Finset.sum_add_distrib]

theorem fee_add (d : Data ℝ n T) (w w' : Fin n → ℝ) : managementFee d (w + w') = managementFee d w + managementFee d w' := by
  simp only [managementFee, Pi.add_apply, mul_add, Finset.sum_add_distrib]

theorem cost_add (d : Data ℝ n T) (w w' : Fin n → ℝ) (k k' : ℝ) : transactionCost d (w + w') (k + k') ≤ transactionCost d w k + transactionCost d w' k' := by
  simp only [transactionCost, Pi.add_apply]
  rw [← Finset.sum_add_distrib]
  refine Finset.sum_le_sum fun i _ => ?_
  rw [show d.transactionCosts i * (d.previousWeights i * (k + k') - (w i + w' i)) = d.transactionCosts i * (d.previousWeights i * k - w i) + d.transactionCosts i * (d.previousWeights i * k' - w' i) by ring]
  exact abs_add_le _ _

theorem drawdown_add (d : Data ℝ n T) (w w' : Fin n → ℝ) (k k' s : ℝ) (hs : 0 < s) (v v' : Fin (T + 1) → ℝ) (h : drawdownFeasible d w k s v) (h' : drawdownFeasible d w' k' s v') :
    drawdownFeasible d (w + w') (k + k') s (v + v') := by
  obtain ⟨h1, h2, h3⟩ := h
  obtain ⟨h1', h2', h3'⟩ := h'
  refine ⟨fun t => ?_, fun t => ?_, ?_⟩
  · have := mul_le_mul_of_nonneg_right (cost_add d w w' k k') hs.le
    rw [ptf_add, fee_add]
    simp only [Pi.add_apply]
    linarith [h1 t, h1' t]
  · simp only [Pi.add_apply]
    linarith [h2 t, h2' t]
  · simp only [Pi.add_apply]
    linarith

theorem sqrt_add {m : Nat} (f g : Fin m → ℝ) : Real.sqrt (∑ t, (f t + g t) ^ 2) ≤ Real.sqrt (∑ t, f t ^ 2) + Real.sqrt (∑ t, g t ^ 2) := by
  have hf : 0 ≤ ∑ t, f t ^ 2 := Finset.sum_nonneg fun t _ => sq_nonneg _
  have hg : 0 ≤ ∑ t, g t ^ 2 := Finset.sum_nonneg fun t _ => sq_nonneg _
  rw [Real.sqrt_le_left (by positivity), add_sq, Real.sq_sqrt hf, Real.sq_sqrt hg]
  have hcs : ∑ t, f t * g t ≤ Real.sqrt (∑ t, f t ^ 2) * Real.sqrt (∑ t, g t ^ 2) := by
    rw [← Real.sqrt_mul hf]
    exact Real.le_sqrt_of_sq_le (Finset.sum_mul_sq_le_sq_mul_sq _ _ _)
  have e : ∑ t, (f t + g t) ^ 2 = ∑ t, f t ^ 2 + 2 * ∑ t, f t * g t + ∑ t, g t ^ 2 := by
    rw [Finset.mul_sum, ← Finset.sum_add_distrib, ← Finset.sum_add_distrib]
    exact Finset.sum_congr rfl fun t _ => by ring
  rw [e]
  linarith

theorem expCone_add {x y z x' y' z' : ℝ} (h : ExpCone x y z) (h' : ExpCone x' y' z') : ExpCone (x + x') (y + y') (z + z') := by
  rcases h with ⟨hy, h⟩ | ⟨rfl, hx, hz⟩
  · left
    rcases h' with ⟨hy', h'⟩ | ⟨rfl, hx', hz'⟩
    · refine ⟨by linarith, ?_⟩
      have hsum : 0 < y + y' := by linarith
      have hc := convexOn_exp.2 (Set.mem_univ (x / y)) (Set.mem_univ (x' / y')) (div_nonneg hy.le hsum.le) (div_nonneg hy'.le hsum.le) (by field_simp)
      simp only [smul_eq_mul] at hc
      have e1 : y / (y + y') * (x / y) + y' / (y + y') * (x' / y') = (x + x') / (y + y') := by field_simp
      rw [e1] at hc
      have := mul_le_mul_of_nonneg_left hc hsum.le
      have e2 : (y + y') * (y / (y + y') * Real.exp (x / y) + y' / (y + y') * Real.exp (x' / y')) = y * Real.exp (x / y) + y' * Real.exp (x' / y') := by field_simp
      linarith
    · rw [add_zero]
      refine ⟨hy, ?_⟩
      have : Real.exp ((x + x') / y) ≤ Real.exp (x / y) := Real.exp_le_exp.2 (div_le_div_of_nonneg_right (by linarith) hy.le)
      have := mul_le_mul_of_nonneg_left this hy.le
      linarith
  · rcases h' with ⟨hy', h'⟩ | ⟨rfl, hx', hz'⟩
    · left
      rw [zero_add]
      refine ⟨hy', ?_⟩
      have : Real.exp ((x + x') / y') ≤ Real.exp (x' / y') := Real.exp_le_exp.2 (div_le_div_of_nonneg_right (by linarith) hy'.le)
      have := mul_le_mul_of_nonneg_left this hy'.le
      linarith
    · right
      exact ⟨by ring, by linarith, by linarith⟩

theorem owa_sum (T : Nat) : ∑ t : Fin T, (owaGmdWeight T (t : Nat) : ℝ) = 0 := by
  rw [Fin.sum_univ_eq_sum_range (fun i : Nat => (owaGmdWeight T i : ℝ)) T]
  simp only [owaGmdWeight]
  rw [← Finset.sum_div]
  have : ∀ m : Nat, ∑ i ∈ Finset.range m, (4 * ((i : ℝ) + 1) - 2 * ((T : ℝ) + 1)) = 2 * (m : ℝ) * ((m : ℝ) + 1) - 2 * m * ((T : ℝ) + 1) := by
    intro m
    induction m with
    | zero => simp
    | succ m ih => rw [Finset.sum_range_succ, ih]; push_cast; ring
  rw [this]
  simp

/-- Auxiliary values for two vectors of weights give auxiliary values for their sum, with a risk of at most the sum of the risks. -/
theorem program_add (m : MeanRisk n T) (hs : 0 < m.scale) (r : RiskMeasure) (w w' : Fin n → ℝ) (k k' : ℝ) (a : (riskProgram m r w k).Aux) (h : (riskProgram m r w k).feasible a)
    (a' : (riskProgram m r w' k').Aux) (h' : (riskProgram m r w' k').feasible a') :
    ∃ c : (riskProgram m r (w + w') (k + k')).Aux, (riskProgram m r (w + w') (k + k')).feasible c ∧
      root r ((riskProgram m r (w + w') (k + k')).risk c) ≤ root r ((riskProgram m r w k).risk a) + root r ((riskProgram m r w' k').risk a') := by
  have hmar : ∀ (v v' : Fin T → ℝ), ((∀ t, 0 ≤ v t) ∧ ∀ t, ptfMar m.data w m.minAcceptableReturn t * m.scale ≥ -v t * m.scale) →
      ((∀ t, 0 ≤ v' t) ∧ ∀ t, ptfMar m.data w' m.minAcceptableReturn t * m.scale ≥ -v' t * m.scale) →
      (∀ t, 0 ≤ v t + v' t) ∧ ∀ t, ptfMar m.data (w + w') m.minAcceptableReturn t * m.scale ≥ -(v t + v' t) * m.scale := by
    rintro v v' ⟨h1, h2⟩ ⟨h1', h2'⟩
    refine ⟨fun t => add_nonneg (h1 t) (h1' t), fun t => ?_⟩
    rw [mar_add]
    linarith [h2 t, h2' t]
  have hstd : ∀ v v' : ℝ, (0 ≤ v ∧ Real.sqrt (∑ j, ((∑ i, m.cholesky i j * w i) * m.scale) ^ 2) ≤ v * m.scale) →
      (0 ≤ v' ∧ Real.sqrt (∑ j, ((∑ i, m.cholesky i j * w' i) * m.scale) ^ 2) ≤ v' * m.scale) →
      0 ≤ v + v' ∧ Real.sqrt (∑ j, ((∑ i, m.cholesky i j * (w + w') i) * m.scale) ^ 2) ≤ (v + v') * m.scale := by
    rintro v v' ⟨h1, h2⟩ ⟨h1', h2'⟩
    refine ⟨add_nonneg h1 h1', ?_⟩
    have e : ∀ j, (∑ i, m.cholesky i j * (w + w') i) * m.scale = (∑ i, m.cholesky i j * w i) * m.scale + (∑ i, m.cholesky i j * w' i) * m.scale := by
      intro j
      simp only [Pi.add_apply, mul_add, Finset.sum_add_distrib, add_mul]
    simp only [e]
    refine (sqrt_add _ _).trans ?_
    linarith
  have hcost := mul_le_mul_of_nonneg_right (cost_add m.data w w' k k') hs.le
  cases r with
  | meanAbsoluteDeviation =>
    revert h h'
    revert a a'
    intro (v : Fin T → ℝ) (v' : Fin T → ℝ) h h'
    refine ⟨fun t => v t + v' t, hmar v v' h h', ?_⟩
    change 2 * (∑ t, (v t + v' t)) / (T : ℝ) ≤ 2 * (∑ t, v t) / (T : ℝ) + 2 * (∑ t, v' t) / (T : ℝ)
    rw [Finset.sum_add_distrib, mul_add, add_div]
  | firstLowerPartialMoment =>
    revert h h'
    revert a a'
    rintro (v : Fin T → ℝ) (v' : Fin T → ℝ) ⟨h1, h2⟩ ⟨h1', h2'⟩
    refine ⟨fun t => v t + v' t, ⟨fun t => add_nonneg (h1 t) (h1' t), fun t => ?_⟩, ?_⟩
    · rw [mar_add]
      linarith [h2 t, h2' t]
    · change (∑ t, (v t + v' t)) / (T : ℝ) ≤ (∑ t, v t) / (T : ℝ) + (∑ t, v' t) / (T : ℝ)
      rw [Finset.sum_add_distrib, add_div]
  | standardDeviation =>
    revert h h'
    revert a a'
    intro (v : ℝ) (v' : ℝ) h h'
    exact ⟨v + v', hstd v v' h h', le_refl (v + v')⟩
  | variance =>
    revert h h'
    revert a a'
    intro (v : ℝ) (v' : ℝ) h h'
    have H := hstd v v' h h'
    refine ⟨v + v', H, ?_⟩
    change Real.sqrt ((v + v') ^ 2) ≤ Real.sqrt (v ^ 2) + Real.sqrt (v' ^ 2)
    rw [Real.sqrt_sq H.1, Real.sqrt_sq h.1, Real.sqrt_sq h'.1]
  | semiVariance =>
    revert h h'
    revert a a'
    intro (v : Fin T → ℝ) (v' : Fin T → ℝ) h h'
    refine ⟨fun t => v t + v' t, hmar v v' h h', ?_⟩
    change Real.sqrt ((∑ t, (v t + v' t) ^ 2) / ((T : ℝ) - 1)) ≤ Real.sqrt ((∑ t, v t ^ 2) / ((T : ℝ) - 1)) + Real.sqrt ((∑ t, v' t ^ 2) / ((T : ℝ) - 1))
    rw [Real.sqrt_div (Finset.sum_nonneg fun t _ => sq_nonneg _), Real.sqrt_div (Finset.sum_nonneg fun t _ => sq_nonneg _), Real.sqrt_div (Finset.sum_nonneg fun t _ => sq_nonneg _), ← add_div]
    exact div_le_div_of_nonneg_right (sqrt_add _ _) (Real.sqrt_nonneg _)
  | semiDeviation =>
    revert h h'
    revert a a'
    intro (v : Fin T → ℝ) (v' : Fin T → ℝ) h h'
    refine ⟨fun t => v t + v' t, hmar v v' h h', ?_⟩
    change Real.sqrt (∑ t, (v t + v' t) ^ 2) / Real.sqrt ((T : ℝ) - 1) ≤ Real.sqrt (∑ t, v t ^ 2) / Real.sqrt ((T : ℝ) - 1) + Real.sqrt (∑ t, v' t ^ 2) / Real.sqrt ((T : ℝ) - 1)
    rw [← add_div]
    exact div_le_div_of_nonneg_right (sqrt_add _ _) (Real.sqrt_nonneg _)
  | worstRealization =>
    revert h h'
    revert a a'
    intro (v : ℝ) (v' : ℝ) h h'
    refine ⟨v + v', fun t => ?_, le_refl (v + v')⟩
    rw [ptf_add, fee_add]
    linarith [h t, h' t]
  | cvar =>
    revert h h'
    revert a a'
    rintro (a : ℝ × (Fin T → ℝ)) (a' : ℝ × (Fin T → ℝ)) ⟨h1, h2⟩ ⟨h1', h2'⟩
    refine ⟨(a.1 + a'.1, fun t => a.2 t + a'.2 t), ⟨fun t => add_nonneg (h1 t) (h1' t), fun t => ?_⟩, ?_⟩
    · rw [ptf_add, fee_add]
      change _ + (a.1 + a'.1) * m.scale + (a.2 t + a'.2 t) * m.scale ≥ 0
      linarith [h2 t, h2' t]
    · change a.1 + a'.1 + 1 / ((T : ℝ) * (1 - m.cvarBeta)) * ∑ t, (a.2 t + a'.2 t) ≤ a.1 + 1 / ((T : ℝ) * (1 - m.cvarBeta)) * ∑ t, a.2 t + (a'.1 + 1 / ((T : ℝ) * (1 - m.cvarBeta)) * ∑ t, a'.2 t)
      rw [Finset.sum_add_distrib]
      exact le_of_eq (by ring)
  | evar =>
    revert h h'
    revert a a'
    rintro (a : ℝ × ℝ × (Fin T → ℝ)) (a' : ℝ × ℝ × (Fin T → ℝ)) ⟨h1, h2, h3⟩ ⟨h1', h2', h3'⟩
    refine ⟨(a.1 + a'.1, a.2.1 + a'.2.1, fun t => a.2.2 t + a'.2.2 t), ⟨add_nonneg h1 h1', ?_, fun t => ?_⟩, ?_⟩
    · change (∑ t, (a.2.2 t + a'.2.2 t)) * m.scale ≤ (a.2.1 + a'.2.1) * m.scale
      rw [Finset.sum_add_distrib]
      linarith
    · have := expCone_add (h3 t) (h3' t)
      rw [ptf_add, fee_add]
      change ExpCone (_ - (a.1 + a'.1) * m.scale) ((a.2.1 + a'.2.1) * m.scale) ((a.2.2 t + a'.2.2 t) * m.scale)
      convert this using 1 <;> ring
    · change a.1 + a'.1 + (a.2.1 + a'.2.1) * _ ≤ a.1 + a.2.1 * _ + (a'.1 + a'.2.1 * _)
      exact le_of_eq (by ring)
  | maxDrawdown =>
    revert h h'
    revert a a'
    rintro (a : (Fin (T + 1) → ℝ) × ℝ) (a' : (Fin (T + 1) → ℝ) × ℝ) ⟨h1, h2⟩ ⟨h1', h2'⟩
    refine ⟨(a.1 + a'.1, a.2 + a'.2), ⟨drawdown_add _ _ _ _ _ _ hs _ _ h1 h1', fun t => ?_⟩, le_refl (a.2 + a'.2)⟩
    change (a.2 + a'.2) * m.scale ≥ (a.1 t.succ + a'.1 t.succ) * m.scale
    linarith [h2 t, h2' t]
  | averageDrawdown =>
    revert h h'
    revert a a'
    intro (v : Fin (T + 1) → ℝ) (v' : Fin (T + 1) → ℝ) h h'
    refine ⟨v + v', drawdown_add _ _ _ _ _ _ hs _ _ h h', ?_⟩
    change (∑ t : Fin T, (v t.succ + v' t.succ)) / (T : ℝ) ≤ (∑ t : Fin T, v t.succ) / (T : ℝ) + (∑ t : Fin T, v' t.succ) / (T : ℝ)
    rw [Finset.sum_add_distrib, add_div]
  | cdar =>
    revert h h'
    revert a a'
    rintro (a : (Fin (T + 1) → ℝ) × ℝ × (Fin T → ℝ)) (a' : (Fin (T + 1) → ℝ) × ℝ × (Fin T → ℝ)) ⟨h1, h2, h3⟩ ⟨h1', h2', h3'⟩
    refine ⟨(a.1 + a'.1, a.2.1 + a'.2.1, fun t => a.2.2 t + a'.2.2 t), ⟨drawdown_add _ _ _ _ _ _ hs _ _ h1 h1', fun t => add_nonneg (h2 t) (h2' t), fun t => ?_⟩, ?_⟩
    · change (a.2.2 t + a'.2.2 t) * m.scale ≥ (a.1 t.succ + a'.1 t.succ) * m.scale - (a.2.1 + a'.2.1) * m.scale
      linarith [h3 t, h3' t]
    · change a.2.1 + a'.2.1 + 1 / ((T : ℝ) * (1 - m.cdarBeta)) * ∑ t, (a.2.2 t + a'.2.2 t) ≤
        a.2.1 + 1 / ((T : ℝ) * (1 - m.cdarBeta)) * ∑ t, a.2.2 t + (a'.2.1 + 1 / ((T : ℝ) * (1 - m.cdarBeta)) * ∑ t, a'.2.2 t)
      rw [Finset.sum_add_distrib]
      exact le_of_eq (by ring)
  | edar =>
    revert h h'
    revert a a'
    rintro (a : (Fin (T + 1) → ℝ) × ℝ × ℝ × (Fin T → ℝ)) (a' : (Fin (T + 1) → ℝ) × ℝ × ℝ × (Fin T → ℝ)) ⟨h0, h1, h2, h3⟩ ⟨h0', h1', h2', h3'⟩
    refine ⟨(a.1 + a'.1, a.2.1 + a'.2.1, a.2.2.1 + a'.2.2.1, fun t => a.2.2.2 t + a'.2.2.2 t), ⟨drawdown_add _ _ _ _ _ _ hs _ _ h0 h0', add_nonneg h1 h1', ?_, fun t => ?_⟩, ?_⟩
    · change (∑ t, (a.2.2.2 t + a'.2.2.2 t)) * m.scale ≤ (a.2.2.1 + a'.2.2.1) * m.scale
      rw [Finset.sum_add_distrib]
      linarith
    · have := expCone_add (h3 t) (h3' t)
      change ExpCone ((a.1 t.succ + a'.1 t.succ) * m.scale - (a.2.1 + a'.2.1) * m.scale) ((a.2.2.1 + a'.2.2.1) * m.scale) ((a.2.2.2 t + a'.2.2.2 t) * m.scale)
      convert this using 1 <;> ring
    · change a.2.1 + a'.2.1 + (a.2.2.1 + a'.2.2.1) * _ ≤ a.2.1 + a.2.2.1 * _ + (a'.2.1 + a'.2.2.1 * _)
      exact le_of_eq (by ring)
  | ulcerIndex =>
    revert h h'
    revert a a'
    intro (v : Fin (T + 1) → ℝ) (v' : Fin (T + 1) → ℝ) h h'
    refine ⟨v + v', drawdown_add _ _ _ _ _ _ hs _ _ h h', ?_⟩
    change Real.sqrt (∑ t : Fin T, (v t.succ + v' t.succ) ^ 2) / Real.sqrt (T : ℝ) ≤ Real.sqrt (∑ t : Fin T, v t.succ ^ 2) / Real.sqrt (T : ℝ) + Real.sqrt (∑ t : Fin T, v' t.succ ^ 2) / Real.sqrt (T : ℝ)
    rw [← add_div]
    exact div_le_div_of_nonneg_right (sqrt_add _ _) (Real.sqrt_nonneg _)
  | giniMeanDifference =>
    revert h h'
    revert a a'
    rintro (a : (Fin T → ℝ) × (Fin T → ℝ) × (Fin T → ℝ)) (a' : (Fin T → ℝ) × (Fin T → ℝ) × (Fin T → ℝ)) ⟨h1, h2⟩ ⟨h1', h2'⟩
    obtain ⟨c, hc⟩ : ∃ c, c = transactionCost m.data w k + transactionCost m.data w' k' - transactionCost m.data (w + w') (k + k') := ⟨_, rfl⟩
    refine ⟨(fun t => a.1 t + a'.1 t + c * (owaGmdWeight T (t : Nat) / 2), fun t => a.2.1 t + a'.2.1 t, fun t => a.2.2 t + a'.2.2 t + c), ⟨fun t => ?_, fun i j => ?_⟩, ?_⟩
    · rw [ptf_add, fee_add]
      change _ = (a.2.2 t + a'.2.2 t + c) * m.scale
      rw [hc]
      linarith [h1 t, h1' t]
    · change (a.2.2 i + a'.2.2 i + c) * _ ≤ a.1 j + a'.1 j + c * _ + (a.2.1 i + a'.2.1 i)
      linarith [h2 i j, h2' i j]
    · change 2 * ∑ t : Fin T, (a.1 t + a'.1 t + c * (owaGmdWeight T (t : Nat) / 2) + (a.2.1 t + a'.2.1 t)) ≤ 2 * ∑ t, (a.1 t + a.2.1 t) + 2 * ∑ t, (a'.1 t + a'.2.1 t)
      have : ∑ t : Fin T, c * ((owaGmdWeight T (t : Nat) : ℝ) / 2) = 0 := by
        rw [← Finset.mul_sum, ← Finset.sum_div, owa_sum]
        simp
      simp only [Finset.sum_add_distrib, this]
      exact le_of_eq (by ring)

end

end Skfolio.Convex
