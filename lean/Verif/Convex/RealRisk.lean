import Verif.Convex.RiskTheorems
import Mathlib.Analysis.SpecialFunctions.Log.Basic
import Mathlib.Analysis.SpecialFunctions.Exp
import Mathlib.Tactic.NormNum

/-! C17 over the reals: standard deviation, variance, semi-deviation, ulcer index, EVaR and EDaR; and the cases in which the program and the measure differ. -/
set_option autoImplicit false

namespace Skfolio.Convex

open Skfolio.Measures

section
variable {n T : Nat}

/-- `_standard_deviation_risk`, _base.py L1599-1628. `z` is `prior_model.cholesky` or the Cholesky factor of the covariance; `SOC(t, x)` is `‖x‖₂ ≤ t`. -/
noncomputable def standardDeviationRisk {m : Nat} (z : Fin n → Fin m → ℝ) (w : Fin n → ℝ) (s : ℝ) : Program ℝ where
  Aux := ℝ
  feasible := fun v => 0 ≤ v ∧ Real.sqrt (∑ j, ((∑ i, z i j * w i) * s) ^ 2) ≤ v * s
  risk := fun v => v

/-- `_variance_risk`, L1630-1648. -/
noncomputable def varianceRisk {m : Nat} (z : Fin n → Fin m → ℝ) (w : Fin n → ℝ) (s : ℝ) : Program ℝ where
  Aux := ℝ
  feasible := (standardDeviationRisk z w s).feasible
  risk := fun v => (standardDeviationRisk z w s).risk v ^ 2

/-- `_semi_deviation_risk`, L1737-1772. -/
noncomputable def semiDeviationRisk (d : Data ℝ n T) (w : Fin n → ℝ) (m : Mar ℝ n) (s : ℝ) : Program ℝ where
  Aux := Fin T → ℝ
  feasible := fun v => (∀ t, 0 ≤ v t) ∧ ∀ t, ptfMar d w m t * s ≥ -v t * s
  risk := fun v => Real.sqrt (∑ t, v t ^ 2) / Real.sqrt ((T : ℝ) - 1)

/-- `_ulcer_index_risk`, L2051-2079. -/
noncomputable def ulcerIndexRisk (d : Data ℝ n T) (w : Fin n → ℝ) (k s : ℝ) : Program ℝ where
  Aux := Fin (T + 1) → ℝ
  feasible := drawdownFeasible d w k s
  risk := fun v => Real.sqrt (∑ t : Fin T, v t.succ ^ 2) / Real.sqrt (T : ℝ)

/-- The exponential cone of CVXPY: the closure of `y exp(x/y) ≤ z`, `y > 0`. -/
def ExpCone (x y z : ℝ) : Prop := (0 < y ∧ y * Real.exp (x / y) ≤ z) ∨ (y = 0 ∧ x ≤ 0 ∧ 0 ≤ z)

/-- `_evar_risk`, L1862-1917: the variables are `x`, `y`, `z`. Transaction costs are left out of the cone constraint (L1888-1896). -/
noncomputable def evarRisk (d : Data ℝ n T) (w : Fin n → ℝ) (s beta : ℝ) : Program ℝ where
  Aux := ℝ × ℝ × (Fin T → ℝ)
  feasible := fun a => 0 ≤ a.2.1 ∧ (∑ t, a.2.2 t) * s ≤ a.2.1 * s ∧
    ∀ t, ExpCone (-ptfReturns d w t * s + managementFee d w * s - a.1 * s) (a.2.1 * s) (a.2.2 t * s)
  risk := fun a => a.1 + a.2.1 * Real.log (1 / ((T : ℝ) * (1 - beta)))

/-- `_edar_risk`, L2010-2049: the variables are `v` of the drawdown, `x`, `y`, `z`. -/
noncomputable def edarRisk (d : Data ℝ n T) (w : Fin n → ℝ) (k s beta : ℝ) : Program ℝ where
  Aux := (Fin (T + 1) → ℝ) × ℝ × ℝ × (Fin T → ℝ)
  feasible := fun a => drawdownFeasible d w k s a.1 ∧ 0 ≤ a.2.2.1 ∧ (∑ t, a.2.2.2 t) * s ≤ a.2.2.1 * s ∧
    ∀ t : Fin T, ExpCone (a.1 t.succ * s - a.2.1 * s) (a.2.2.1 * s) (a.2.2.2 t * s)
  risk := fun a => a.2.1 + a.2.2.1 * Real.log (1 / ((T : ℝ) * (1 - beta)))

/-! ### specification -/

/-- Two families of numbers have the same lower bounds, hence the same infimum. -/
def SameInfimum {A B : Type} (f : A → ℝ) (F : A → Prop) (g : B → ℝ) (G : B → Prop) : Prop :=
  ∀ b, (∀ x, F x → b ≤ f x) ↔ ∀ y, G y → b ≤ g y

/-- Sample covariance of two assets, `ddof = 1`. -/
noncomputable def sampleCovariance (d : Data ℝ n T) (i j : Fin n) : ℝ :=
  (∑ t, (d.returns t i - (∑ u, d.returns u i) / (T : ℝ)) * (d.returns t j - (∑ u, d.returns u j) / (T : ℝ))) / ((T : ℝ) - 1)

/-! ### theorems -/

theorem std_feasible {m : Nat} (z : Fin n → Fin m → ℝ) (w : Fin n → ℝ) (s : ℝ) (hs : 0 < s) (v : ℝ) :
    (standardDeviationRisk z w s).feasible v ↔ Real.sqrt (∑ j, (∑ i, z i j * w i) ^ 2) ≤ v := by
  have h : Real.sqrt (∑ j, ((∑ i, z i j * w i) * s) ^ 2) = Real.sqrt (∑ j, (∑ i, z i j * w i) ^ 2) * s := by
    simp only [mul_pow]
    rw [← Finset.sum_mul, Real.sqrt_mul (Finset.sum_nonneg fun j _ => sq_nonneg _), Real.sqrt_sq hs.le]
  simp only [standardDeviationRisk]
  rw [h, mul_le_mul_iff_left₀ hs]
  exact ⟨fun h => h.2, fun h => ⟨(Real.sqrt_nonneg _).trans h, h⟩⟩

theorem quadratic_eq {m : Nat} (z : Fin n → Fin m → ℝ) (S : Fin n → Fin n → ℝ) (hz : ∀ i j, ∑ l, z i l * z j l = S i j) (w : Fin n → ℝ) :
    ∑ l, (∑ i, z i l * w i) ^ 2 = ∑ i, ∑ j, w i * S i j * w j := by
  have h1 : ∀ l, (∑ i, z i l * w i) ^ 2 = ∑ i, ∑ j, w i * (z i l * z j l) * w j := by
    intro l
    rw [sq, Finset.sum_mul_sum]
    refine Finset.sum_congr rfl fun i _ => Finset.sum_congr rfl fun j _ => ?_
    ring
  simp only [h1]
  rw [Finset.sum_comm]
  refine Finset.sum_congr rfl fun i _ => ?_
  rw [Finset.sum_comm]
  refine Finset.sum_congr rfl fun j _ => ?_
  rw [← hz, Finset.mul_sum, Finset.sum_mul]

/-- **C17.** The second-order cone program computes `sqrt(wᵀ Σ w)` for every factor `z zᵀ = Σ` of the covariance. -/
theorem C17_standard_deviation {m : Nat} (z : Fin n → Fin m → ℝ) (S : Fin n → Fin n → ℝ) (hz : ∀ i j, ∑ l, z i l * z j l = S i j)
    (w : Fin n → ℝ) (s : ℝ) (hs : 0 < s) : IsOptimalValue (standardDeviationRisk z w s) (Real.sqrt (∑ i, ∑ j, w i * S i j * w j)) := by
  rw [← quadratic_eq z S hz]
  constructor
  · exact ⟨_, (std_feasible z w s hs _).2 (le_refl _), rfl⟩
  · intro v hv
    exact (std_feasible z w s hs v).1 hv

/-- **C17.** The variance program computes `wᵀ Σ w`. -/
theorem C17_variance {m : Nat} (z : Fin n → Fin m → ℝ) (S : Fin n → Fin n → ℝ) (hz : ∀ i j, ∑ l, z i l * z j l = S i j)
    (w : Fin n → ℝ) (s : ℝ) (hs : 0 < s) : IsOptimalValue (varianceRisk z w s) (∑ i, ∑ j, w i * S i j * w j) := by
  have h0 : 0 ≤ ∑ i, ∑ j, w i * S i j * w j := by
    rw [← quadratic_eq z S hz]
    exact Finset.sum_nonneg fun j _ => sq_nonneg _
  obtain ⟨⟨v, hv, hv'⟩, hmin⟩ := C17_standard_deviation z S hz w s hs
  constructor
  · refine ⟨v, hv, ?_⟩
    change (standardDeviationRisk z w s).risk v ^ 2 = _
    rw [hv', Real.sq_sqrt h0]
  · intro v hv
    have := hmin v hv
    change _ ≤ (standardDeviationRisk z w s).risk v ^ 2
    rw [← Real.sq_sqrt h0]
    exact pow_le_pow_left₀ (Real.sqrt_nonneg _) this 2

/-- **C17.** If the covariance is the sample covariance, `wᵀ Σ w` is the variance of the portfolio's net returns: the program and the measure agree. -/
theorem C17_variance_measure (d : Data ℝ n T) (hT : 0 < T) (w : Fin n → ℝ) (k : ℝ) :
    ∑ i, ∑ j, w i * sampleCovariance d i j * w j = variance (netReturns d w k) := by
  have hdev : ∀ t, netReturn d w k t - mean (netReturns d w k) = ∑ i, w i * (d.returns t i - (∑ u, d.returns u i) / (T : ℝ)) := by
    intro t
    have := mean_net { d with mu := fun i => (∑ u, d.returns u i) / (T : ℝ) } w k hT (fun i => rfl) t
    change _ = netReturn d w k t - mean (netReturns d w k) at this
    rw [← this, ← Finset.sum_sub_distrib]
    refine Finset.sum_congr rfl fun i _ => ?_
    simp only
    ring
  unfold variance
  rw [netReturns, sum_ofFn_map, List.length_ofFn]
  rw [netReturns] at hdev
  simp only [hdev, sq, Finset.sum_mul_sum]
  symm
  rw [Finset.sum_comm, Finset.sum_div]
  refine Finset.sum_congr rfl fun i _ => ?_
  rw [Finset.sum_comm, Finset.sum_div]
  refine Finset.sum_congr rfl fun j _ => ?_
  symm
  unfold sampleCovariance
  rw [mul_div_assoc', div_mul_eq_mul_div, Finset.mul_sum, Finset.sum_mul]
  congr 1
  refine Finset.sum_congr rfl fun t _ => ?_
  ring

/-- **C17.** Semi-deviation. -/
theorem C17_semi_deviation (d : Data ℝ n T) (w : Fin n → ℝ) (k s : ℝ) (hs : 0 < s) (hT : 2 ≤ T)
    (hmu : ∀ i, d.mu i = (∑ t, d.returns t i) / (T : ℝ)) :
    IsOptimalValue (semiDeviationRisk d w .default s) (Real.sqrt (semiVariance (netReturns d w k) none)) := by
  obtain ⟨⟨v, hv, hv'⟩, hmin⟩ := C17_semi_variance d w k s hs hT hmu
  have hr : ∀ v : Fin T → ℝ, (semiDeviationRisk d w .default s).risk v = Real.sqrt ((semiVarianceRisk d w .default s).risk v) := by
    intro v
    simp only [semiDeviationRisk, semiVarianceRisk]
    rw [Real.sqrt_div (Finset.sum_nonneg fun t _ => sq_nonneg _)]
  refine ⟨⟨v, hv, ?_⟩, fun v hv => ?_⟩
  · rw [← hv']
    exact hr v
  · exact (Real.sqrt_le_sqrt (hmin v hv)).trans_eq (hr v).symm

/-- **C17.** Ulcer index (from the initial wealth). -/
theorem C17_ulcer_index (d : Data ℝ n T) (w : Fin n → ℝ) (k s : ℝ) (hs : 0 < s) :
    IsOptimalValue (ulcerIndexRisk d w k s) (ulcerIndex (drawdownsFromStart (netReturns d w k))) := by
  obtain ⟨⟨v, hv, hv'⟩, hmin⟩ := C17_ulcer_squared d w k s hs
  have hr : ∀ v : Fin (T + 1) → ℝ, (ulcerIndexRisk d w k s).risk v = Real.sqrt ((ulcerSquaredRisk d w k s).risk v) := by
    intro v
    simp only [ulcerIndexRisk, ulcerSquaredRisk]
    rw [Real.sqrt_div (Finset.sum_nonneg fun t _ => sq_nonneg _)]
  refine ⟨⟨v, hv, ?_⟩, fun v hv => ?_⟩
  · rw [ulcerIndex, ← hv']
    exact hr v
  · exact (Real.sqrt_le_sqrt (hmin v hv)).trans_eq (hr v).symm

/-! ### entropic measures -/

theorem expCone_scale (x y z s : ℝ) (hs : 0 < s) : ExpCone (x * s) (y * s) (z * s) ↔ ExpCone x y z := by
  unfold ExpCone
  refine or_congr ?_ ?_
  · refine and_congr (mul_pos_iff_of_pos_right hs) ?_
    rw [mul_div_mul_right _ _ hs.ne', mul_right_comm, mul_le_mul_iff_left₀ hs]
  · refine and_congr ?_ (and_congr ?_ (mul_nonneg_iff_of_pos_right hs))
    · simp [hs.ne']
    · constructor
      · intro h
        by_contra h'
        exact absurd h (not_le.2 (mul_pos (not_le.1 h') hs))
      · intro h
        exact mul_nonpos_of_nonpos_of_nonneg h hs.le

/-- The entropic risk of losses `L` at risk aversion `θ`, written with sums. -/
theorem entropic_ofFn (L : Fin T → ℝ) (hT : 0 < T) (theta beta : ℝ) (h1 : beta < 1) :
    entropicRiskMeasure (List.ofFn fun t => -L t) theta beta =
      theta * Real.log (∑ t, Real.exp (L t / theta)) + theta * Real.log (1 / ((T : ℝ) * (1 - beta))) := by
  have hTR : (0 : ℝ) < (T : ℝ) := by exact_mod_cast hT
  have hS : 0 < ∑ t, Real.exp (L t / theta) := by
    have : Nonempty (Fin T) := ⟨⟨0, hT⟩⟩
    exact Finset.sum_pos (fun t _ => Real.exp_pos _) Finset.univ_nonempty
  unfold entropicRiskMeasure mean
  rw [sum_ofFn_map, List.length_map, List.length_ofFn, ← mul_add, ← Real.log_mul hS.ne' (by
    have : (0 : ℝ) < 1 - beta := by linarith
    positivity)]
  simp only [neg_neg]
  congr 2
  rw [div_div, mul_one_div]

/-- The exponential cone program over `x`, `y`, `z` has the same infimum as the entropic risk over positive risk aversions. -/
theorem evar_core (L : Fin T → ℝ) (hT : 0 < T) (beta : ℝ) (h0 : 0 ≤ beta) (h1 : beta < 1) (b : ℝ) :
    (∀ (x y : ℝ) (z : Fin T → ℝ), 0 ≤ y → ∑ t, z t ≤ y → (∀ t, ExpCone (L t - x) y (z t)) →
      b ≤ x + y * Real.log (1 / ((T : ℝ) * (1 - beta)))) ↔
    ∀ theta, 0 < theta → b ≤ entropicRiskMeasure (List.ofFn fun t => -L t) theta beta := by
  have hTR : (0 : ℝ) < (T : ℝ) := by exact_mod_cast hT
  have hne : Nonempty (Fin T) := ⟨⟨0, hT⟩⟩
  have hS : ∀ theta : ℝ, 0 < ∑ t, Real.exp (L t / theta) := fun theta =>
    Finset.sum_pos (fun t _ => Real.exp_pos _) Finset.univ_nonempty
  constructor
  · intro h theta ht
    rw [entropic_ofFn L hT theta beta h1]
    have hx := h (theta * Real.log (∑ t, Real.exp (L t / theta))) theta
      (fun t => theta * Real.exp ((L t - theta * Real.log (∑ t, Real.exp (L t / theta))) / theta)) ht.le ?_ fun t => Or.inl ⟨ht, le_refl _⟩
    · exact hx
    · rw [← Finset.mul_sum]
      have : ∑ t, Real.exp ((L t - theta * Real.log (∑ t, Real.exp (L t / theta))) / theta) = 1 := by
        have hh : ∀ t, Real.exp ((L t - theta * Real.log (∑ t, Real.exp (L t / theta))) / theta) =
            Real.exp (L t / theta) / ∑ t, Real.exp (L t / theta) := by
          intro t
          rw [sub_div, mul_div_cancel_left₀ _ ht.ne', Real.exp_sub, Real.exp_log (hS theta)]
        simp only [hh]
        rw [← Finset.sum_div, div_self (hS theta).ne']
      rw [this, mul_one]
  · intro h x y z hy hz hc
    rcases hy.eq_or_lt with rfl | hy
    · -- `y = 0`: the risk is at least the worst loss, the limit of the entropic risk
      have hL : ∀ t, L t ≤ x := by
        intro t
        rcases hc t with ⟨h', _⟩ | ⟨_, h', _⟩
        · exact absurd h' (lt_irrefl _)
        · linarith
      rw [zero_mul, add_zero]
      refine le_of_forall_pos_le_add fun e he => ?_
      have hlog : 0 ≤ Real.log (1 / (1 - beta)) := Real.log_nonneg (by rw [le_div_iff₀ (by linarith)]; linarith)
      have hth : 0 < e / (Real.log (1 / (1 - beta)) + 1) := by positivity
      refine (h _ hth).trans ?_
      set th := e / (Real.log (1 / (1 - beta)) + 1) with hthd
      rw [entropic_ofFn L hT th beta h1, ← mul_add, ← Real.log_mul (hS th).ne' (by
        have : (0 : ℝ) < 1 - beta := by linarith
        positivity)]
      have hle : (∑ t, Real.exp (L t / th)) * (1 / ((T : ℝ) * (1 - beta))) ≤ Real.exp (x / th) * (1 / (1 - beta)) := by
        have h2 : ∑ t, Real.exp (L t / th) ≤ (T : ℝ) * Real.exp (x / th) := by
          have : ∑ t : Fin T, Real.exp (L t / th) ≤ ∑ _t : Fin T, Real.exp (x / th) :=
            Finset.sum_le_sum fun t _ => Real.exp_le_exp.2 (div_le_div_of_nonneg_right (hL t) hth.le)
          simpa using this
        have hb : (0 : ℝ) < 1 - beta := by linarith
        calc (∑ t, Real.exp (L t / th)) * (1 / ((T : ℝ) * (1 - beta))) ≤ ((T : ℝ) * Real.exp (x / th)) * (1 / ((T : ℝ) * (1 - beta))) := by
              gcongr
          _ = _ := by field_simp
      have hb : (0 : ℝ) < 1 - beta := by linarith
      have hpos : 0 < (∑ t, Real.exp (L t / th)) * (1 / ((T : ℝ) * (1 - beta))) := mul_pos (hS th) (by positivity)
      have hlogle := Real.log_le_log hpos hle
      rw [Real.log_mul (Real.exp_pos _).ne' (by positivity), Real.log_exp] at hlogle
      calc th * Real.log ((∑ t, Real.exp (L t / th)) * (1 / ((T : ℝ) * (1 - beta))))
          ≤ th * (x / th + Real.log (1 / (1 - beta))) := by gcongr
        _ = x + th * Real.log (1 / (1 - beta)) := by field_simp
        _ ≤ x + e := by
          have : th * (Real.log (1 / (1 - beta)) + 1) = e := by
            rw [hthd]
            field_simp
          nlinarith
    · refine (h y hy).trans ?_
      rw [entropic_ofFn L hT y beta h1]
      have hle : ∑ t, Real.exp (L t / y) ≤ Real.exp (x / y) := by
        have h2 : ∀ t, y * Real.exp ((L t - x) / y) ≤ z t := by
          intro t
          rcases hc t with ⟨_, h'⟩ | ⟨h', _⟩
          · exact h'
          · exact absurd h' hy.ne'
        have h3 : ∑ t, y * Real.exp ((L t - x) / y) ≤ y := (Finset.sum_le_sum fun t _ => h2 t).trans hz
        rw [← Finset.mul_sum] at h3
        have h4 : ∑ t, Real.exp ((L t - x) / y) ≤ 1 := by
          by_contra hcon
          have := mul_lt_mul_of_pos_left (not_le.1 hcon) hy
          linarith
        have h5 : ∑ t, Real.exp ((L t - x) / y) = (∑ t, Real.exp (L t / y)) / Real.exp (x / y) := by
          rw [Finset.sum_div]
          refine Finset.sum_congr rfl fun t _ => ?_
          rw [sub_div, Real.exp_sub]
        rw [h5, div_le_one (Real.exp_pos _)] at h4
        exact h4
      have := Real.log_le_log (hS y) hle
      rw [Real.log_exp] at this
      have h6 : y * Real.log (∑ t, Real.exp (L t / y)) ≤ x := by
        calc y * Real.log (∑ t, Real.exp (L t / y)) ≤ y * (x / y) := by gcongr
          _ = x := by field_simp
      linarith

/-- **C17.** EVaR: the program has the same infimum as the entropic risk measures, over all positive risk aversions, of the returns net of
management fees (transaction costs are left out, as the code's warning says). -/
theorem C17_evar (d : Data ℝ n T) (w : Fin n → ℝ) (k s : ℝ) (hs : 0 < s) (hT : 0 < T) (beta : ℝ) (h0 : 0 ≤ beta) (h1 : beta < 1)
    (htc : ∀ i, d.transactionCosts i = 0) :
    SameInfimum (evarRisk d w s beta).risk (evarRisk d w s beta).feasible
      (fun theta => entropicRiskMeasure (netReturns d w k) theta beta) (fun theta => 0 < theta) := by
  intro b
  have hnet : netReturns d w k = List.ofFn fun t => -(-ptfReturns d w t + managementFee d w) := by
    unfold netReturns
    congr 1
    funext t
    rw [← net_eq]
    have : transactionCost d w k = 0 := by simp [transactionCost, htc]
    rw [this]
    ring
  rw [hnet, ← evar_core _ hT beta h0 h1]
  have hf : ∀ x y z, (evarRisk d w s beta).feasible (x, y, z) ↔
      0 ≤ y ∧ ∑ t, z t ≤ y ∧ ∀ t, ExpCone (-ptfReturns d w t + managementFee d w - x) y (z t) := by
    intro x y z
    simp only [evarRisk]
    rw [mul_le_mul_iff_left₀ hs]
    refine and_congr_right fun _ => and_congr_right fun _ => forall_congr' fun t => ?_
    rw [← add_mul, ← sub_mul, expCone_scale _ _ _ _ hs]
  constructor
  · intro h x y z h2 h3 h4
    exact h (x, y, z) ((hf x y z).2 ⟨h2, h3, h4⟩)
  · rintro h ⟨x, y, z⟩ ha
    obtain ⟨h2, h3, h4⟩ := (hf x y z).1 ha
    exact h x y z h2 h3 h4

/-- **C17.** EDaR: same infimum as the entropic risk measures of the drawdowns from the initial wealth. -/
theorem C17_edar (d : Data ℝ n T) (w : Fin n → ℝ) (k s : ℝ) (hs : 0 < s) (hT : 0 < T) (beta : ℝ) (h0 : 0 ≤ beta) (h1 : beta < 1) :
    SameInfimum (edarRisk d w k s beta).risk (edarRisk d w k s beta).feasible
      (fun theta => entropicRiskMeasure (drawdownsFromStart (netReturns d w k)) theta beta) (fun theta => 0 < theta) := by
  intro b
  have hl : drawdownsFromStart (netReturns d w k) = List.ofFn fun t : Fin T => -leastV (netReturns d w k) (t + 1) := by
    conv_lhs => rw [netReturns, drawdownsFromStart_ofFn]
    rfl
  rw [hl, ← evar_core _ hT beta h0 h1]
  have hf : ∀ v x y z, (edarRisk d w k s beta).feasible (v, x, y, z) ↔
      drawdownFeasible d w k s v ∧ 0 ≤ y ∧ ∑ t, z t ≤ y ∧ ∀ t : Fin T, ExpCone (v t.succ - x) y (z t) := by
    intro v x y z
    simp only [edarRisk]
    rw [mul_le_mul_iff_left₀ hs]
    refine and_congr_right fun _ => and_congr_right fun _ => and_congr_right fun _ => forall_congr' fun t => ?_
    rw [← sub_mul, expCone_scale _ _ _ _ hs]
  constructor
  · intro h x y z h2 h3 h4
    exact h (fun t => leastV (netReturns d w k) t, x, y, z) ((hf _ x y z).2 ⟨drawdown_least d w k s hs, h2, h3, h4⟩)
  · rintro h ⟨v, x, y, z⟩ ha
    obtain ⟨hv, h2, h3, h4⟩ := (hf v x y z).1 ha
    refine h x y z h2 h3 fun t => ?_
    have hle := drawdown_ge d w k s hs v hv t.succ
    rw [Fin.val_succ] at hle
    rcases h4 t with ⟨hy, hz⟩ | ⟨hy, hx, hz⟩
    · refine Or.inl ⟨hy, le_trans ?_ hz⟩
      gcongr
    · exact Or.inr ⟨hy, by linarith, hz⟩

/-! ### where the program and the measure differ -/

/-- One asset, two observations, invested fully. -/
def twoReturns (a b rf tc : ℚ) : Data ℚ 1 2 := ⟨fun t _ => if t = 0 then a else b, fun _ => (a + b) / 2, fun _ => 0, fun _ => tc, fun _ => 0, rf⟩

/-- Finding: with an explicit minimum acceptable return the mean absolute deviation program is not the measure (here 0 against 1/2). -/
theorem C17_mad_explicit_target_differs :
    IsOptimalValue (madRisk (twoReturns 0 1 0 0) (fun _ => 1) (.scalar 0) 1) 0 ∧ meanAbsoluteDeviation [(0 : ℚ), 1] (some 0) = 1 / 2 := by
  refine ⟨?_, by decide +kernel⟩
  have := C17_mean_absolute_deviation_gross (twoReturns 0 1 0 0) (fun _ => 1) (.scalar 0) 1 one_pos
  convert this using 1
  decide +kernel

/-- Finding: with a risk-free rate the first lower partial moment program is not the measure (here 1 against 1/4). -/
theorem C17_flpm_risk_free_differs :
    IsOptimalValue (flpmRisk (twoReturns 0 1 1 0) (fun _ => 1) .default 1 1) 1 ∧ firstLowerPartialMoment [(0 : ℚ), 1] none = 1 / 4 := by
  refine ⟨?_, by decide +kernel⟩
  have := C17_first_lower_partial_moment_gross (twoReturns 0 1 1 0) (fun _ => 1) .default 1 1 one_pos
  convert this using 1
  decide +kernel

/-- Finding: with an explicit minimum acceptable return the lower partial moments of the program ignore transaction costs (here 0 against the
measure 1/2 of the net returns). -/
theorem C17_flpm_ignores_costs :
    IsOptimalValue (flpmRisk (twoReturns 0 1 0 1) (fun _ => 1) (.scalar 0) 1 1) 0 ∧
      firstLowerPartialMoment (netReturns (twoReturns 0 1 0 1) (fun _ => 1) 1) (some 0) = 1 / 2 := by
  refine ⟨?_, by decide +kernel⟩
  have := C17_first_lower_partial_moment_gross (twoReturns 0 1 0 1) (fun _ => 1) (.scalar 0) 1 1 one_pos
  convert this using 1
  decide +kernel

/-! A non-trivial case: two assets, three observations, costs and fees; the hypothesis on `mu` holds. -/
def sample : Data ℚ 2 3 :=
  ⟨fun t i => if i = 0 then (if t = 0 then 1 / 10 else if t = 1 then -1 / 5 else 1 / 20) else if t = 0 then 0 else 1 / 50,
   fun i => if i = 0 then -1 / 60 else 1 / 75, fun _ => 1 / 2, fun i => if i = 0 then 1 / 100 else 0, fun _ => 1 / 1000, 0⟩

example : ∀ i, sample.mu i = (∑ t, sample.returns t i) / ((3 : Nat) : ℚ) := by decide +kernel
example : meanAbsoluteDeviation (netReturns sample (fun i => if i = 0 then 1 / 4 else 3 / 4) 1) none = 49 / 1800 := by decide +kernel
example : IsOptimalValue (madRisk sample (fun i => if i = 0 then 1 / 4 else 3 / 4) .default 100) (49 / 1800) := by
  have := C17_mean_absolute_deviation sample (fun i => if i = 0 then 1 / 4 else 3 / 4) 1 100 (by norm_num) (by norm_num) (by decide +kernel)
  convert this using 1
  decide +kernel
example : drawdownsFromStart (netReturns sample (fun _ => 1 / 2) 1) = [0, -91 / 1000, -57 / 1000] := by decide +kernel
example : giniMeanDifference (netReturns sample (fun _ => 1 / 2) 1) = 7 / 75 := by decide +kernel

end

end Skfolio.Convex
