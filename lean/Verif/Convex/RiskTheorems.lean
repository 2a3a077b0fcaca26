import Verif.Convex.RiskSpec
import Verif.Measures.Theorems
import Mathlib.Data.Fin.Tuple.Sort
import Mathlib.Algebra.Order.BigOperators.Group.Finset
import Mathlib.Tactic.SplitIfs

/-! C17: the risk programs of the optimisers compute the measures of the portfolio's net returns. -/
set_option autoImplicit false

namespace Skfolio.Convex

open Skfolio.Measures

section
variable {K : Type} [Field K] [LinearOrder K] [IsStrictOrderedRing K] {n T : Nat}

theorem net_eq (d : Data K n T) (w : Fin n → K) (k : K) (t : Fin T) :
    ptfReturns d w t - transactionCost d w k - managementFee d w = netReturn d w k t := by
  unfold ptfReturns transactionCost managementFee netReturn
  have h1 : ∀ i, d.returns t i * w i = w i * d.returns t i := fun i => mul_comm _ _
  have h2 : ∀ i, d.managementFees i * w i = w i * d.managementFees i := fun i => mul_comm _ _
  have h3 : ∀ i, |d.transactionCosts i * (d.previousWeights i * k - w i)| = |d.transactionCosts i| * |w i - k * d.previousWeights i| := by
    intro i
    rw [abs_mul, abs_sub_comm (w i), mul_comm k]
  simp only [h1, h2, h3]

omit [LinearOrder K] [IsStrictOrderedRing K] in
theorem gross_eq (d : Data K n T) (w : Fin n → K) (t : Fin T) : ptfReturns d w t = ∑ i, w i * d.returns t i := by
  unfold ptfReturns
  simp only [mul_comm]

theorem scale_ge {a b s : K} (hs : 0 < s) : a * s ≥ b * s ↔ b ≤ a := mul_le_mul_iff_left₀ hs

/-! ### measures with a threshold -/

omit [LinearOrder K] [IsStrictOrderedRing K] in
theorem sum_ofFn_map (f : Fin T → K) (g : K → K) : ((List.ofFn f).map g).sum = ∑ t, g (f t) := by
  rw [List.map_ofFn, List.sum_ofFn]
  rfl

omit [IsStrictOrderedRing K] in
/-- Minimum of `c * Σ v` over `v ≥ 0`, `v ≥ -a`. -/
theorem optimal_pos (a : Fin T → K) (f : (Fin T → K) → K) (F : (Fin T → K) → Prop)
    (hF : ∀ v, F v ↔ (∀ t, 0 ≤ v t) ∧ ∀ t, -a t ≤ v t)
    (hf : ∀ v v', (∀ t, 0 ≤ v t) → (∀ t, v t ≤ v' t) → f v ≤ f v') :
    IsOptimalValue ⟨Fin T → K, F, f⟩ (f fun t => max 0 (-a t)) := by
  constructor
  · exact ⟨fun t => max 0 (-a t), (hF _).2 ⟨fun t => le_max_left _ _, fun t => le_max_right _ _⟩, rfl⟩
  · intro v hv
    obtain ⟨h1, h2⟩ := (hF v).1 hv
    exact hf _ _ (fun t => le_max_left _ _) fun t => max_le (h1 t) (h2 t)

theorem neg_min (x : K) : -min 0 x = max 0 (-x) := by
  rw [← max_neg_neg, neg_zero]

omit [LinearOrder K] [IsStrictOrderedRing K] in
theorem mar_some (r : List K) (m : K) : mar r (some m) = m := rfl

omit [LinearOrder K] [IsStrictOrderedRing K] in
theorem mar_none (r : List K) : mar r none = mean r := rfl

theorem flpm_ofFn (f : Fin T → K) (m : Option K) :
    firstLowerPartialMoment (List.ofFn f) m = (∑ t, max 0 (-(f t - mar (List.ofFn f) m))) / (T : K) := by
  unfold firstLowerPartialMoment
  rw [sum_ofFn_map, List.length_ofFn, ← Finset.sum_neg_distrib]
  simp only [neg_min]

theorem semiVariance_ofFn (f : Fin T → K) (m : Option K) :
    semiVariance (List.ofFn f) m = (∑ t, (max 0 (-(f t - mar (List.ofFn f) m))) ^ 2) / ((T : K) - 1) := by
  unfold semiVariance
  rw [sum_ofFn_map, List.length_ofFn]
  congr 1
  refine Finset.sum_congr rfl fun t _ => ?_
  rw [← neg_min, neg_sq]

omit [LinearOrder K] [IsStrictOrderedRing K] in
/-- Deviation of the gross return from the acceptable return of the weights. -/
theorem ptfMar_eq (d : Data K n T) (w : Fin n → K) (m : Mar K n) (t : Fin T) :
    ptfMar d w m t = (∑ i, w i * d.returns t i) - ∑ i, marOf d m i * w i := by
  unfold ptfMar
  rw [← Finset.sum_sub_distrib]
  refine Finset.sum_congr rfl fun i _ => ?_
  ring

theorem mean_net (d : Data K n T) (w : Fin n → K) (k : K) (hT : 0 < T) (hmu : ∀ i, d.mu i = (∑ t, d.returns t i) / (T : K)) (t : Fin T) :
    (∑ i, w i * d.returns t i) - ∑ i, d.mu i * w i = netReturn d w k t - mean (netReturns d w k) := by
  have hTK : (T : K) ≠ 0 := by exact_mod_cast hT.ne'
  have hm : mean (netReturns d w k) =
      (∑ i, d.mu i * w i) - (∑ i, |d.transactionCosts i| * |w i - k * d.previousWeights i|) - ∑ i, w i * d.managementFees i := by
    unfold mean netReturns netReturn
    rw [List.sum_ofFn, List.length_ofFn, Finset.sum_sub_distrib, Finset.sum_sub_distrib, Finset.sum_const, Finset.sum_const,
      Finset.card_univ, Fintype.card_fin, Finset.sum_comm, nsmul_eq_mul, nsmul_eq_mul, sub_div, sub_div, mul_div_cancel_left₀ _ hTK,
      mul_div_cancel_left₀ _ hTK, Finset.sum_div]
    congr 2
    refine Finset.sum_congr rfl fun i _ => ?_
    rw [hmu, ← Finset.mul_sum]
    ring
  rw [hm]
  unfold netReturn
  ring

/-- **C17.** First lower partial moment, exactly: the program computes the moment of the returns before costs around the
risk-free rate plus the acceptable return of the weights. -/
theorem C17_first_lower_partial_moment_gross (d : Data K n T) (w : Fin n → K) (m : Mar K n) (k s : K) (hs : 0 < s) :
    IsOptimalValue (flpmRisk d w m k s)
      (firstLowerPartialMoment (grossReturns d w) (some (d.riskFreeRate * k + ∑ i, marOf d m i * w i))) := by
  have key := optimal_pos (fun t => ptfMar d w m t - d.riskFreeRate * k) (flpmRisk d w m k s).risk (flpmRisk d w m k s).feasible
    (by
      intro v
      simp only [flpmRisk]
      refine and_congr_right fun _ => forall_congr' fun t => ?_
      rw [← sub_mul, mul_le_mul_iff_left₀ hs]
      constructor <;> intro h <;> linarith)
    (by
      intro v v' _ h
      simp only [flpmRisk]
      have : ∑ t, v t ≤ ∑ t, v' t := Finset.sum_le_sum fun t _ => h t
      gcongr)
  rw [grossReturns, flpm_ofFn]
  convert key using 1
  · rfl
  change _ = (∑ t, max 0 (-(ptfMar d w m t - d.riskFreeRate * k))) / (T : K)
  simp only [mar_some, ptfMar_eq]
  congr 1
  refine Finset.sum_congr rfl fun t _ => ?_
  congr 1
  ring

/-- **C17.** With the default acceptable return, expected returns equal to the sample means and a zero risk-free rate, the program
computes the measure of the net returns. -/
theorem C17_first_lower_partial_moment (d : Data K n T) (w : Fin n → K) (k s : K) (hs : 0 < s) (hT : 0 < T)
    (hmu : ∀ i, d.mu i = (∑ t, d.returns t i) / (T : K)) (hrf : d.riskFreeRate = 0) :
    IsOptimalValue (flpmRisk d w .default k s) (firstLowerPartialMoment (netReturns d w k) none) := by
  have key := C17_first_lower_partial_moment_gross d w .default k s hs
  rw [grossReturns, flpm_ofFn] at key
  rw [netReturns, flpm_ofFn]
  convert key using 5
  simp only [mar_some, mar_none, hrf, marOf]
  rw [zero_mul, zero_add, mean_net d w k hT hmu]
  rfl

/-- **C17.** Mean absolute deviation, exactly: twice the first lower partial moment of the returns before costs. -/
theorem C17_mean_absolute_deviation_gross (d : Data K n T) (w : Fin n → K) (m : Mar K n) (s : K) (hs : 0 < s) :
    IsOptimalValue (madRisk d w m s) (2 * firstLowerPartialMoment (grossReturns d w) (some (∑ i, marOf d m i * w i))) := by
  have key := optimal_pos (fun t => ptfMar d w m t) (madRisk d w m s).risk (madRisk d w m s).feasible
    (by
      intro v
      simp only [madRisk]
      refine and_congr_right fun _ => forall_congr' fun t => ?_
      rw [scale_ge hs]
      constructor <;> intro h <;> linarith)
    (by
      intro v v' _ h
      simp only [madRisk]
      have : ∑ t, v t ≤ ∑ t, v' t := Finset.sum_le_sum fun t _ => h t
      gcongr)
  rw [grossReturns, flpm_ofFn, ← mul_div_assoc]
  convert key using 1
  · rfl
  change _ = 2 * (∑ t, max 0 (-ptfMar d w m t)) / (T : K)
  simp only [mar_some, ptfMar_eq]

/-- **C17.** Mean absolute deviation, with the default acceptable return and expected returns equal to the sample means. -/
theorem C17_mean_absolute_deviation (d : Data K n T) (w : Fin n → K) (k s : K) (hs : 0 < s) (hT : 0 < T)
    (hmu : ∀ i, d.mu i = (∑ t, d.returns t i) / (T : K)) :
    IsOptimalValue (madRisk d w .default s) (meanAbsoluteDeviation (netReturns d w k) none) := by
  have hr : netReturns d w k ≠ [] := by
    intro h
    have := congrArg List.length h
    simp [netReturns] at this
    omega
  have key := C17_mean_absolute_deviation_gross d w .default s hs
  rw [grossReturns, flpm_ofFn] at key
  rw [C15_mad_flpm _ hr, netReturns, flpm_ofFn]
  convert key using 6
  simp only [mar_some, mar_none, marOf]
  rw [mean_net d w k hT hmu]
  rfl

/-- **C17.** Semi-variance, exactly: of the returns before costs around the acceptable return of the weights. -/
theorem C17_semi_variance_gross (d : Data K n T) (w : Fin n → K) (m : Mar K n) (s : K) (hs : 0 < s) (hT : 2 ≤ T) :
    IsOptimalValue (semiVarianceRisk d w m s) (semiVariance (grossReturns d w) (some (∑ i, marOf d m i * w i))) := by
  have hTK : (0 : K) ≤ (T : K) - 1 := by
    have : (2 : K) ≤ (T : K) := by exact_mod_cast hT
    linarith
  have key := optimal_pos (fun t => ptfMar d w m t) (semiVarianceRisk d w m s).risk (semiVarianceRisk d w m s).feasible
    (by
      intro v
      simp only [semiVarianceRisk]
      refine and_congr_right fun _ => forall_congr' fun t => ?_
      rw [scale_ge hs]
      constructor <;> intro h <;> linarith)
    (by
      intro v v' h0 h
      simp only [semiVarianceRisk]
      have : ∑ t, v t ^ 2 ≤ ∑ t, v' t ^ 2 := Finset.sum_le_sum fun t _ => pow_le_pow_left₀ (h0 t) (h t) 2
      gcongr)
  rw [grossReturns, semiVariance_ofFn]
  convert key using 1
  · rfl
  change _ = (∑ t, max 0 (-ptfMar d w m t) ^ 2) / ((T : K) - 1)
  simp only [mar_some, ptfMar_eq]

/-- **C17.** Semi-variance, with the default acceptable return and expected returns equal to the sample means. -/
theorem C17_semi_variance (d : Data K n T) (w : Fin n → K) (k s : K) (hs : 0 < s) (hT : 2 ≤ T)
    (hmu : ∀ i, d.mu i = (∑ t, d.returns t i) / (T : K)) :
    IsOptimalValue (semiVarianceRisk d w .default s) (semiVariance (netReturns d w k) none) := by
  have key := C17_semi_variance_gross d w .default s hs hT
  rw [grossReturns, semiVariance_ofFn] at key
  rw [netReturns, semiVariance_ofFn]
  convert key using 6
  simp only [mar_some, mar_none, marOf]
  rw [mean_net d w k (by omega) hmu]
  rfl

/-! ### tail measures -/

omit [IsStrictOrderedRing K] in
theorem netReturns_ne_nil (d : Data K n T) (w : Fin n → K) (k : K) (hT : 0 < T) : netReturns d w k ≠ [] := by
  intro h
  have := congrArg List.length h
  simp [netReturns] at this
  omega

/-- **C17.** Worst realization. -/
theorem C17_worst_realization (d : Data K n T) (w : Fin n → K) (k s : K) (hs : 0 < s) (hT : 0 < T) :
    ∃ m, worstRealization (netReturns d w k) = some m ∧ IsOptimalValue (worstRealizationRisk d w k s) m := by
  obtain ⟨x, hx⟩ : ∃ x, (netReturns d w k).min? = some x := by
    cases h : (netReturns d w k).min? with
    | none => exact absurd (List.min?_eq_none_iff.1 h) (netReturns_ne_nil d w k hT)
    | some x => exact ⟨x, rfl⟩
  refine ⟨-x, by simp [worstRealization, hx], ?_⟩
  obtain ⟨⟨y, hy, hxy⟩, hl⟩ := C12_worst (netReturns d w k) (-x) (by simp [worstRealization, hx])
  have hf : ∀ v, (worstRealizationRisk d w k s).feasible v ↔ ∀ t, -netReturn d w k t ≤ v := by
    intro (v : K)
    simp only [worstRealizationRisk]
    refine forall_congr' fun t => ?_
    rw [← add_mul, ← add_mul, mul_le_mul_iff_left₀ hs, ← net_eq]
    constructor <;> intro h <;> linarith
  constructor
  · exact ⟨-x, (hf _).2 fun t => hl _ (List.mem_ofFn.2 ⟨t, rfl⟩), rfl⟩
  · intro v hv
    obtain ⟨t, rfl⟩ := List.mem_ofFn.1 hy
    rw [hxy]
    exact (hf v).1 hv t

omit [IsStrictOrderedRing K] in
theorem ruObjective_ofFn (f : Fin T → K) (beta alpha : K) :
    ruObjective (List.ofFn f) beta alpha = alpha + 1 / ((T : K) * (1 - beta)) * ∑ t, max 0 (-f t - alpha) := by
  unfold ruObjective
  rw [sum_ofFn_map, List.length_ofFn, mul_comm (1 - beta), div_eq_mul_one_div, mul_comm]

/-- The program of the auxiliary variables `alpha` and `v ≥ max(0, loss - alpha)` computes the CVaR. -/
theorem optimal_cvar [FloorSemiring K] (P : Partition K) (f : Fin T → K) (hT : 0 < T) (beta : K) (h0 : 0 ≤ beta) (h1 : beta < 1) :
    ∃ c a, cvar P (List.ofFn f) beta = some c ∧
      a + 1 / ((T : K) * (1 - beta)) * ∑ t, max 0 (-f t - a) = c ∧
      ∀ (alpha : K) (v : Fin T → K), (∀ t, 0 ≤ v t) → (∀ t, -f t - alpha ≤ v t) → c ≤ alpha + 1 / ((T : K) * (1 - beta)) * ∑ t, v t := by
  have hr : List.ofFn f ≠ [] := by
    intro h
    have := congrArg List.length h
    simp at this
    omega
  obtain ⟨⟨a, ha⟩, ⟨c, hc⟩, -⟩ := C12_defined P (List.ofFn f) hr beta h0 h1
  obtain ⟨hr2, hr1⟩ := C13_rockafellar_uryasev P (List.ofFn f) hr beta h0 h1 a c ha hc
  refine ⟨c, a, hc, ?_, ?_⟩
  · rw [← ruObjective_ofFn]
    exact hr1.symm
  · intro alpha v hv0 hv
    have := hr2 alpha
    rw [ruObjective_ofFn] at this
    refine this.trans ?_
    have hc0 : (0 : K) ≤ 1 / ((T : K) * (1 - beta)) := by
      have : (0 : K) ≤ 1 - beta := by linarith
      positivity
    have hsum : ∑ t, max 0 (-f t - alpha) ≤ ∑ t, v t := Finset.sum_le_sum fun t _ => max_le (hv0 t) (hv t)
    have := mul_le_mul_of_nonneg_left hsum hc0
    linarith

/-- **C17.** Conditional value at risk. -/
theorem C17_cvar [FloorSemiring K] (P : Partition K) (d : Data K n T) (w : Fin n → K) (k s : K) (hs : 0 < s) (hT : 0 < T) (beta : K)
    (h0 : 0 ≤ beta) (h1 : beta < 1) :
    ∃ c, cvar P (netReturns d w k) beta = some c ∧ IsOptimalValue (cvarRisk d w k s beta) c := by
  obtain ⟨c, a, hc, ha, hmin⟩ := optimal_cvar P (netReturn d w k) hT beta h0 h1
  refine ⟨c, hc, ?_⟩
  have hf : ∀ x, (cvarRisk d w k s beta).feasible x ↔ (∀ t, 0 ≤ x.2 t) ∧ ∀ t, -netReturn d w k t - x.1 ≤ x.2 t := by
    intro x
    simp only [cvarRisk]
    refine and_congr_right fun _ => forall_congr' fun t => ?_
    rw [← sub_mul, ← sub_mul, ← add_mul, ← add_mul, net_eq, ge_iff_le, mul_nonneg_iff_of_pos_right hs]
    constructor <;> intro h <;> linarith
  constructor
  · exact ⟨(a, fun t => max 0 (-netReturn d w k t - a)), (hf _).2 ⟨fun t => le_max_left _ _, fun t => le_max_right _ _⟩, ha⟩
  · intro x hx
    obtain ⟨hx0, hx1⟩ := (hf x).1 hx
    exact hmin x.1 x.2 hx0 hx1

/-! ### drawdown measures -/

/-- The smallest drawdowns allowed by the recursion. -/
def leastV (r : List K) : Nat → K
  | 0 => 0
  | t + 1 => max 0 (leastV r t - r.getD t 0)

omit [LinearOrder K] [IsStrictOrderedRing K] in
theorem sum_take_succ (r : List K) (t : Nat) (ht : t < r.length) : ((0 :: r).take (t + 2)).sum = ((0 :: r).take (t + 1)).sum + r.getD t 0 := by
  simp only [List.take_succ_cons, List.sum_cons, zero_add]
  rw [List.take_succ_eq_append_getElem ht, List.sum_append, List.getD_eq_getElem _ _ ht]
  simp

theorem shortfall_eq_leastV (r : List K) (t : Nat) (ht : t ≤ r.length) : shortfall (0 :: r) false t = -leastV r t := by
  induction t with
  | zero => simp [shortfall, wealth, peak, leastV]
  | succ t ih =>
    have h := ih (by omega)
    simp only [shortfall, wealth, Bool.false_eq_true, if_false] at h ⊢
    have hp : peak (0 :: r) false (t + 1) = max (((0 :: r).take (t + 2)).sum) (peak (0 :: r) false t) := by
      apply le_antisymm
      · refine Finset.sup'_le _ _ fun b hb => ?_
        rcases Nat.lt_succ_iff_lt_or_eq.1 (Finset.mem_range.1 hb) with h | rfl
        · exact le_max_of_le_right (Finset.le_sup' (wealth (0 :: r) false) (Finset.mem_range.2 h))
        · exact le_max_of_le_left (le_refl _)
      · refine max_le ?_ ?_
        · exact Finset.le_sup' (wealth (0 :: r) false) (Finset.mem_range.2 (Nat.lt_succ_self (t + 1)))
        · refine Finset.sup'_le _ _ fun b hb => Finset.le_sup' (wealth (0 :: r) false) (Finset.mem_range.2 ?_)
          have := Finset.mem_range.1 hb
          omega
    rw [hp, leastV, sum_take_succ r t (by omega)]
    have hl : leastV r t = peak (0 :: r) false t - ((0 :: r).take (t + 1)).sum := by linarith
    rw [hl]
    rcases le_total (((0 :: r).take (t + 1)).sum + r.getD t 0) (peak (0 :: r) false t) with hle | hle
    · rw [max_eq_right hle, max_eq_right (by linarith)]
      ring
    · rw [max_eq_left hle, max_eq_left (by linarith)]
      ring

theorem drawdownsFromStart_ofFn (f : Fin T → K) : drawdownsFromStart (List.ofFn f) = List.ofFn fun t : Fin T => -leastV (List.ofFn f) (t + 1) := by
  apply List.ext_getElem?
  intro t
  unfold drawdownsFromStart
  rw [List.getElem?_tail]
  by_cases ht : t < T
  · rw [drawdowns_get _ _ _ (by simpa using ht), shortfall_eq_leastV _ _ (by simpa using ht), List.getElem?_ofFn, dif_pos ht]
  · rw [List.getElem?_eq_none (by rw [length_drawdowns]; simpa using ht), List.getElem?_eq_none (by simpa using ht)]

/-- The drawdown constraints say that `v` dominates the drawdowns from the initial wealth. -/
theorem drawdown_ge (d : Data K n T) (w : Fin n → K) (k s : K) (hs : 0 < s) (v : Fin (T + 1) → K) (hv : drawdownFeasible d w k s v)
    (t : Fin (T + 1)) : leastV (netReturns d w k) t ≤ v t := by
  obtain ⟨h1, h2, h3⟩ := hv
  induction t using Fin.induction with
  | zero =>
    have : v 0 = 0 := by
      rcases mul_eq_zero.1 h3 with h | h
      · exact h
      · exact absurd h hs.ne'
    simp [leastV, this]
  | succ t ih =>
    have a1 := h1 t
    rw [← sub_mul, ← add_mul, ← add_mul, scale_ge hs] at a1
    have a2 : 0 ≤ v t.succ := by
      have := h2 t
      rwa [ge_iff_le, mul_nonneg_iff_of_pos_right hs] at this
    have hg : (netReturns d w k).getD t 0 = netReturn d w k t := by
      unfold netReturns
      rw [List.getD_eq_getElem _ _ (by simp)]
      simp
    rw [Fin.val_succ, leastV, hg]
    refine max_le a2 ?_
    rw [Fin.val_castSucc] at ih
    have := net_eq d w k t
    linarith

theorem drawdown_least (d : Data K n T) (w : Fin n → K) (k s : K) (hs : 0 < s) :
    drawdownFeasible d w k s fun t => leastV (netReturns d w k) t := by
  have hg : ∀ t : Fin T, (netReturns d w k).getD t 0 = netReturn d w k t := by
    intro t
    unfold netReturns
    rw [List.getD_eq_getElem _ _ (by simp)]
    simp
  refine ⟨fun t => ?_, fun t => ?_, ?_⟩
  · rw [← sub_mul, ← add_mul, ← add_mul, scale_ge hs]
    simp only [Fin.val_succ, leastV, hg, Fin.val_castSucc]
    rw [← net_eq]
    refine le_trans ?_ (le_max_right _ _)
    linarith
  · rw [ge_iff_le, mul_nonneg_iff_of_pos_right hs]
    simp only [Fin.val_succ, leastV]
    exact le_max_left _ _
  · simp [leastV]

omit [IsStrictOrderedRing K] in
theorem leastV_nonneg (r : List K) (t : Nat) : 0 ≤ leastV r t := by
  cases t with
  | zero => exact le_refl _
  | succ t => exact le_max_left _ _

theorem drawdownsFromStart_ne_nil (d : Data K n T) (w : Fin n → K) (k : K) (hT : 0 < T) : drawdownsFromStart (netReturns d w k) ≠ [] := by
  intro h
  have := congrArg List.length h
  rw [netReturns, drawdownsFromStart_ofFn] at this
  simp at this
  omega

/-- **C17.** Average drawdown (from the initial wealth). -/
theorem C17_average_drawdown [FloorSemiring K] (P : Partition K) (d : Data K n T) (w : Fin n → K) (k s : K) (hs : 0 < s) (hT : 0 < T) :
    ∃ m, averageDrawdown P (drawdownsFromStart (netReturns d w k)) = some m ∧ IsOptimalValue (averageDrawdownRisk d w k s) m := by
  have hd := drawdownsFromStart_ne_nil d w k hT
  refine ⟨_, (C14_max_and_average P _ hd).2, ?_⟩
  have hval : -((drawdownsFromStart (netReturns d w k)).sum / ((drawdownsFromStart (netReturns d w k)).length : K)) =
      (∑ t : Fin T, leastV (netReturns d w k) (t + 1)) / (T : K) := by
    rw [netReturns, drawdownsFromStart_ofFn, List.sum_ofFn, List.length_ofFn, Finset.sum_neg_distrib]
    ring
  rw [hval]
  constructor
  · exact ⟨fun t => leastV (netReturns d w k) t, drawdown_least d w k s hs, rfl⟩
  · intro v hv
    have : ∑ t : Fin T, leastV (netReturns d w k) (t + 1) ≤ ∑ t : Fin T, v t.succ :=
      Finset.sum_le_sum fun t _ => drawdown_ge d w k s hs v hv t.succ
    change _ ≤ (∑ t : Fin T, v t.succ) / (T : K)
    gcongr

/-- **C17.** Ulcer index (from the initial wealth), squared. -/
theorem C17_ulcer_squared (d : Data K n T) (w : Fin n → K) (k s : K) (hs : 0 < s) :
    IsOptimalValue (ulcerSquaredRisk d w k s) (ulcerSquared (drawdownsFromStart (netReturns d w k))) := by
  have hval : ulcerSquared (drawdownsFromStart (netReturns d w k)) = (∑ t : Fin T, leastV (netReturns d w k) (t + 1) ^ 2) / (T : K) := by
    unfold ulcerSquared
    rw [netReturns, drawdownsFromStart_ofFn, sum_ofFn_map, List.length_ofFn]
    simp only [neg_sq]
  rw [hval]
  constructor
  · exact ⟨fun t => leastV (netReturns d w k) t, drawdown_least d w k s hs, rfl⟩
  · intro v hv
    have : ∑ t : Fin T, leastV (netReturns d w k) (t + 1) ^ 2 ≤ ∑ t : Fin T, v t.succ ^ 2 :=
      Finset.sum_le_sum fun t _ => pow_le_pow_left₀ (leastV_nonneg _ _) (drawdown_ge d w k s hs v hv t.succ) 2
    change _ ≤ (∑ t : Fin T, v t.succ ^ 2) / (T : K)
    gcongr

/-- **C17.** Maximum drawdown (from the initial wealth). -/
theorem C17_max_drawdown [FloorSemiring K] (P : Partition K) (d : Data K n T) (w : Fin n → K) (k s : K) (hs : 0 < s) (hT : 0 < T) :
    ∃ m, maxDrawdown P (drawdownsFromStart (netReturns d w k)) = some m ∧ IsOptimalValue (maxDrawdownRisk d w k s) m := by
  have hd := drawdownsFromStart_ne_nil d w k hT
  obtain ⟨m, hm, ⟨x, hx, hxm⟩, hl⟩ := (C14_max_and_average P _ hd).1
  refine ⟨m, hm, ?_⟩
  rw [netReturns, drawdownsFromStart_ofFn] at hx hl
  constructor
  · refine ⟨(fun t => leastV (netReturns d w k) t, m), ⟨drawdown_least d w k s hs, fun t => ?_⟩, rfl⟩
    rw [scale_ge hs]
    have := hl _ (List.mem_ofFn.2 ⟨t, rfl⟩)
    rw [neg_neg] at this
    exact this
  · rintro ⟨v, u⟩ ⟨hv, hu⟩
    obtain ⟨t, rfl⟩ := List.mem_ofFn.1 hx
    have h1 := drawdown_ge d w k s hs v hv t.succ
    have h2 := hu t
    rw [scale_ge hs] at h2
    rw [hxm, neg_neg]
    exact h1.trans h2

/-- **C17.** Conditional drawdown at risk (from the initial wealth). -/
theorem C17_cdar [FloorSemiring K] (P : Partition K) (d : Data K n T) (w : Fin n → K) (k s : K) (hs : 0 < s) (hT : 0 < T) (beta : K)
    (h0 : 0 ≤ beta) (h1 : beta < 1) :
    ∃ c, cdar P (drawdownsFromStart (netReturns d w k)) beta = some c ∧ IsOptimalValue (cdarRisk d w k s beta) c := by
  obtain ⟨c, a, hc, ha, hmin⟩ := optimal_cvar P (fun t : Fin T => -leastV (netReturns d w k) (t + 1)) hT beta h0 h1
  refine ⟨c, ?_, ?_⟩
  · unfold cdar
    rw [← hc]
    conv_lhs => rw [netReturns, drawdownsFromStart_ofFn]
    rfl
  constructor
  · refine ⟨(fun t => leastV (netReturns d w k) t, a, fun t => max 0 (- -leastV (netReturns d w k) (t + 1) - a)),
      ⟨drawdown_least d w k s hs, fun t => le_max_left _ _, fun t => ?_⟩, ha⟩
    rw [← sub_mul, scale_ge hs]
    refine le_trans ?_ (le_max_right _ _)
    rw [neg_neg]
    exact le_refl _
  · rintro ⟨v, alpha, z⟩ ⟨hv, hz0, hz⟩
    refine hmin alpha z hz0 fun t => ?_
    have h2 := hz t
    rw [← sub_mul, scale_ge hs] at h2
    have h3 := drawdown_ge d w k s hs v hv t.succ
    rw [Fin.val_succ] at h3
    rw [neg_neg]
    simp only at h2
    linarith

omit [IsStrictOrderedRing K] in
/-- The drawdowns from the initial wealth are the drawdowns of the measure when the first return is not a loss. -/
theorem C17_drawdowns_agree (x : K) (r : List K) (hx : 0 ≤ x) : drawdownsFromStart (x :: r) = drawdowns (x :: r) false := by
  unfold drawdownsFromStart drawdowns cumulativeReturns
  simp only [Bool.false_eq_true, if_false, cumsumFrom, zero_add, maxAcc, maxAccFrom, List.zipWith_cons_cons, List.tail_cons, max_eq_right hx]

/-- Finding: otherwise they differ. The measure of a single loss of 10% is 0, the program's optimum is 10%. -/
theorem C17_first_loss_ignored_by_measure :
    maxDrawdown (sortPartition ℚ) (drawdowns [-1 / 10] false) = some 0 ∧
      maxDrawdown (sortPartition ℚ) (drawdownsFromStart [-1 / 10]) = some (1 / 10) := by
  constructor
  · have h := (C14_max_and_average (sortPartition ℚ) (drawdowns [-1 / 10] false) (by decide +kernel)).1
    obtain ⟨m, hm, ⟨x, hx, hxm⟩, -⟩ := h
    rw [show drawdowns [(-1 / 10 : ℚ)] false = [0] by decide +kernel] at hx
    rw [hm, hxm, List.mem_singleton.1 hx, neg_zero]
  · have h := (C14_max_and_average (sortPartition ℚ) (drawdownsFromStart [-1 / 10]) (by decide +kernel)).1
    obtain ⟨m, hm, ⟨x, hx, hxm⟩, -⟩ := h
    rw [show drawdownsFromStart [(-1 / 10 : ℚ)] = [-1 / 10] by decide +kernel] at hx
    rw [hm, hxm, List.mem_singleton.1 hx]
    norm_num

/-! ### Gini mean difference -/

/-- Dual potentials of the assignment of sorted values. -/
def potential (z g : Nat → K) : Nat → K
  | 0 => 0
  | i + 1 => potential z g i + (z (i + 1) - z i) * g i

theorem potential_le (z g : Nat → K) (N : Nat) (hz : ∀ i, i + 1 < N → z i ≤ z (i + 1)) (hg : ∀ i j, i ≤ j → j < N → g i ≤ g j) (j i : Nat)
    (hj : j < N) (hi : i < N) : z i * g j ≤ (z j * g j - potential z g j) + potential z g i := by
  rcases le_total j i with h | h
  · obtain ⟨e, rfl⟩ := Nat.exists_eq_add_of_le h
    induction e with
    | zero => simp
    | succ e ih =>
      have := ih (by omega) (by omega)
      rw [← Nat.add_assoc]
      simp only [potential]
      have h1 : z (j + e) ≤ z (j + e + 1) := hz _ (by omega)
      have h2 : g j ≤ g (j + e) := hg _ _ (by omega) (by omega)
      nlinarith
  · obtain ⟨e, rfl⟩ := Nat.exists_eq_add_of_le h
    have key : ∀ e', i + e' ≤ i + e → potential z g (i + e') - potential z g i ≤ (z (i + e') - z i) * g (i + e) := by
      intro e' he'
      induction e' with
      | zero => simp
      | succ e' ih =>
        have := ih (by omega)
        rw [← Nat.add_assoc]
        simp only [potential]
        have h1 : z (i + e') ≤ z (i + e' + 1) := hz _ (by omega)
        have h2 : g (i + e') ≤ g (i + e) := hg _ _ (by omega) (by omega)
        nlinarith
    have := key e (le_refl _)
    nlinarith

theorem dotFrom_ofFn (g : Nat → K) (f : Fin T → K) (i : Nat) : dotFrom g i (List.ofFn f) = ∑ t : Fin T, g (i + t) * f t := by
  induction T generalizing i with
  | zero => simp [dotFrom]
  | succ T ih =>
    rw [List.ofFn_succ, dotFrom, ih, Fin.sum_univ_succ]
    simp only [Fin.val_zero, Nat.add_zero, Fin.val_succ]
    congr 1
    refine Finset.sum_congr rfl fun t _ => ?_
    rw [show i + 1 + (t : Nat) = i + (t + 1) by omega]

theorem owa_mono (N i j : Nat) (hN : 2 ≤ N) (h : i ≤ j) : (owaGmdWeight N i : K) / 2 ≤ owaGmdWeight N j / 2 := by
  unfold owaGmdWeight
  have hN' : (2 : K) ≤ (N : K) := by exact_mod_cast hN
  have h' : (i : K) ≤ (j : K) := by exact_mod_cast h
  have hden : (0 : K) < (N : K) * ((N : K) - 1) := mul_pos (by linarith) (by linarith)
  gcongr

theorem gini_sorted (f : Fin T → K) : giniMeanDifference (List.ofFn f) = ∑ t : Fin T, owaGmdWeight T t * f (Tuple.sort f t) := by
  unfold giniMeanDifference
  have : (List.ofFn f).insertionSort (· ≤ ·) = List.ofFn (f ∘ Tuple.sort f) := by
    refine List.Perm.eq_of_pairwise' (r := (· ≤ ·)) ?_ ?_ ?_
    · exact List.pairwise_insertionSort _ _
    · exact List.pairwise_ofFn.2 fun i j hij => Tuple.monotone_sort f hij.le
    · refine (List.perm_insertionSort _ _).trans ?_
      exact (Equiv.Perm.ofFn_comp_perm (Tuple.sort f) f).symm
  rw [this, dotFrom_ofFn, List.length_ofFn]
  simp only [Nat.zero_add, Function.comp]

/-- **C17.** Gini mean difference. -/
theorem C17_gini_mean_difference (d : Data K n T) (w : Fin n → K) (k s : K) (hs : 0 < s) (hT : 2 ≤ T) :
    IsOptimalValue (giniRisk d w k s) (giniMeanDifference (netReturns d w k)) := by
  set f := netReturn d w k with hf
  set p := Tuple.sort f with hp
  have hmono := Tuple.monotone_sort f
  rw [netReturns, ← hf, gini_sorted]
  have hz : ∀ z : Fin T → K, (∀ t, ptfReturns d w t * s - transactionCost d w k * s - managementFee d w * s = z t * s) ↔ z = f := by
    intro z
    rw [funext_iff]
    refine forall_congr' fun t => ?_
    rw [← sub_mul, ← sub_mul, net_eq]
    constructor
    · intro h
      exact (mul_right_cancel₀ hs.ne' h).symm
    · intro h
      rw [h]
  constructor
  · -- potentials of the sorted sample, carried back to the original order
    have h0 : 0 < T := by omega
    let zs : Nat → K := fun i => if h : i < T then f (p ⟨i, h⟩) else 0
    let g : Nat → K := fun i => owaGmdWeight T i / 2
    have hzs : ∀ i, i + 1 < T → zs i ≤ zs (i + 1) := by
      intro i hi
      simp only [zs, dif_pos (show i < T by omega), dif_pos hi]
      exact hmono (by simp)
    have hg : ∀ i j, i ≤ j → j < T → g i ≤ g j := fun i j h _ => owa_mono T i j hT h
    refine ⟨(fun j => zs j * g j - potential zs g j, fun i => potential zs g (p.symm i), f), ⟨(hz f).2 rfl, fun i j => ?_⟩, ?_⟩
    · have := potential_le zs g T hzs hg j (p.symm i) j.2 (p.symm i).2
      have he : zs (p.symm i) = f i := by simp [zs]
      rw [he] at this
      exact this
    · change 2 * ∑ t : Fin T, ((zs t * g t - potential zs g t) + potential zs g (p.symm t)) = _
      rw [Finset.sum_add_distrib, Finset.sum_sub_distrib, Equiv.sum_comp p.symm (fun t : Fin T => potential zs g t), sub_add_cancel,
        Finset.mul_sum]
      refine Finset.sum_congr rfl fun t _ => ?_
      have he : zs t = f (p t) := by simp [zs]
      rw [he]
      simp only [g]
      ring
  · rintro ⟨x, y, z⟩ ⟨h1, h2⟩
    have hzf : z = f := (hz z).1 h1
    subst hzf
    change _ ≤ 2 * ∑ t, (x t + y t)
    have : ∑ t : Fin T, f (p t) * (owaGmdWeight T t / 2) ≤ ∑ t : Fin T, (x t + y (p t)) := Finset.sum_le_sum fun t _ => h2 (p t) t
    rw [Finset.sum_add_distrib, Equiv.sum_comp p y, ← Finset.sum_add_distrib] at this
    calc ∑ t : Fin T, owaGmdWeight T t * f (p t) = 2 * ∑ t : Fin T, f (p t) * (owaGmdWeight T t / 2) := by
          rw [Finset.mul_sum]
          refine Finset.sum_congr rfl fun t _ => ?_
          ring
      _ ≤ _ := by linarith

end

end Skfolio.Convex
