import Verif.Measures.Theorems

/-!
C106: how the measures of `src/skfolio/measures/_measures.py` respond when the observations are reordered, when the portfolio is levered (all returns
multiplied by `l ≥ 0`) and when cash is added (the same `t` added to all returns).
-/
set_option autoImplicit false

namespace Skfolio.Measures

section
variable {K : Type} [Field K] [LinearOrder K] [IsStrictOrderedRing K]

/-! ### Specification -/

/-- Returns of the portfolio levered `l` times. -/
def levered (l : K) (r : List K) : List K := r.map fun x => l * x

/-- Returns of the portfolio with `t` of riskless income per period added. -/
def withCash (t : K) (r : List K) : List K := r.map fun x => x + t

/-- The measure does not depend on the order of the observations. -/
def OrderFree {B : Type} (f : List K → B) : Prop := ∀ r r', r.Perm r' → f r = f r'

/-- Levering the portfolio `l ≥ 0` times multiplies the measure by `l ^ d`. -/
def ScalesWith (d : Nat) (f : List K → K) : Prop := ∀ r l, 0 ≤ l → f (levered l r) = l ^ d * f r

/-- Adding cash leaves the measure alone. -/
def CashInvariant {B : Type} (f : List K → B) : Prop := ∀ r, r ≠ [] → ∀ t, f (withCash t r) = f r

/-- Same for a measure with a minimum acceptable return (`none`: the mean), which is levered like the returns. -/
def TargetScalesWith (d : Nat) (f : List K → Option K → K) : Prop :=
  ∀ r m l, 0 ≤ l → f (levered l r) (m.map fun x => l * x) = l ^ d * f r m

/-- Same for a measure with a minimum acceptable return, to which the cash is added too. -/
def TargetCashInvariant (f : List K → Option K → K) : Prop :=
  ∀ r, r ≠ [] → ∀ m t, f (withCash t r) (m.map fun x => x + t) = f r m

/-! ### Lemmas -/

omit [LinearOrder K] [IsStrictOrderedRing K] in
theorem mean_perm (r r' : List K) (h : r.Perm r') : mean r = mean r' := by
  unfold mean
  rw [h.sum_eq, h.length_eq]

omit [LinearOrder K] [IsStrictOrderedRing K] in
theorem mar_perm (r r' : List K) (h : r.Perm r') (m : Option K) : mar r m = mar r' m := by
  cases m with
  | none => exact mean_perm r r' h
  | some m => rfl

omit [LinearOrder K] [IsStrictOrderedRing K] in
theorem sum_map_perm (r r' : List K) (h : r.Perm r') (f : K → K) : (r.map f).sum = (r'.map f).sum := (h.map f).sum_eq

omit [LinearOrder K] [IsStrictOrderedRing K] in
theorem mar_levered (r : List K) (m : Option K) (l : K) : mar (levered l r) (m.map fun x => l * x) = l * mar r m := by
  cases m with
  | none => exact mean_mul r l
  | some m => rfl

omit [LinearOrder K] [IsStrictOrderedRing K] in
theorem mar_cash [CharZero K] (r : List K) (hr : r ≠ []) (m : Option K) (t : K) :
    mar (withCash t r) (m.map fun x => x + t) = mar r m + t := by
  cases m with
  | none => exact mean_add r hr t
  | some m => rfl

omit [LinearOrder K] [IsStrictOrderedRing K] in
theorem sum_levered (r : List K) (l c : K) (f g : K → K) (h : ∀ x, f (l * x) = c * g x) :
    ((levered l r).map f).sum = c * (r.map g).sum := by
  unfold levered
  rw [List.map_map, ← List.sum_map_mul_left]
  exact congrArg List.sum (List.map_congr_left fun x _ => h x)

omit [LinearOrder K] [IsStrictOrderedRing K] in
theorem sum_cash (r : List K) (t : K) (f g : K → K) (h : ∀ x, f (x + t) = g x) :
    ((withCash t r).map f).sum = (r.map g).sum := by
  unfold withCash
  rw [List.map_map]
  exact congrArg List.sum (List.map_congr_left fun x _ => h x)

omit [LinearOrder K] [IsStrictOrderedRing K] in
theorem length_levered (r : List K) (l : K) : (levered l r).length = r.length := List.length_map _

omit [LinearOrder K] [IsStrictOrderedRing K] in
theorem length_cash (r : List K) (t : K) : (withCash t r).length = r.length := List.length_map _

theorem min_levered (l x m : K) (hl : 0 ≤ l) : min 0 (l * x - l * m) = l * min 0 (x - m) := by
  rw [← mul_sub, mul_min_of_nonneg _ _ hl, mul_zero]

/-! ### C106: order -/

/-- **C106.** The mean and the dispersion measures do not depend on the order of the observations, whatever the minimum acceptable return. -/
theorem C106_order (m : Option K) :
    OrderFree (mean (K := K)) ∧ OrderFree (fun r : List K => meanAbsoluteDeviation r m) ∧
    OrderFree (fun r : List K => firstLowerPartialMoment r m) ∧ OrderFree (variance (K := K)) ∧
    OrderFree (fun r : List K => semiVariance r m) ∧ OrderFree (thirdCentralMoment (K := K)) ∧
    OrderFree (fourthCentralMoment (K := K)) ∧ OrderFree (fun r : List K => fourthLowerPartialMoment r m) ∧
    OrderFree (giniMeanDifference (K := K)) ∧ OrderFree (worstRealization (K := K)) := by
  refine ⟨mean_perm, ?_, ?_, ?_, ?_, ?_, ?_, ?_, C15_gini_permutation, ?_⟩ <;> intro r r' h
  · simp only [meanAbsoluteDeviation, mean]
    rw [mar_perm r r' h m, sum_map_perm r r' h, List.length_map, List.length_map, h.length_eq]
  · simp only [firstLowerPartialMoment]
    rw [mar_perm r r' h m, sum_map_perm r r' h, h.length_eq]
  · simp only [variance]
    rw [mean_perm r r' h, sum_map_perm r r' h, h.length_eq]
  · simp only [semiVariance]
    rw [mar_perm r r' h m, sum_map_perm r r' h, h.length_eq]
  · simp only [thirdCentralMoment]
    rw [mean_perm r r' h, sum_map_perm r r' h, h.length_eq]
  · simp only [fourthCentralMoment]
    rw [mean_perm r r' h, sum_map_perm r r' h, h.length_eq]
  · simp only [fourthLowerPartialMoment]
    rw [mar_perm r r' h m, sum_map_perm r r' h, h.length_eq]
  · unfold worstRealization
    cases hr : r.min? with
    | none =>
      rw [List.min?_eq_none_iff] at hr
      subst hr
      rw [List.nil_perm.1 h]
      rfl
    | some a =>
      rw [List.min?_eq_some_iff] at hr
      have : r'.min? = some a := List.min?_eq_some_iff.2 ⟨h.mem_iff.1 hr.1, fun b hb => hr.2 b (h.mem_iff.2 hb)⟩
      rw [this]

/-- **C106.** The Value-at-Risk and the CVaR do not depend on the order either (nor on the partition numpy chooses). -/
theorem C106_order_tail [FloorSemiring K] (P P' : Partition K) (r r' : List K) (hr : r ≠ []) (h : r.Perm r') (beta : K) (h0 : 0 ≤ beta)
    (h1 : beta < 1) : valueAtRisk P r beta = valueAtRisk P' r' beta ∧ cvar P r beta = cvar P' r' beta :=
  (C13_permutation P P' r r' hr h beta h0 h1).symm

/-- C106: drawdowns do depend on the order: two losses in a row are worse than a loss, a gain and a loss. -/
theorem C106_drawdown_order_matters : ¬ OrderFree (fun r : List ℚ => maxDrawdown (sortPartition ℚ) (drawdowns r false)) := by
  intro h
  have := h [1, -1, 1, -1] [1, 1, -1, -1] (by decide)
  revert this
  decide +kernel

/-! ### C106: leverage -/

/-- **C106.** Leverage multiplies the measures by its power: 1 for the mean, the mean absolute deviation, the first lower partial moment and
Gini's mean difference, 2 for the variances, 3 and 4 for the higher moments. -/
theorem C106_leverage :
    ScalesWith 1 (mean (K := K)) ∧ TargetScalesWith 1 (meanAbsoluteDeviation (K := K)) ∧
    TargetScalesWith 1 (firstLowerPartialMoment (K := K)) ∧ ScalesWith 2 (variance (K := K)) ∧
    TargetScalesWith 2 (semiVariance (K := K)) ∧ ScalesWith 3 (thirdCentralMoment (K := K)) ∧
    ScalesWith 4 (fourthCentralMoment (K := K)) ∧ TargetScalesWith 4 (fourthLowerPartialMoment (K := K)) ∧
    ScalesWith 1 (giniMeanDifference (K := K)) := by
  refine ⟨?_, ?_, ?_, ?_, ?_, ?_, ?_, ?_, ?_⟩
  · intro r l _
    rw [pow_one]
    exact mean_mul r l
  · intro r m l hl
    unfold meanAbsoluteDeviation
    rw [mar_levered, mean, mean, List.length_map, List.length_map, length_levered,
      sum_levered r l l _ (fun x => |x - mar r m|) (fun x => by rw [← mul_sub, abs_mul, abs_of_nonneg hl])]
    ring
  · intro r m l hl
    unfold firstLowerPartialMoment
    rw [mar_levered, length_levered, sum_levered r l l _ (fun x => min 0 (x - mar r m)) (fun x => min_levered l x _ hl)]
    ring
  · intro r l _
    exact C15_variance_homogeneous r l
  · intro r m l hl
    unfold semiVariance
    rw [mar_levered, length_levered, sum_levered r l (l ^ 2) _ (fun x => min 0 (x - mar r m) ^ 2)
      (fun x => by rw [min_levered l x _ hl, mul_pow])]
    ring
  · intro r l _
    unfold thirdCentralMoment
    rw [show mean (levered l r) = l * mean r from mean_mul r l, length_levered,
      sum_levered r l (l ^ 3) _ (fun x => (x - mean r) ^ 3) (fun x => by ring)]
    ring
  · intro r l _
    unfold fourthCentralMoment
    rw [show mean (levered l r) = l * mean r from mean_mul r l, length_levered,
      sum_levered r l (l ^ 4) _ (fun x => (x - mean r) ^ 4) (fun x => by ring)]
    ring
  · intro r m l hl
    unfold fourthLowerPartialMoment
    rw [mar_levered, length_levered, sum_levered r l (l ^ 4) _ (fun x => min 0 (x - mar r m) ^ 4)
      (fun x => by rw [min_levered l x _ hl, mul_pow])]
    ring
  · intro r l hl
    rw [C15_gini, C15_gini]
    unfold meanAbsDifference
    rw [pairSum_getD, pairSum_getD, length_levered]
    unfold pairSum
    rw [sum_levered r l l _ (fun x => (r.map fun y => |x - y|).sum)]
    · ring
    · intro x
      exact sum_levered r l l _ (fun y => |x - y|) (fun y => by rw [← mul_sub, abs_mul, abs_of_nonneg hl])

/-- Quantiles of losses scale with leverage. -/
theorem quantile_levered (r : List K) (hr : r ≠ []) (beta : K) (h1 : beta < 1) (h0 : 0 ≤ beta) (v l : K) (hl : 0 ≤ l)
    (h : IsLossQuantile r beta v) : IsLossQuantile (levered l r) beta (l * v) := by
  have hn : (0 : K) < (r.length : K) := by exact_mod_cast List.length_pos_iff.2 hr
  unfold IsLossQuantile levered at *
  rw [List.countP_map, List.countP_map, List.length_map]
  rcases hl.eq_or_lt with rfl | hl
  · have e1 : (r.countP ((fun x => decide (0 * v < -x)) ∘ fun x => 0 * x)) = 0 := by
      rw [List.countP_eq_zero]
      intro a _
      simp
    have e2 : (r.countP ((fun x => decide (0 * v ≤ -x)) ∘ fun x => 0 * x)) = r.length := by
      rw [List.countP_eq_length]
      intro a _
      simp
    rw [e1, e2]
    constructor
    · simpa using mul_pos (by linarith : 0 < 1 - beta) hn
    · nlinarith
  · have e1 : (r.countP ((fun x => decide (l * v < -x)) ∘ fun x => l * x)) = r.countP fun x => decide (v < -x) := by
      apply List.countP_congr
      intro x _
      simp only [Function.comp, decide_eq_true_eq]
      rw [← mul_neg]
      exact mul_lt_mul_iff_right₀ hl
    have e2 : (r.countP ((fun x => decide (l * v ≤ -x)) ∘ fun x => l * x)) = r.countP fun x => decide (v ≤ -x) := by
      apply List.countP_congr
      intro x _
      simp only [Function.comp, decide_eq_true_eq]
      rw [← mul_neg]
      exact mul_le_mul_iff_right₀ hl
    rw [e1, e2]
    exact h

theorem quantile_cash (r : List K) (beta : K) (v t : K)
    (h : IsLossQuantile r beta v) : IsLossQuantile (withCash t r) beta (v - t) := by
  unfold IsLossQuantile withCash at *
  rw [List.countP_map, List.countP_map, List.length_map]
  have e1 : (r.countP ((fun x => decide (v - t < -x)) ∘ fun x => x + t)) = r.countP fun x => decide (v < -x) := by
    apply List.countP_congr
    intro x _
    simp only [Function.comp, decide_eq_true_eq]
    constructor <;> intro _ <;> linarith
  have e2 : (r.countP ((fun x => decide (v - t ≤ -x)) ∘ fun x => x + t)) = r.countP fun x => decide (v ≤ -x) := by
    apply List.countP_congr
    intro x _
    simp only [Function.comp, decide_eq_true_eq]
    constructor <;> intro _ <;> linarith
  rw [e1, e2]
  exact h

theorem worst_levered (r : List K) (l : K) (hl : 0 ≤ l) : worstRealization (levered l r) = (worstRealization r).map fun w => l * w := by
  unfold worstRealization
  cases hr : r.min? with
  | none =>
    rw [List.min?_eq_none_iff] at hr
    subst hr
    rfl
  | some a =>
    rw [List.min?_eq_some_iff] at hr
    have : (levered l r).min? = some (l * a) := by
      refine List.min?_eq_some_iff.2 ⟨List.mem_map_of_mem hr.1, fun b hb => ?_⟩
      obtain ⟨x, hx, rfl⟩ := List.mem_map.1 hb
      exact mul_le_mul_of_nonneg_left (hr.2 x hx) hl
    rw [this]
    simp

theorem worst_cash (r : List K) (t : K) : worstRealization (withCash t r) = (worstRealization r).map fun w => w - t := by
  unfold worstRealization
  cases hr : r.min? with
  | none =>
    rw [List.min?_eq_none_iff] at hr
    subst hr
    rfl
  | some a =>
    rw [List.min?_eq_some_iff] at hr
    have : (withCash t r).min? = some (a + t) := by
      refine List.min?_eq_some_iff.2 ⟨List.mem_map_of_mem hr.1, fun b hb => ?_⟩
      obtain ⟨x, hx, rfl⟩ := List.mem_map.1 hb
      linarith [hr.2 x hx]
    rw [this]
    simp only [Option.map_some, Option.some.injEq]
    ring

/-- **C106.** Leverage multiplies the Value-at-Risk, the CVaR and the worst realization. -/
theorem C106_leverage_tail [FloorSemiring K] (P : Partition K) (r : List K) (hr : r ≠ []) (beta : K) (h0 : 0 ≤ beta) (h1 : beta < 1) (l : K)
    (hl : 0 ≤ l) : valueAtRisk P (levered l r) beta = (valueAtRisk P r beta).map (fun v => l * v) ∧
    cvar P (levered l r) beta = (cvar P r beta).map (fun c => l * c) ∧
    worstRealization (levered l r) = (worstRealization r).map fun w => l * w := by
  obtain ⟨⟨v, hv⟩, ⟨c, hc⟩, -⟩ := C12_defined P r hr beta h0 h1
  have hr' : levered l r ≠ [] := by simpa [levered] using hr
  refine ⟨?_, ?_, worst_levered r l hl⟩
  · rw [hv]
    exact (C12_var_iff_quantile P _ hr' beta h0 h1 _).2
      (quantile_levered r hr beta h1 h0 v l hl ((C12_var_iff_quantile P r hr beta h0 h1 v).1 hv))
  · rw [hc]
    exact C13_homogeneous P r hr beta h0 h1 c l hl hc

omit [LinearOrder K] [IsStrictOrderedRing K] in
theorem cumsum_levered (l : K) (r : List K) : ∀ a, cumsumFrom (l * a) (levered l r) = levered l (cumsumFrom a r) := by
  induction r with
  | nil => intro a; rfl
  | cons x r ih =>
    intro a
    simp only [levered, List.map_cons, cumsumFrom] at *
    rw [← mul_add, ih]

theorem maxAccFrom_levered (l : K) (hl : 0 ≤ l) (r : List K) : ∀ a, maxAccFrom (l * a) (levered l r) = levered l (maxAccFrom a r) := by
  induction r with
  | nil => intro a; rfl
  | cons x r ih =>
    intro a
    simp only [levered, List.map_cons, maxAccFrom] at *
    rw [← mul_max_of_nonneg _ _ hl, ih]

theorem maxAcc_levered (l : K) (hl : 0 ≤ l) (r : List K) : maxAcc (levered l r) = levered l (maxAcc r) := by
  cases r with
  | nil => rfl
  | cons x r =>
    have := maxAccFrom_levered l hl r x
    simp only [levered, List.map_cons, maxAcc] at *
    rw [this]

/-- **C106.** Without compounding, the drawdowns of a levered portfolio are the levered drawdowns, and the squared
Ulcer index is multiplied by the square of the leverage. -/
theorem C106_leverage_drawdowns (l : K) (hl : 0 ≤ l) (r : List K) :
    drawdowns (levered l r) false = levered l (drawdowns r false) ∧
    ulcerSquared (drawdowns (levered l r) false) = l ^ 2 * ulcerSquared (drawdowns r false) := by
  have h : drawdowns (levered l r) false = levered l (drawdowns r false) := by
    have e : cumsumFrom 0 (levered l r) = levered l (cumsumFrom 0 r) := by
      have := cumsum_levered l r 0
      rwa [mul_zero] at this
    simp only [drawdowns, cumulativeReturns, Bool.false_eq_true, if_false]
    rw [e, maxAcc_levered l hl]
    generalize cumsumFrom 0 r = c
    generalize maxAcc c = d
    unfold levered
    rw [List.zipWith_map, List.map_zipWith]
    congr 1
    funext a b
    ring
  refine ⟨h, ?_⟩
  rw [h]
  unfold ulcerSquared
  rw [length_levered, sum_levered _ l (l ^ 2) _ (fun x => x ^ 2) (fun x => by ring)]
  ring

/-- **C106.** Without compounding, the maximum, average and conditional drawdowns and the drawdown at risk are multiplied by the leverage. -/
theorem C106_leverage_drawdown_measures [FloorSemiring K] (P : Partition K) (l : K) (hl : 0 ≤ l) (r : List K) (hr : r ≠ []) (beta : K) (h0 : 0 ≤ beta)
    (h1 : beta < 1) :
    maxDrawdown P (drawdowns (levered l r) false) = (maxDrawdown P (drawdowns r false)).map (fun x => l * x) ∧
    averageDrawdown P (drawdowns (levered l r) false) = (averageDrawdown P (drawdowns r false)).map (fun x => l * x) ∧
    cdar P (drawdowns (levered l r) false) beta = (cdar P (drawdowns r false) beta).map (fun x => l * x) ∧
    drawdownAtRisk P (drawdowns (levered l r) false) beta = (drawdownAtRisk P (drawdowns r false) beta).map (fun x => l * x) := by
  have hd : drawdowns r false ≠ [] := by
    rw [← List.length_pos_iff, length_drawdowns]
    exact List.length_pos_iff.2 hr
  rw [(C106_leverage_drawdowns l hl r).1]
  refine ⟨?_, (C106_leverage_tail P _ hd 0 le_rfl zero_lt_one l hl).2.1, (C106_leverage_tail P _ hd beta h0 h1 l hl).2.1,
    (C106_leverage_tail P _ hd beta h0 h1 l hl).1⟩
  simp only [maxDrawdown, drawdownAtRisk, C12_var_one]
  exact worst_levered _ l hl

/-- C106: with compounding, doubling the leverage does not double the maximum drawdown. -/
theorem C106_compounded_leverage_false : ¬ ∀ (r : List ℚ) (l : ℚ), 0 ≤ l →
    maxDrawdown (sortPartition ℚ) (drawdowns (levered l r) true) = (maxDrawdown (sortPartition ℚ) (drawdowns r true)).map (fun x => l * x) := by
  intro h
  have := h [0, -1 / 4, -1 / 4] 2 (by norm_num)
  revert this
  decide +kernel

/-! ### C106: cash -/

/-- **C106.** Cash changes the mean by itself and leaves every dispersion measure alone. -/
theorem C106_cash :
    (∀ r : List K, r ≠ [] → ∀ t, mean (withCash t r) = mean r + t) ∧
    TargetCashInvariant (meanAbsoluteDeviation (K := K)) ∧ TargetCashInvariant (firstLowerPartialMoment (K := K)) ∧
    CashInvariant (variance (K := K)) ∧ TargetCashInvariant (semiVariance (K := K)) ∧ CashInvariant (thirdCentralMoment (K := K)) ∧
    CashInvariant (fourthCentralMoment (K := K)) ∧ TargetCashInvariant (fourthLowerPartialMoment (K := K)) ∧
    CashInvariant (giniMeanDifference (K := K)) := by
  refine ⟨fun r hr t => mean_add r hr t, ?_, ?_, fun r hr t => C15_variance_translation r hr t, ?_, ?_, ?_, ?_, ?_⟩
  · intro r hr m t
    unfold meanAbsoluteDeviation
    rw [mar_cash r hr, mean, mean, List.length_map, List.length_map, length_cash,
      sum_cash r t _ (fun x => |x - mar r m|) (fun x => by rw [add_sub_add_right_eq_sub])]
  · intro r hr m t
    unfold firstLowerPartialMoment
    rw [mar_cash r hr, length_cash, sum_cash r t _ (fun x => min 0 (x - mar r m)) (fun x => by rw [add_sub_add_right_eq_sub])]
  · intro r hr m t
    unfold semiVariance
    rw [mar_cash r hr, length_cash, sum_cash r t _ (fun x => min 0 (x - mar r m) ^ 2) (fun x => by rw [add_sub_add_right_eq_sub])]
  · intro r hr t
    unfold thirdCentralMoment
    rw [show mean (withCash t r) = mean r + t from mean_add r hr t, length_cash,
      sum_cash r t _ (fun x => (x - mean r) ^ 3) (fun x => by rw [add_sub_add_right_eq_sub])]
  · intro r hr t
    unfold fourthCentralMoment
    rw [show mean (withCash t r) = mean r + t from mean_add r hr t, length_cash,
      sum_cash r t _ (fun x => (x - mean r) ^ 4) (fun x => by rw [add_sub_add_right_eq_sub])]
  · intro r hr m t
    unfold fourthLowerPartialMoment
    rw [mar_cash r hr, length_cash, sum_cash r t _ (fun x => min 0 (x - mar r m) ^ 4) (fun x => by rw [add_sub_add_right_eq_sub])]
  · intro r hr t
    rw [C15_gini, C15_gini]
    unfold meanAbsDifference
    rw [pairSum_getD, pairSum_getD, length_cash]
    unfold pairSum
    rw [sum_cash r t _ (fun x => (r.map fun y => |x - y|).sum)]
    intro x
    exact sum_cash r t _ (fun y => |x - y|) (fun y => by rw [add_sub_add_right_eq_sub])

/-- **C106.** Cash is deducted from the Value-at-Risk, the CVaR and the worst realization. -/
theorem C106_cash_tail [FloorSemiring K] (P : Partition K) (r : List K) (hr : r ≠ []) (beta : K) (h0 : 0 ≤ beta) (h1 : beta < 1) (t : K) :
    valueAtRisk P (withCash t r) beta = (valueAtRisk P r beta).map (fun v => v - t) ∧
    cvar P (withCash t r) beta = (cvar P r beta).map (fun c => c - t) ∧
    worstRealization (withCash t r) = (worstRealization r).map fun w => w - t := by
  obtain ⟨⟨v, hv⟩, ⟨c, hc⟩, -⟩ := C12_defined P r hr beta h0 h1
  have hr' : withCash t r ≠ [] := by simpa [withCash] using hr
  refine ⟨?_, ?_, worst_cash r t⟩
  · rw [hv]
    exact (C12_var_iff_quantile P _ hr' beta h0 h1 _).2 (quantile_cash r beta v t ((C12_var_iff_quantile P r hr beta h0 h1 v).1 hv))
  · rw [hc]
    exact C13_translation P r hr beta h0 h1 c t hc

/-- C106: a fixed minimum acceptable return is not a dispersion measure: cash changes the semi-variance around a target that stays put. -/
theorem C106_fixed_target_false : ¬ ∀ m : ℚ, CashInvariant (fun r : List ℚ => semiVariance r (some m)) := by
  intro h
  have := h 0 [-1, 1] (by simp) 1
  revert this
  decide +kernel

/-- Three returns levered twice, and with cash. -/
example : (levered 2 [(1 : ℚ), -1, 3] = [2, -2, 6] ∧ withCash 1 [(1 : ℚ), -1, 3] = [2, 0, 4]) ∧
    variance [(1 : ℚ), -1, 3] = 4 ∧ variance (levered 2 [(1 : ℚ), -1, 3]) = 16 ∧ variance (withCash 1 [(1 : ℚ), -1, 3]) = 4 ∧
    semiVariance [(1 : ℚ), -1, 3] (some 0) = 1 / 2 ∧ semiVariance (levered 2 [(1 : ℚ), -1, 3]) (some 0) = 2 ∧
    drawdowns (levered 2 [(1 : ℚ), -1, 3]) false = [0, -2, 0] ∧
    valueAtRisk (sortPartition ℚ) (withCash 1 [(1 : ℚ), -1, 3]) (1 / 2) = some (-2) := by
  decide +kernel

end

/-! ### C106: deviations, skew, kurtosis and entropic risk -/

section

/-- `standard_deviation`, _measures.py L127-140. -/
noncomputable def standardDeviation (r : List ℝ) : ℝ := Real.sqrt (variance r)

/-- `semi_deviation`, _measures.py L143-166. -/
noncomputable def semiDeviation (r : List ℝ) (m : Option ℝ) : ℝ := Real.sqrt (semiVariance r m)

/-- `skew`, _measures.py L185-202; `none` is the NaN of a constant sample. -/
noncomputable def skew (r : List ℝ) : Option ℝ :=
  if standardDeviation r = 0 then none else some (thirdCentralMoment r / standardDeviation r ^ 3)

/-- `kurtosis`, _measures.py L221-237; `none` is the NaN of a constant sample. -/
noncomputable def kurtosis (r : List ℝ) : Option ℝ :=
  if standardDeviation r = 0 then none else some (fourthCentralMoment r / standardDeviation r ^ 4)

theorem std_leverage : ScalesWith 1 standardDeviation ∧ TargetScalesWith 1 semiDeviation := by
  obtain ⟨-, -, -, hv, hs, -⟩ := C106_leverage (K := ℝ)
  constructor
  · intro r l hl
    unfold standardDeviation
    rw [hv r l hl, Real.sqrt_mul (sq_nonneg l), Real.sqrt_sq hl, pow_one]
  · intro r m l hl
    unfold semiDeviation
    rw [hs r m l hl, Real.sqrt_mul (sq_nonneg l), Real.sqrt_sq hl, pow_one]

/-- **C106.** Standard deviation and semi-deviation are multiplied by the leverage and left alone by cash. -/
theorem C106_deviations : ScalesWith 1 standardDeviation ∧ TargetScalesWith 1 semiDeviation ∧ CashInvariant standardDeviation ∧
    TargetCashInvariant semiDeviation := by
  obtain ⟨-, -, -, hv, hs, -⟩ := C106_cash (K := ℝ)
  refine ⟨std_leverage.1, std_leverage.2, ?_, ?_⟩
  · intro r hr t
    unfold standardDeviation
    rw [hv r hr t]
  · intro r hr m t
    unfold semiDeviation
    rw [hs r hr m t]

/-- **C106.** Skew and kurtosis are the same for a portfolio, the portfolio levered, and the portfolio with cash. -/
theorem C106_skew_kurtosis (r : List ℝ) (hr : r ≠ []) (l : ℝ) (hl : 0 < l) (t : ℝ) :
    (skew (levered l r) = skew r ∧ kurtosis (levered l r) = kurtosis r) ∧ skew (withCash t r) = skew r ∧ kurtosis (withCash t r) = kurtosis r := by
  obtain ⟨-, -, -, -, -, h3, h4, -⟩ := C106_leverage (K := ℝ)
  obtain ⟨-, -, -, -, -, c3, c4, -⟩ := C106_cash (K := ℝ)
  have hs := C106_deviations.1 r l hl.le
  have hc := C106_deviations.2.2.1 r hr t
  rw [pow_one] at hs
  unfold skew kurtosis
  rw [hs, hc, h3 r l hl.le, h4 r l hl.le, c3 r hr t, c4 r hr t]
  refine ⟨?_, rfl, rfl⟩
  by_cases h0 : standardDeviation r = 0
  · simp [h0]
  · have h0' : l * standardDeviation r ≠ 0 := mul_ne_zero hl.ne' h0
    rw [if_neg h0', if_neg h0, if_neg h0', if_neg h0, mul_pow, mul_pow, mul_div_mul_left _ _ (pow_ne_zero 3 hl.ne'),
      mul_div_mul_left _ _ (pow_ne_zero 4 hl.ne')]
    exact ⟨rfl, rfl⟩

/-- **C106.** A sample that is symmetric about some value (reflecting it about that value gives the same sample in another order) has no skew, as the
docstring of `skew` promises. -/
theorem C106_symmetric_no_skew (r : List ℝ) (hr : r ≠ []) (a : ℝ) (h : (r.map fun x => 2 * a - x).Perm r) (hv : standardDeviation r ≠ 0) :
    skew r = some 0 := by
  have hrefl : (r.map fun x => 2 * a - x) = withCash (2 * a) (r.map fun x => -1 * x) := by
    unfold withCash
    rw [List.map_map]
    apply List.map_congr_left
    intro x _
    simp only [Function.comp]
    ring
  have hneg : (r.map fun x => -1 * x) ≠ [] := by simpa using hr
  have h3 : thirdCentralMoment (r.map fun x => -1 * x) = -thirdCentralMoment r := by
    unfold thirdCentralMoment
    rw [mean_mul, List.length_map, List.map_map]
    have : ((fun x => (x - -1 * mean r) ^ 3) ∘ fun x => -1 * x) = fun x => -1 * (x - mean r) ^ 3 := by
      funext x
      simp only [Function.comp]
      ring
    rw [this, List.sum_map_mul_left]
    ring
  have h0 : thirdCentralMoment r = 0 := by
    have e1 := (C106_order (K := ℝ) none).2.2.2.2.2.1 _ _ h
    obtain ⟨-, -, -, -, -, c3, -⟩ := C106_cash (K := ℝ)
    rw [hrefl, c3 _ hneg, h3] at e1
    linarith
  unfold skew
  rw [if_neg hv, h0, zero_div]

/-- A symmetric sample of four observations. -/
example : ([(1 : ℚ), 5, 2, 4].map fun x => 2 * 3 - x).Perm [1, 5, 2, 4] ∧ thirdCentralMoment [(1 : ℚ), 5, 2, 4] = 0 ∧ variance [(1 : ℚ), 5, 2, 4] ≠ 0 := by
  decide +kernel

/-- **C106.** The entropic risk of the levered portfolio at the levered risk aversion is the levered entropic risk; cash is deducted; the order of
the observations is irrelevant. -/
theorem C106_entropic (r : List ℝ) (hr : r ≠ []) (theta beta : ℝ) (ht : 0 < theta) (h1 : beta < 1) :
    (∀ l, 0 < l → entropicRiskMeasure (levered l r) (l * theta) beta = l * entropicRiskMeasure r theta beta) ∧
    (∀ t, entropicRiskMeasure (withCash t r) theta beta = entropicRiskMeasure r theta beta - t) ∧
    ∀ r', r.Perm r' → entropicRiskMeasure r theta beta = entropicRiskMeasure r' theta beta := by
  refine ⟨?_, ?_, ?_⟩
  · intro l hl
    unfold entropicRiskMeasure
    have : (levered l r).map (fun x => Real.exp (-x / (l * theta))) = r.map fun x => Real.exp (-x / theta) := by
      unfold levered
      rw [List.map_map]
      apply List.map_congr_left
      intro x _
      simp only [Function.comp]
      rw [← mul_neg, mul_div_mul_left _ _ hl.ne']
    rw [this]
    ring
  · intro t
    unfold entropicRiskMeasure
    have : (withCash t r).map (fun x => Real.exp (-x / theta)) = (r.map fun x => Real.exp (-x / theta)).map fun y => Real.exp (-t / theta) * y := by
      unfold withCash
      rw [List.map_map, List.map_map]
      apply List.map_congr_left
      intro x _
      simp only [Function.comp]
      rw [← Real.exp_add]
      congr 1
      ring
    have hpos : 0 < mean (r.map fun x => Real.exp (-x / theta)) := by
      unfold mean
      refine div_pos ?_ ?_
      · cases r with
        | nil => exact absurd rfl hr
        | cons x r =>
          rw [List.map_cons, List.sum_cons]
          have := sum_nonneg_map r (fun x => Real.exp (-x / theta)) fun x _ => (Real.exp_pos _).le
          linarith [Real.exp_pos (-x / theta)]
      · rw [List.length_map]
        exact_mod_cast List.length_pos_iff.2 hr
    rw [this, mean_mul, mul_div_assoc, Real.log_mul (Real.exp_pos _).ne' (div_pos hpos (by linarith)).ne', Real.log_exp]
    field_simp
    ring
  · intro r' h
    unfold entropicRiskMeasure
    rw [mean_perm _ _ (h.map _)]

end

end Skfolio.Measures
