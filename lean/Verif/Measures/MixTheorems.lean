import Verif.Measures.ScaleTheorems
import Mathlib.Analysis.Convex.SpecificFunctions.Basic
import Mathlib.Analysis.Convex.Jensen
import Mathlib.Data.List.OfFn

/-!
C109: mixing portfolios does not raise their risk. For the risk measures of `src/skfolio/measures/_measures.py` the risk of a mix (rebalanced at every observation, as in
`Portfolio`) is at most the mix of the risks; hence the risk of a long-only, fully invested portfolio is at most the weighted average of the risks of its assets.
-/
set_option autoImplicit false

namespace Skfolio.Measures

/-! ### Specification -/

/-- Returns of the portfolio that holds the share `t` of the first and `1 - t` of the second. -/
def mixed {K : Type} [Field K] (t : K) (r r' : List K) : List K := List.zipWith (fun x y => t * x + (1 - t) * y) r r'

/-- The risk of a mix is at most the mix of the risks. -/
def Diversifies (f : List ℝ → ℝ) : Prop :=
  ∀ (r r' : List ℝ) (t : ℝ), r.length = r'.length → 0 ≤ t → t ≤ 1 → f (mixed t r r') ≤ t * f r + (1 - t) * f r'

/-- Returns of asset `i`. -/
def assetReturns {T n : Nat} (X : Fin T → Fin n → ℝ) (i : Fin n) : List ℝ := List.ofFn fun t => X t i

/-- Returns of the portfolio with weights `w`. -/
def weightedReturns {T n : Nat} (X : Fin T → Fin n → ℝ) (w : Fin n → ℝ) : List ℝ := List.ofFn fun t => ∑ i, w i * X t i

/-- The risk of a long-only, fully invested portfolio is at most the weighted average of the risks of its assets. -/
def BelowAverage (f : List ℝ → ℝ) : Prop :=
  ∀ (T n : Nat) (X : Fin T → Fin n → ℝ) (w : Fin n → ℝ), (∀ i, 0 ≤ w i) → ∑ i, w i = 1 →
    f (weightedReturns X w) ≤ ∑ i, w i * f (assetReturns X i)

/-- `e` is the entropic value at risk: the greatest lower bound of the entropic risk measures over all risk aversions. -/
def IsEvar (r : List ℝ) (beta e : ℝ) : Prop := IsGLB {x | ∃ theta, 0 < theta ∧ x = entropicRiskMeasure r theta beta} e

/-! ### Lemmas -/

theorem mixed_nil {K : Type} [Field K] (t : K) (r' : List K) : mixed t [] r' = [] := rfl

theorem length_mixed {K : Type} [Field K] (t : K) (r r' : List K) (h : r.length = r'.length) : (mixed t r r').length = r.length := by
  simp [mixed, h]

theorem mixed_cons {K : Type} [Field K] (t x y : K) (r r' : List K) : mixed t (x :: r) (y :: r') = (t * x + (1 - t) * y) :: mixed t r r' := rfl

theorem sum_mixed {K : Type} [Field K] (t : K) (r r' : List K) (h : r.length = r'.length) : (mixed t r r').sum = t * r.sum + (1 - t) * r'.sum := by
  induction r generalizing r' with
  | nil =>
    cases r' with
    | nil => simp [mixed]
    | cons y r' => simp at h
  | cons x r ih =>
    cases r' with
    | nil => simp at h
    | cons y r' =>
      rw [mixed_cons, List.sum_cons, List.sum_cons, List.sum_cons, ih r' (by simpa using h)]
      ring

theorem mean_mixed (t : ℝ) (r r' : List ℝ) (h : r.length = r'.length) : mean (mixed t r r') = t * mean r + (1 - t) * mean r' := by
  unfold mean
  rw [length_mixed t r r' h, sum_mixed t r r' h, ← h]
  ring

theorem mar_mixed (t : ℝ) (r r' : List ℝ) (h : r.length = r'.length) (m : Option ℝ) : mar (mixed t r r') m = t * mar r m + (1 - t) * mar r' m := by
  cases m with
  | none => exact mean_mixed t r r' h
  | some m =>
    change m = t * m + (1 - t) * m
    ring

/-- A convex function of one number. -/
def Cup (g : ℝ → ℝ) : Prop := ∀ t x y, 0 ≤ t → t ≤ 1 → g (t * x + (1 - t) * y) ≤ t * g x + (1 - t) * g y

theorem sum_cup (g : ℝ → ℝ) (hg : Cup g) (t : ℝ) (h0 : 0 ≤ t) (h1 : t ≤ 1) (r r' : List ℝ) (h : r.length = r'.length) (a b : ℝ) :
    ((mixed t r r').map fun x => g (x - (t * a + (1 - t) * b))).sum ≤ t * (r.map fun x => g (x - a)).sum + (1 - t) * (r'.map fun x => g (x - b)).sum := by
  induction r generalizing r' with
  | nil =>
    cases r' with
    | nil => simp [mixed]
    | cons y r' => simp at h
  | cons x r ih =>
    cases r' with
    | nil => simp at h
    | cons y r' =>
      rw [mixed_cons]
      simp only [List.map_cons, List.sum_cons]
      have h2 := ih r' (by simpa using h)
      have h3 := hg t (x - a) (y - b) h0 h1
      have e : t * x + (1 - t) * y - (t * a + (1 - t) * b) = t * (x - a) + (1 - t) * (y - b) := by ring
      rw [e]
      linarith

/-- A measure that averages a convex function of the deviations from the target. -/
theorem diversifies_of_cup (g : ℝ → ℝ) (hg : Cup g) (m : Option ℝ) (d : Nat → ℝ) (hd : ∀ n, 0 < n → 0 ≤ d n) :
    Diversifies fun r => (r.map fun x => g (x - mar r m)).sum / d r.length := by
  intro r r' t h h0 h1
  by_cases hr : r = []
  · subst hr
    have : r' = [] := List.length_eq_zero_iff.1 h.symm
    subst this
    simp [mixed]
  · have hn := hd r.length (List.length_pos_iff.2 hr)
    have h2 := sum_cup g hg t h0 h1 r r' h (mar r m) (mar r' m)
    simp only
    rw [length_mixed t r r' h, mar_mixed t r r' h m, ← h]
    have h3 := div_le_div_of_nonneg_right h2 hn
    calc _ ≤ _ := h3
      _ = _ := by ring

theorem cup_sq : Cup fun x => x ^ 2 := by
  intro t x y h0 h1
  have : 0 ≤ t * (1 - t) * (x - y) ^ 2 := by
    have := mul_nonneg h0 (by linarith : 0 ≤ 1 - t)
    positivity
  simp only
  nlinarith

/-- The square of a non-negative convex function is convex. -/
theorem cup_comp_sq (g : ℝ → ℝ) (hg : Cup g) (hn : ∀ x, 0 ≤ g x) : Cup fun x => g x ^ 2 := by
  intro t x y h0 h1
  simp only
  have h2 := hg t x y h0 h1
  have h3 := cup_sq t (g x) (g y) h0 h1
  simp only at h3
  exact (pow_le_pow_left₀ (hn _) h2 2).trans h3

theorem cup_abs : Cup fun x => |x| := by
  intro t x y h0 h1
  refine (abs_add_le _ _).trans ?_
  rw [abs_mul, abs_mul, abs_of_nonneg h0, abs_of_nonneg (by linarith : 0 ≤ 1 - t)]

theorem cup_loss : Cup fun x => -min 0 x := by
  intro t x y h0 h1
  have h2 : min 0 x ≤ 0 := min_le_left _ _
  have h3 : min 0 x ≤ x := min_le_right _ _
  have h4 : min 0 y ≤ 0 := min_le_left _ _
  have h5 : min 0 y ≤ y := min_le_right _ _
  have h6 : 0 ≤ 1 - t := by linarith
  have : t * min 0 x + (1 - t) * min 0 y ≤ min 0 (t * x + (1 - t) * y) := by
    refine le_min ?_ ?_ <;> nlinarith
  simp only
  linarith

theorem loss_nonneg (x : ℝ) : 0 ≤ -min 0 x := by linarith [min_le_left 0 x]

theorem pred_nonneg (n : Nat) (h : 0 < n) : (0 : ℝ) ≤ (n : ℝ) - 1 := by
  have : (1 : ℝ) ≤ n := by exact_mod_cast h
  linarith

theorem cup_congr {g g' : ℝ → ℝ} (h : g = g') (hg : Cup g) : Cup g' := h ▸ hg

/-! ### C109: dispersion -/

/-- **C109.** Mixing does not raise the mean absolute deviation, the first and fourth lower partial moments, the variance, the semi-variance and the fourth central moment. -/
theorem C109_moments (m : Option ℝ) :
    Diversifies (fun r => meanAbsoluteDeviation r m) ∧ Diversifies (fun r => firstLowerPartialMoment r m) ∧ Diversifies variance ∧
    Diversifies (fun r => semiVariance r m) ∧ Diversifies fourthCentralMoment ∧ Diversifies (fun r => fourthLowerPartialMoment r m) := by
  have hl : ∀ n : Nat, 0 < n → (0 : ℝ) ≤ (n : ℝ) := fun n _ => Nat.cast_nonneg n
  have c2 : Cup fun x => (min 0 x) ^ 2 := cup_congr (by funext x; ring) (cup_comp_sq _ cup_loss loss_nonneg)
  have c4 : Cup fun x => (min 0 x) ^ 4 := cup_congr (by funext x; ring) (cup_comp_sq _ c2 fun x => sq_nonneg _)
  have d4 : Cup fun x => x ^ 4 := cup_congr (by funext x; ring) (cup_comp_sq _ cup_sq fun x => sq_nonneg _)
  refine ⟨?_, ?_, diversifies_of_cup _ cup_sq none (fun n => (n : ℝ) - 1) pred_nonneg, diversifies_of_cup _ c2 m (fun n => (n : ℝ) - 1) pred_nonneg,
    diversifies_of_cup _ d4 none (fun n => (n : ℝ)) hl, diversifies_of_cup _ c4 m (fun n => (n : ℝ)) hl⟩
  · have h := diversifies_of_cup _ cup_abs m (fun n => (n : ℝ)) hl
    have e : (fun r => meanAbsoluteDeviation r m) = fun r : List ℝ => (r.map fun x => |x - mar r m|).sum / (r.length : ℝ) := by
      funext r
      simp [meanAbsoluteDeviation, mean]
    rw [e]
    exact h
  · have h := diversifies_of_cup _ cup_loss m (fun n => (n : ℝ)) hl
    have e : (fun r => firstLowerPartialMoment r m) = fun r : List ℝ => (r.map fun x => -min 0 (x - mar r m)).sum / (r.length : ℝ) := by
      funext r
      have : (r.map fun x => -min 0 (x - mar r m)).sum = -(r.map fun x => min 0 (x - mar r m)).sum := by
        generalize mar r m = a
        induction r with
        | nil => simp
        | cons x r ih =>
          simp only [List.map_cons, List.sum_cons, ih]
          ring
      rw [this]
      rfl
    rw [e]
    exact h

/-- Cauchy-Schwarz for lists. -/
theorem sum_mul_le_sqrt (u v : List ℝ) (h : u.length = v.length) :
    (List.zipWith (fun x y => x * y) u v).sum ≤ √(u.map fun x => x ^ 2).sum * √(v.map fun x => x ^ 2).sum := by
  induction u generalizing v with
  | nil =>
    cases v with
    | nil => simp
    | cons y v => simp at h
  | cons x u ih =>
    cases v with
    | nil => simp at h
    | cons y v =>
      simp only [List.zipWith_cons_cons, List.map_cons, List.sum_cons]
      have h2 := ih v (by simpa using h)
      have hA : 0 ≤ (u.map fun x => x ^ 2).sum := List.sum_nonneg (by simp only [List.mem_map]; rintro _ ⟨z, -, rfl⟩; positivity)
      have hB : 0 ≤ (v.map fun x => x ^ 2).sum := List.sum_nonneg (by simp only [List.mem_map]; rintro _ ⟨z, -, rfl⟩; positivity)
      generalize (u.map fun x => x ^ 2).sum = A at hA h2 ⊢
      generalize (v.map fun x => x ^ 2).sum = B at hB h2 ⊢
      rw [← Real.sqrt_mul (by positivity)]
      refine le_trans (by linarith : _ ≤ x * y + √A * √B) (Real.le_sqrt_of_sq_le ?_)
      have eA := Real.sq_sqrt hA
      have eB := Real.sq_sqrt hB
      generalize √A = a at eA ⊢
      generalize √B = b at eB ⊢
      rw [← eA, ← eB]
      nlinarith [sq_nonneg (x * b - y * a)]

/-- Minkowski for lists. -/
theorem sqrt_mixed (t : ℝ) (h0 : 0 ≤ t) (h1 : t ≤ 1) (u v : List ℝ) (h : u.length = v.length) :
    √((mixed t u v).map fun x => x ^ 2).sum ≤ t * √(u.map fun x => x ^ 2).sum + (1 - t) * √(v.map fun x => x ^ 2).sum := by
  have hc := sum_mul_le_sqrt u v h
  have e : ((mixed t u v).map fun x => x ^ 2).sum =
      t ^ 2 * (u.map fun x => x ^ 2).sum + (1 - t) ^ 2 * (v.map fun x => x ^ 2).sum + 2 * (t * (1 - t)) * (List.zipWith (fun x y => x * y) u v).sum := by
    clear hc
    induction u generalizing v with
    | nil =>
      cases v with
      | nil => simp [mixed]
      | cons y v => simp at h
    | cons x u ih =>
      cases v with
      | nil => simp at h
      | cons y v =>
        rw [mixed_cons]
        simp only [List.zipWith_cons_cons, List.map_cons, List.sum_cons]
        rw [ih v (by simpa using h)]
        ring
  have hA : 0 ≤ (u.map fun x => x ^ 2).sum := List.sum_nonneg (by simp only [List.mem_map]; rintro _ ⟨z, -, rfl⟩; positivity)
  have hB : 0 ≤ (v.map fun x => x ^ 2).sum := List.sum_nonneg (by simp only [List.mem_map]; rintro _ ⟨z, -, rfl⟩; positivity)
  have h2 : 0 ≤ 1 - t := by linarith
  rw [e]
  refine Real.sqrt_le_iff.2 ⟨by positivity, ?_⟩
  have eA := Real.sq_sqrt hA
  have eB := Real.sq_sqrt hB
  have := mul_le_mul_of_nonneg_left hc (mul_nonneg h0 h2)
  nlinarith

theorem sqrt_sum_le (t : ℝ) (h0 : 0 ≤ t) (h1 : t ≤ 1) (z u v : List ℝ) (h : u.length = v.length)
    (hz : List.Forall₂ (fun a b => a ^ 2 ≤ b ^ 2) z (mixed t u v)) :
    √(z.map fun x => x ^ 2).sum ≤ t * √(u.map fun x => x ^ 2).sum + (1 - t) * √(v.map fun x => x ^ 2).sum := by
  refine le_trans (Real.sqrt_le_sqrt ?_) (sqrt_mixed t h0 h1 u v h)
  generalize mixed t u v = q at hz ⊢
  induction hz with
  | nil => simp
  | cons hab _ ih =>
    simp only [List.map_cons, List.sum_cons]
    linarith

/-- A root of a mean of squares of a non-negative convex function of the deviations. -/
theorem diversifies_root (g : ℝ → ℝ) (m : Option ℝ) (d : Nat → ℝ) (hd : ∀ n, 0 < n → 0 ≤ d n)
    (hg : ∀ t x y, 0 ≤ t → t ≤ 1 → g (t * x + (1 - t) * y) ^ 2 ≤ (t * g x + (1 - t) * g y) ^ 2) :
    Diversifies fun r => √((r.map fun x => g (x - mar r m) ^ 2).sum / d r.length) := by
  intro r r' t h h0 h1
  by_cases hr : r = []
  · subst hr
    have : r' = [] := List.length_eq_zero_iff.1 h.symm
    subst this
    simp [mixed]
  · have hn := hd r.length (List.length_pos_iff.2 hr)
    simp only
    rw [length_mixed t r r' h, mar_mixed t r r' h m, ← h]
    have key := sqrt_sum_le t h0 h1 ((mixed t r r').map fun x => g (x - (t * mar r m + (1 - t) * mar r' m)))
      (r.map fun x => g (x - mar r m)) (r'.map fun x => g (x - mar r' m)) (by simpa using h) (by
        generalize mar r m = a
        generalize mar r' m = b
        clear hr hn
        induction r generalizing r' with
        | nil => simp [mixed]
        | cons x r ih =>
          cases r' with
          | nil => simp at h
          | cons y r' =>
            rw [mixed_cons]
            simp only [List.map_cons]
            refine List.Forall₂.cons ?_ (ih r' (by simpa using h))
            have e : t * x + (1 - t) * y - (t * a + (1 - t) * b) = t * (x - a) + (1 - t) * (y - b) := by ring
            rw [e]
            exact hg t (x - a) (y - b) h0 h1)
    simp only [List.map_map, Function.comp_def] at key
    rw [Real.sqrt_div' _ hn, Real.sqrt_div' _ hn, Real.sqrt_div' _ hn]
    have := div_le_div_of_nonneg_right key (Real.sqrt_nonneg (d r.length))
    calc _ ≤ _ := this
      _ = _ := by ring

/-- **C109.** Nor the standard deviation and the semi-deviation. -/
theorem C109_deviations (m : Option ℝ) : Diversifies standardDeviation ∧ Diversifies fun r => semiDeviation r m := by
  constructor
  · have h := diversifies_root (fun x => x) none (fun n => (n : ℝ) - 1) pred_nonneg fun t x y _ _ => le_rfl
    exact h
  · refine diversifies_root (fun x => min 0 x) m (fun n => (n : ℝ) - 1) pred_nonneg fun t x y h0 h1 => ?_
    have h2 := cup_loss t x y h0 h1
    have h3 := loss_nonneg (t * x + (1 - t) * y)
    simp only at h2
    nlinarith

/-- **C109.** Nor the Gini mean difference. -/
theorem C109_gini : Diversifies giniMeanDifference := by
  intro r r' t h h0 h1
  rw [C15_gini, C15_gini, C15_gini]
  unfold meanAbsDifference
  rw [length_mixed t r r' h, ← h]
  by_cases hr : r = []
  · subst hr
    simp
  have hn : 0 < r.length := List.length_pos_iff.2 hr
  have hd : 0 ≤ (r.length : ℝ) * ((r.length : ℝ) - 1) := mul_nonneg (Nat.cast_nonneg _) (pred_nonneg _ hn)
  have hget : ∀ i, i < r.length → (mixed t r r').getD i 0 = t * r.getD i 0 + (1 - t) * r'.getD i 0 := by
    intro i hi
    have hi' : i < r'.length := h ▸ hi
    simp [mixed, List.getD, hi, hi']
  have hsum : ∀ (l : List Nat) (f g k : Nat → ℝ), (∀ i ∈ l, f i ≤ t * g i + (1 - t) * k i) → (l.map f).sum ≤ t * (l.map g).sum + (1 - t) * (l.map k).sum := by
    intro l f g k hl
    induction l with
    | nil => simp
    | cons i l ih =>
      simp only [List.map_cons, List.sum_cons]
      have := hl i (by simp)
      have := ih fun j hj => hl j (by simp [hj])
      linarith
  have key := hsum (List.range r.length) (fun i => ((List.range r.length).map fun j => |(mixed t r r').getD i 0 - (mixed t r r').getD j 0|).sum)
    (fun i => ((List.range r.length).map fun j => |r.getD i 0 - r.getD j 0|).sum)
    (fun i => ((List.range r.length).map fun j => |r'.getD i 0 - r'.getD j 0|).sum) (by
      intro i hi
      refine hsum _ _ _ _ fun j hj => ?_
      rw [hget i (List.mem_range.1 hi), hget j (List.mem_range.1 hj)]
      have := cup_abs t (r.getD i 0 - r.getD j 0) (r'.getD i 0 - r'.getD j 0) h0 h1
      simp only at this
      have e : t * r.getD i 0 + (1 - t) * r'.getD i 0 - (t * r.getD j 0 + (1 - t) * r'.getD j 0) =
        t * (r.getD i 0 - r.getD j 0) + (1 - t) * (r'.getD i 0 - r'.getD j 0) := by ring
      rw [e]
      exact this)
  have := div_le_div_of_nonneg_right key hd
  calc _ ≤ _ := this
    _ = _ := by ring

/-! ### C109: tails -/

theorem worst_mixed (t : ℝ) (h0 : 0 ≤ t) (h1 : t ≤ 1) (r r' : List ℝ) (h : r.length = r'.length) (a b c : ℝ) (ha : worstRealization r = some a)
    (hb : worstRealization r' = some b) (hc : worstRealization (mixed t r r') = some c) : c ≤ t * a + (1 - t) * b := by
  have h2 := (C12_worst r a ha).2
  have h3 := (C12_worst r' b hb).2
  obtain ⟨x, hx, rfl⟩ := (C12_worst _ c hc).1
  have : ∃ y ∈ r, ∃ z ∈ r', x = t * y + (1 - t) * z := by
    clear ha hb hc h2 h3
    induction r generalizing r' with
    | nil => simp [mixed] at hx
    | cons y r ih =>
      cases r' with
      | nil => simp [mixed] at hx
      | cons z r' =>
        rw [mixed_cons, List.mem_cons] at hx
        rcases hx with rfl | hx
        · exact ⟨y, by simp, z, by simp, rfl⟩
        · obtain ⟨y', hy, z', hz, e⟩ := ih r' (by simpa using h) hx
          exact ⟨y', by simp [hy], z', by simp [hz], e⟩
  obtain ⟨y, hy, z, hz, rfl⟩ := this
  have h4 := h2 y hy
  have h5 := h3 z hz
  nlinarith

theorem mixed_ne_nil {r r' : List ℝ} (t : ℝ) (hr : r ≠ []) (h : r.length = r'.length) : mixed t r r' ≠ [] := by
  rw [← List.length_pos_iff, length_mixed t r r' h]
  exact List.length_pos_iff.2 hr

/-- **C109.** Nor the worst realization and the conditional value at risk at any level. -/
theorem C109_tail (P : Partition ℝ) (beta : ℝ) (hb0 : 0 ≤ beta) (hb1 : beta < 1) :
    Diversifies (fun r => (worstRealization r).getD 0) ∧ Diversifies fun r => (cvar P r beta).getD 0 := by
  constructor
  · intro r r' t h h0 h1
    by_cases hr : r = []
    · subst hr
      have : r' = [] := List.length_eq_zero_iff.1 h.symm
      subst this
      simp [mixed, worstRealization]
    · have hr' : r' ≠ [] := by
        rw [← List.length_pos_iff, ← h]
        exact List.length_pos_iff.2 hr
      obtain ⟨-, -, a, ha⟩ := C12_defined P r hr beta hb0 hb1
      obtain ⟨-, -, b, hb⟩ := C12_defined P r' hr' beta hb0 hb1
      obtain ⟨-, -, c, hc⟩ := C12_defined P _ (mixed_ne_nil t hr h) beta hb0 hb1
      simp only [ha, hb, hc, Option.getD_some]
      exact worst_mixed t h0 h1 r r' h a b c ha hb hc
  · intro r r' t h h0 h1
    by_cases hr : r = []
    · subst hr
      have : r' = [] := List.length_eq_zero_iff.1 h.symm
      subst this
      have e : mixed t [] [] = ([] : List ℝ) := rfl
      simp only [e]
      linarith
    · have hr' : r' ≠ [] := by
        rw [← List.length_pos_iff, ← h]
        exact List.length_pos_iff.2 hr
      obtain ⟨-, ⟨a, ha⟩, -⟩ := C12_defined P r hr beta hb0 hb1
      obtain ⟨-, ⟨b, hb⟩, -⟩ := C12_defined P r' hr' beta hb0 hb1
      obtain ⟨-, ⟨c, hc⟩, -⟩ := C12_defined P _ (mixed_ne_nil t hr h) beta hb0 hb1
      simp only [ha, hb, hc, Option.getD_some]
      exact C13_convex P r r' hr h beta hb0 hb1 a b c t h0 h1 ha hb hc

/-! ### C109: entropic measures -/

theorem mean_exp_pos (r : List ℝ) (hr : r ≠ []) (theta : ℝ) : 0 < mean (r.map fun x => Real.exp (-x / theta)) := by
  unfold mean
  have hn : (0 : ℝ) < ((r.map fun x => Real.exp (-x / theta)).length : ℝ) := by
    rw [List.length_map]
    exact_mod_cast List.length_pos_iff.2 hr
  refine div_pos ?_ hn
  cases r with
  | nil => exact absurd rfl hr
  | cons x r =>
    simp only [List.map_cons, List.sum_cons]
    have : 0 ≤ (r.map fun x => Real.exp (-x / theta)).sum := List.sum_nonneg (by simp only [List.mem_map]; rintro _ ⟨z, -, rfl⟩; positivity)
    have := Real.exp_pos (-x / theta)
    linarith

/-- **C109.** Nor the entropic risk measures: the mix with the mixed risk aversion. -/
theorem C109_entropic (r r' : List ℝ) (hr : r ≠ []) (h : r.length = r'.length) (t : ℝ) (h0 : 0 ≤ t) (h1 : t ≤ 1) (theta theta' beta : ℝ) (ht : 0 < theta)
    (ht' : 0 < theta') (hb : beta < 1) :
    entropicRiskMeasure (mixed t r r') (t * theta + (1 - t) * theta') beta ≤ t * entropicRiskMeasure r theta beta + (1 - t) * entropicRiskMeasure r' theta' beta := by
  have h2 : 0 ≤ 1 - t := by linarith
  have hr' : r' ≠ [] := by
    rw [← List.length_pos_iff, ← h]
    exact List.length_pos_iff.2 hr
  set phi := t * theta + (1 - t) * theta' with hphi
  have hp : 0 < phi := by
    rcases eq_or_lt_of_le h0 with e | e
    · rw [hphi, ← e]
      linarith
    · have := mul_pos e ht
      have := mul_nonneg h2 ht'.le
      linarith
  have hM := mean_exp_pos r hr theta
  have hM' := mean_exp_pos r' hr' theta'
  have hQ := mean_exp_pos _ (mixed_ne_nil t hr h) phi
  unfold entropicRiskMeasure
  have hs : t * theta / phi + (1 - t) * theta' / phi = 1 := by
    rw [← add_div, ← hphi, div_self hp.ne']
  have hs0 : 0 ≤ t * theta / phi := by positivity
  have hs1 : 0 ≤ (1 - t) * theta' / phi := by positivity
  set s := t * theta / phi with hsd
  set s' := (1 - t) * theta' / phi with hsd'
  set A := Real.log (mean (r.map fun x => Real.exp (-x / theta))) with hA
  set B := Real.log (mean (r'.map fun x => Real.exp (-x / theta'))) with hB
  have key : mean ((mixed t r r').map fun x => Real.exp (-x / phi)) ≤ Real.exp (s * A + s' * B) := by
    have hsum : ((mixed t r r').map fun x => Real.exp (-x / phi)).sum ≤
        Real.exp (s * A + s' * B) * (s * Real.exp (-A) * (r.map fun x => Real.exp (-x / theta)).sum + s' * Real.exp (-B) * (r'.map fun x => Real.exp (-x / theta')).sum) := by
      generalize A = a
      generalize B = b
      clear hM hM' hQ hr hr' hA hB A B
      induction r generalizing r' with
      | nil =>
        cases r' with
        | nil => simp [mixed]
        | cons y r' => simp at h
      | cons x r ih =>
        cases r' with
        | nil => simp at h
        | cons y r' =>
          rw [mixed_cons]
          simp only [List.map_cons, List.sum_cons]
          have h3 := ih r' (by simpa using h)
          have h4 := convexOn_exp.2 (Set.mem_univ (-x / theta - a)) (Set.mem_univ (-y / theta' - b)) hs0 hs1 hs
          simp only [smul_eq_mul] at h4
          have e : -(t * x + (1 - t) * y) / phi = (s * a + s' * b) + (s * (-x / theta - a) + s' * (-y / theta' - b)) := by
            rw [hsd, hsd']
            field_simp
            ring
          rw [e, Real.exp_add]
          have h5 := mul_le_mul_of_nonneg_left h4 (Real.exp_pos (s * a + s' * b)).le
          have e1 : Real.exp (-x / theta - a) = Real.exp (-a) * Real.exp (-x / theta) := by rw [← Real.exp_add]; ring_nf
          have e2 : Real.exp (-y / theta' - b) = Real.exp (-b) * Real.exp (-y / theta') := by rw [← Real.exp_add]; ring_nf
          rw [e1, e2] at h5
          linarith
    have hn : (0 : ℝ) < (r.length : ℝ) := by exact_mod_cast List.length_pos_iff.2 hr
    have e1 : (r.map fun x => Real.exp (-x / theta)).sum = Real.exp A * r.length := by
      rw [hA, Real.exp_log hM]
      unfold mean
      rw [List.length_map]
      field_simp
    have e2 : (r'.map fun x => Real.exp (-x / theta')).sum = Real.exp B * r.length := by
      rw [hB, Real.exp_log hM', h]
      unfold mean
      rw [List.length_map]
      rw [h] at hn
      field_simp
    rw [e1, e2] at hsum
    unfold mean
    rw [List.length_map, length_mixed t r r' h, div_le_iff₀ hn]
    refine hsum.trans (le_of_eq ?_)
    have e3 : Real.exp (-A) * Real.exp A = 1 := by rw [← Real.exp_add]; simp
    have e4 : Real.exp (-B) * Real.exp B = 1 := by rw [← Real.exp_add]; simp
    have e5 : s * Real.exp (-A) * (Real.exp A * r.length) + s' * Real.exp (-B) * (Real.exp B * r.length) = r.length := by
      calc _ = s * (Real.exp (-A) * Real.exp A) * r.length + s' * (Real.exp (-B) * Real.exp B) * r.length := by ring
        _ = (s + s') * r.length := by rw [e3, e4]; ring
        _ = r.length := by rw [hs, one_mul]
    rw [e5]
  have hl := Real.log_le_log hQ key
  rw [Real.log_exp] at hl
  have hb' : 1 - beta ≠ 0 := by
    have : 0 < 1 - beta := by linarith
    exact this.ne'
  rw [Real.log_div hQ.ne' hb', Real.log_div hM.ne' hb', Real.log_div hM'.ne' hb', ← hA, ← hB]
  have h6 := mul_le_mul_of_nonneg_left hl hp.le
  have e : phi * (s * A + s' * B) = t * theta * A + (1 - t) * theta' * B := by
    rw [hsd, hsd']
    field_simp
  rw [e] at h6
  rw [hphi] at h6 ⊢
  nlinarith

/-- **C109.** Hence the entropic value at risk. -/
theorem C109_evar (r r' : List ℝ) (hr : r ≠ []) (h : r.length = r'.length) (t : ℝ) (h0 : 0 ≤ t) (h1 : t ≤ 1) (beta : ℝ) (hb : beta < 1) (a b c : ℝ)
    (ha : IsEvar r beta a) (hb' : IsEvar r' beta b) (hc : IsEvar (mixed t r r') beta c) : c ≤ t * a + (1 - t) * b := by
  have h2 : 0 ≤ 1 - t := by linarith
  have key : ∀ theta theta', 0 < theta → 0 < theta' → c ≤ t * entropicRiskMeasure r theta beta + (1 - t) * entropicRiskMeasure r' theta' beta := by
    intro theta theta' ht ht'
    refine le_trans (hc.1 ⟨t * theta + (1 - t) * theta', ?_, rfl⟩) (C109_entropic r r' hr h t h0 h1 theta theta' beta ht ht' hb)
    rcases eq_or_lt_of_le h0 with e | e
    · rw [← e]
      linarith
    · have := mul_pos e ht
      have := mul_nonneg h2 ht'.le
      linarith
  have k1 : ∀ theta', 0 < theta' → c ≤ t * a + (1 - t) * entropicRiskMeasure r' theta' beta := by
    intro theta' ht'
    rcases eq_or_lt_of_le h0 with e | e
    · have := key 1 theta' one_pos ht'
      rw [← e] at this ⊢
      linarith
    · have : (c - (1 - t) * entropicRiskMeasure r' theta' beta) / t ≤ a := by
        refine ha.2 ?_
        rintro _ ⟨theta, ht, rfl⟩
        rw [div_le_iff₀ e]
        have := key theta theta' ht ht'
        linarith
      rw [div_le_iff₀ e] at this
      linarith
  rcases eq_or_lt_of_le h2 with e | e
  · have := k1 1 one_pos
    rw [← e] at this ⊢
    linarith
  · have : (c - t * a) / (1 - t) ≤ b := by
      refine hb'.2 ?_
      rintro _ ⟨theta, ht, rfl⟩
      rw [div_le_iff₀ e]
      have := k1 theta ht
      linarith
    rw [div_le_iff₀ e] at this
    linarith

/-- Better returns have no larger entropic risk. -/
theorem entropic_monotone (r r' : List ℝ) (hr : r ≠ []) (hle : List.Forall₂ (· ≤ ·) r r') (theta beta : ℝ) (ht : 0 < theta) (hb : beta < 1) :
    entropicRiskMeasure r' theta beta ≤ entropicRiskMeasure r theta beta := by
  have hr' : r' ≠ [] := fun h => hr (by subst h; cases hle; rfl)
  have hb' : 0 < 1 - beta := by linarith
  unfold entropicRiskMeasure
  refine mul_le_mul_of_nonneg_left (Real.log_le_log (div_pos (mean_exp_pos r' hr' theta) hb') (div_le_div_of_nonneg_right ?_ hb'.le)) ht.le
  unfold mean
  rw [List.length_map, List.length_map, ← hle.length_eq]
  refine div_le_div_of_nonneg_right ?_ (Nat.cast_nonneg _)
  clear hr hr'
  induction hle with
  | nil => simp
  | cons hab _ ih =>
    simp only [List.map_cons, List.sum_cons]
    refine add_le_add (Real.exp_le_exp.2 ?_) ih
    exact div_le_div_of_nonneg_right (by linarith) ht.le

/-! ### C109: drawdowns -/

theorem wealth_mixed (t : ℝ) (r r' : List ℝ) (h : r.length = r'.length) (k : Nat) :
    wealth (mixed t r r') false k = t * wealth r false k + (1 - t) * wealth r' false k := by
  unfold wealth
  simp only [Bool.false_eq_true, if_false]
  rw [← sum_mixed t (r.take (k + 1)) (r'.take (k + 1)) (by simp [h])]
  unfold mixed
  rw [List.take_zipWith]

/-- Without compounding, the drawdowns of a mix are nowhere deeper than the mix of the drawdowns. -/
theorem drawdowns_mixed (t : ℝ) (h0 : 0 ≤ t) (h1 : t ≤ 1) (r r' : List ℝ) (h : r.length = r'.length) :
    List.Forall₂ (· ≤ ·) (mixed t (drawdowns r false) (drawdowns r' false)) (drawdowns (mixed t r r') false) := by
  have h2 : 0 ≤ 1 - t := by linarith
  have hl : (drawdowns r false).length = (drawdowns r' false).length := by rw [length_drawdowns, length_drawdowns, h]
  refine List.forall₂_iff_get.2 ⟨?_, ?_⟩
  · rw [length_mixed t _ _ hl, length_drawdowns, length_drawdowns, length_mixed t r r' h]
  · intro k hk hk'
    have hkr : k < r.length := by rwa [length_drawdowns, length_mixed t r r' h] at hk'
    have hkr' : k < r'.length := h ▸ hkr
    have e1 := (C14_shortfall r false).2 k hkr
    have e2 := (C14_shortfall r' false).2 k hkr'
    have e3 := (C14_shortfall (mixed t r r') false).2 k (by rwa [length_mixed t r r' h])
    rw [List.getElem?_eq_some_iff] at e1 e2 e3
    obtain ⟨i1, e1⟩ := e1
    obtain ⟨i2, e2⟩ := e2
    obtain ⟨i3, e3⟩ := e3
    simp only [List.get_eq_getElem]
    rw [e3]
    have e4 : (mixed t (drawdowns r false) (drawdowns r' false))[k]'(by simpa using hk) = t * shortfall r false k + (1 - t) * shortfall r' false k := by
      simp only [mixed, List.getElem_zipWith, e1, e2]
    rw [e4]
    unfold shortfall
    simp only [Bool.false_eq_true, if_false]
    rw [wealth_mixed t r r' h]
    have hp : peak (mixed t r r') false k ≤ t * peak r false k + (1 - t) * peak r' false k := by
      unfold peak
      refine Finset.sup'_le _ _ fun i hi => ?_
      rw [wealth_mixed t r r' h]
      have a1 := Finset.le_sup' (wealth r false) hi
      have a2 := Finset.le_sup' (wealth r' false) hi
      exact add_le_add (mul_le_mul_of_nonneg_left a1 h0) (mul_le_mul_of_nonneg_left a2 h2)
    linarith

theorem worst_monotone (r r' : List ℝ) (hle : List.Forall₂ (· ≤ ·) r r') (a b : ℝ) (ha : worstRealization r = some a)
    (hb : worstRealization r' = some b) : b ≤ a := by
  obtain ⟨x, hx, rfl⟩ := (C12_worst r' b hb).1
  have h2 := (C12_worst r a ha).2
  have : ∃ y ∈ r, y ≤ x := by
    clear ha hb h2
    induction hle with
    | nil => simp at hx
    | cons hab _ ih =>
      rw [List.mem_cons] at hx
      rcases hx with rfl | hx
      · exact ⟨_, by simp, hab⟩
      · obtain ⟨y, hy, e⟩ := ih hx
        exact ⟨y, by simp [hy], e⟩
  obtain ⟨y, hy, e⟩ := this
  have := h2 y hy
  linarith

/-- **C109.** Without compounding, nor the maximum, average and conditional drawdowns and the ulcer index. -/
theorem C109_drawdowns (P : Partition ℝ) (beta : ℝ) (hb0 : 0 ≤ beta) (hb1 : beta < 1) :
    Diversifies (fun r => (maxDrawdown P (drawdowns r false)).getD 0) ∧ Diversifies (fun r => (averageDrawdown P (drawdowns r false)).getD 0) ∧
    Diversifies (fun r => (cdar P (drawdowns r false) beta).getD 0) ∧ Diversifies (fun r => ulcerIndex (drawdowns r false)) := by
  have hd : ∀ r : List ℝ, r ≠ [] → drawdowns r false ≠ [] := by
    intro r hr
    rw [← List.length_pos_iff, length_drawdowns]
    exact List.length_pos_iff.2 hr
  have hc : ∀ b : ℝ, 0 ≤ b → b < 1 → Diversifies (fun r => (cdar P (drawdowns r false) b).getD 0) := by
    intro b hb0 hb1 r r' t h h0 h1
    by_cases hr : r = []
    · subst hr
      have : r' = [] := List.length_eq_zero_iff.1 h.symm
      subst this
      have e : mixed t [] [] = ([] : List ℝ) := rfl
      simp only [e]
      linarith
    · have hm := mixed_ne_nil t hr h
      have hr' : r' ≠ [] := by
        rw [← List.length_pos_iff, ← h]
        exact List.length_pos_iff.2 hr
      have hl : (drawdowns r false).length = (drawdowns r' false).length := by rw [length_drawdowns, length_drawdowns, h]
      have h3 := (C109_tail P b hb0 hb1).2 (drawdowns r false) (drawdowns r' false) t hl h0 h1
      obtain ⟨-, ⟨x, hx⟩, -⟩ := C12_defined P _ (hd _ hm) b hb0 hb1
      obtain ⟨-, ⟨y, hy⟩, -⟩ := C12_defined P _ (mixed_ne_nil t (hd r hr) hl) b hb0 hb1
      have h4 := C13_monotone P _ _ (mixed_ne_nil t (hd r hr) hl) b hb0 hb1 (drawdowns_mixed t h0 h1 r r' h) y x hy hx
      simp only [hy, Option.getD_some] at h3
      unfold cdar
      simp only [hx, Option.getD_some]
      linarith
  refine ⟨?_, hc 0 le_rfl one_pos, hc beta hb0 hb1, ?_⟩
  · intro r r' t h h0 h1
    by_cases hr : r = []
    · subst hr
      have : r' = [] := List.length_eq_zero_iff.1 h.symm
      subst this
      have e : mixed t [] [] = ([] : List ℝ) := rfl
      simp only [e]
      linarith
    · have hm := mixed_ne_nil t hr h
      have hl : (drawdowns r false).length = (drawdowns r' false).length := by rw [length_drawdowns, length_drawdowns, h]
      have h3 := (C109_tail P beta hb0 hb1).1 (drawdowns r false) (drawdowns r' false) t hl h0 h1
      obtain ⟨-, -, x, hx⟩ := C12_defined P _ (hd _ hm) beta hb0 hb1
      obtain ⟨-, -, y, hy⟩ := C12_defined P _ (mixed_ne_nil t (hd r hr) hl) beta hb0 hb1
      have h4 := worst_monotone _ _ (drawdowns_mixed t h0 h1 r r' h) y x hy hx
      simp only [hy, Option.getD_some] at h3
      unfold maxDrawdown drawdownAtRisk
      simp only [C12_var_one, hx, Option.getD_some]
      linarith
  · intro r r' t h h0 h1
    have hl : (drawdowns r false).length = (drawdowns r' false).length := by rw [length_drawdowns, length_drawdowns, h]
    have hneg := (C14_nonpositive (mixed t r r') false (by simp)).1
    have h3 := drawdowns_mixed t h0 h1 r r' h
    have key := sqrt_sum_le t h0 h1 (drawdowns (mixed t r r') false) (drawdowns r false) (drawdowns r' false) hl (by
      generalize drawdowns (mixed t r r') false = z at h3 hneg ⊢
      generalize mixed t (drawdowns r false) (drawdowns r' false) = q at h3 ⊢
      induction h3 with
      | nil => exact .nil
      | cons hab _ ih =>
        refine .cons ?_ (ih fun d hd => hneg d (by simp [hd]))
        have := hneg _ (List.mem_cons_self)
        nlinarith)
    unfold ulcerIndex ulcerSquared
    simp only
    rw [length_drawdowns, length_drawdowns, length_drawdowns, length_mixed t r r' h, ← h]
    have hn : (0 : ℝ) ≤ (r.length : ℝ) := Nat.cast_nonneg _
    rw [Real.sqrt_div' _ hn, Real.sqrt_div' _ hn, Real.sqrt_div' _ hn]
    have := div_le_div_of_nonneg_right key (Real.sqrt_nonneg (r.length : ℝ))
    calc _ ≤ _ := this
      _ = _ := by ring

/-- **C109.** Nor the entropic drawdown at risk. -/
theorem C109_edar (r r' : List ℝ) (hr : r ≠ []) (h : r.length = r'.length) (t : ℝ) (h0 : 0 ≤ t) (h1 : t ≤ 1) (beta : ℝ) (hb : beta < 1) (a b c : ℝ)
    (ha : IsEvar (drawdowns r false) beta a) (hb' : IsEvar (drawdowns r' false) beta b) (hc : IsEvar (drawdowns (mixed t r r') false) beta c) :
    c ≤ t * a + (1 - t) * b := by
  have hl : (drawdowns r false).length = (drawdowns r' false).length := by rw [length_drawdowns, length_drawdowns, h]
  have hd : drawdowns r false ≠ [] := by
    rw [← List.length_pos_iff, length_drawdowns]
    exact List.length_pos_iff.2 hr
  have hm := mixed_ne_nil t hd hl
  have h2 : 0 ≤ 1 - t := by linarith
  have key : ∀ theta theta', 0 < theta → 0 < theta' →
      c ≤ t * entropicRiskMeasure (drawdowns r false) theta beta + (1 - t) * entropicRiskMeasure (drawdowns r' false) theta' beta := by
    intro theta theta' ht ht'
    have hp : 0 < t * theta + (1 - t) * theta' := by
      rcases eq_or_lt_of_le h0 with e | e
      · rw [← e]
        linarith
      · have := mul_pos e ht
        have := mul_nonneg h2 ht'.le
        linarith
    refine le_trans (hc.1 ⟨_, hp, rfl⟩) (le_trans (entropic_monotone _ _ hm (drawdowns_mixed t h0 h1 r r' h) _ beta hp hb) ?_)
    exact C109_entropic _ _ hd hl t h0 h1 theta theta' beta ht ht' hb
  have k1 : ∀ theta', 0 < theta' → c ≤ t * a + (1 - t) * entropicRiskMeasure (drawdowns r' false) theta' beta := by
    intro theta' ht'
    rcases eq_or_lt_of_le h0 with e | e
    · have := key 1 theta' one_pos ht'
      rw [← e] at this ⊢
      linarith
    · have : (c - (1 - t) * entropicRiskMeasure (drawdowns r' false) theta' beta) / t ≤ a := by
        refine ha.2 ?_
        rintro _ ⟨theta, ht, rfl⟩
        rw [div_le_iff₀ e]
        have := key theta theta' ht ht'
        linarith
      rw [div_le_iff₀ e] at this
      linarith
  rcases eq_or_lt_of_le h2 with e | e
  · have := k1 1 one_pos
    rw [← e] at this ⊢
    linarith
  · have : (c - t * a) / (1 - t) ≤ b := by
      refine hb'.2 ?_
      rintro _ ⟨theta, ht, rfl⟩
      rw [div_le_iff₀ e]
      have := k1 theta ht
      linarith
    rw [div_le_iff₀ e] at this
    linarith

/-! ### C109: portfolios of many assets -/

/-- **C109.** Any risk that mixing does not raise is, for a long-only, fully invested portfolio of any number of assets, at most the weighted average of the risks of the assets. -/
theorem C109_assets (f : List ℝ → ℝ) (hf : Diversifies f) : BelowAverage f := by
  intro T n X w hw hs
  have hc : ConvexOn ℝ Set.univ fun v : Fin T → ℝ => f (List.ofFn v) := by
    refine ⟨convex_univ, fun u _ v _ a b ha hb hab => ?_⟩
    have e : b = 1 - a := by linarith
    subst e
    have h := hf (List.ofFn u) (List.ofFn v) a (by simp) ha (by linarith)
    have e2 : mixed a (List.ofFn u) (List.ofFn v) = List.ofFn (a • u + (1 - a) • v) := by
      unfold mixed
      refine List.ext_getElem (by simp) fun i h1 h2 => ?_
      simp
    rw [e2] at h
    simpa using h
  have h := hc.map_sum_le (t := Finset.univ) (w := w) (p := fun i t => X t i) (fun i _ => hw i) hs fun i _ => Set.mem_univ _
  have e : (∑ i, w i • fun t => X t i) = fun t => ∑ i, w i * X t i := by
    funext t
    simp [Finset.sum_apply]
  rw [e] at h
  simpa [weightedReturns, assetReturns] using h

/-- Three assets, five observations: the hypotheses are met and the inequality is strict. -/
example : mixed (1 / 2 : ℚ) [1, -3, 2] [-1, 1, 0] = [0, -1, 1] ∧ variance [(0 : ℚ), -1, 1] = 1 ∧
    (1 / 2 : ℚ) * variance [(1 : ℚ), -3, 2] + (1 - 1 / 2) * variance [(-1 : ℚ), 1, 0] = 4 := by
  decide +kernel

/-! ### C109: what does not diversify -/

/-- C109: the value at risk of a mix can be larger than both values at risk. -/
theorem C109_var_false : ¬ ∀ (r r' : List ℚ) (t : ℚ), r.length = r'.length → 0 ≤ t → t ≤ 1 → ∀ a b c, valueAtRisk (sortPartition ℚ) r (1 / 2) = some a →
    valueAtRisk (sortPartition ℚ) r' (1 / 2) = some b → valueAtRisk (sortPartition ℚ) (mixed t r r') (1 / 2) = some c → c ≤ t * a + (1 - t) * b := by
  intro h
  have := h [-4, 0, 0, 0] [0, -4, 0, 0] (1 / 2) rfl (by norm_num) (by norm_num) 0 0 2 (by decide +kernel) (by decide +kernel) (by decide +kernel)
  norm_num at this

/-- C109: with compounding, the maximum drawdown of a mix can exceed the mix of the maximum drawdowns. -/
theorem C109_compounded_false : ¬ ∀ (r r' : List ℚ) (t : ℚ), r.length = r'.length → 0 ≤ t → t ≤ 1 → ∀ a b c, maxDrawdown (sortPartition ℚ) (drawdowns r true) = some a →
    maxDrawdown (sortPartition ℚ) (drawdowns r' true) = some b → maxDrawdown (sortPartition ℚ) (drawdowns (mixed t r r') true) = some c → c ≤ t * a + (1 - t) * b := by
  intro h
  have := h [0, -1 / 4, -1 / 4] [0, 0, 0] (1 / 2) rfl (by norm_num) (by norm_num) (7 / 16) 0 (15 / 64) (by decide +kernel) (by decide +kernel) (by decide +kernel)
  norm_num at this

end Skfolio.Measures
