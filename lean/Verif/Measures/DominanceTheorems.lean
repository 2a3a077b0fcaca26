import Verif.Measures.MixTheorems

/-!
C110: better returns are never measured as riskier. If the returns of one portfolio are at every observation at least those of another one, then its mean is at least as high and its
downside risks, measured against a fixed target, are at most as high.
-/
set_option autoImplicit false

namespace Skfolio.Measures

/-! ### Specification -/

/-- At every observation the second portfolio returns at least as much as the first. -/
def NowhereWorse {K : Type} [LE K] (r r' : List K) : Prop := List.Forall₂ (· ≤ ·) r r'

/-- A risk that better returns do not raise. -/
def Respects (f : List ℝ → ℝ) : Prop := ∀ r r', NowhereWorse r r' → f r' ≤ f r

/-- Same for a risk that is not always defined. -/
def RespectsIfDefined (f : List ℝ → Option ℝ) : Prop := ∀ r r', NowhereWorse r r' → ∀ a b, f r = some a → f r' = some b → b ≤ a

/-! ### C110 -/

theorem sum_antitone (g : ℝ → ℝ) (hg : ∀ x y, x ≤ y → g y ≤ g x) (r r' : List ℝ) (h : NowhereWorse r r') : (r'.map g).sum ≤ (r.map g).sum := by
  induction h with
  | nil => simp
  | cons hab _ ih =>
    simp only [List.map_cons, List.sum_cons]
    exact add_le_add (hg _ _ hab) ih

/-- **C110.** The mean is not lower. -/
theorem C110_mean (r r' : List ℝ) (h : NowhereWorse r r') : mean r ≤ mean r' := by
  unfold mean
  rw [← h.length_eq]
  refine div_le_div_of_nonneg_right ?_ (Nat.cast_nonneg _)
  induction h with
  | nil => simp
  | cons hab _ ih =>
    simp only [List.sum_cons]
    exact add_le_add hab ih

theorem respects_of (g : ℝ → ℝ) (hg : ∀ x y, x ≤ y → g y ≤ g x) (m : ℝ) (d : Nat → ℝ) (hd : ∀ n, 0 < n → 0 ≤ d n) :
    Respects fun r => (r.map fun x => g (x - m)).sum / d r.length := by
  intro r r' h
  by_cases hr : r = []
  · subst hr
    cases h
    exact le_rfl
  · simp only
    rw [← h.length_eq]
    exact div_le_div_of_nonneg_right (sum_antitone (fun x => g (x - m)) (fun x y hxy => hg _ _ (by linarith)) r r' h) (hd _ (List.length_pos_iff.2 hr))

theorem loss_antitone (x y : ℝ) (h : x ≤ y) : -min 0 y ≤ -min 0 x := by
  have := min_le_min (le_refl (0 : ℝ)) h
  linarith

/-- **C110.** The risks measured against a fixed target are not higher: first and fourth lower partial moments, semi-variance and semi-deviation. -/
theorem C110_fixed_target (m : ℝ) : Respects (fun r => firstLowerPartialMoment r (some m)) ∧ Respects (fun r => semiVariance r (some m)) ∧
    Respects (fun r => semiDeviation r (some m)) ∧ Respects (fun r => fourthLowerPartialMoment r (some m)) := by
  have hl : ∀ n : Nat, 0 < n → (0 : ℝ) ≤ (n : ℝ) := fun n _ => Nat.cast_nonneg n
  have h2 : ∀ x y : ℝ, x ≤ y → (min 0 y) ^ 2 ≤ (min 0 x) ^ 2 := by
    intro x y h
    have h3 := loss_antitone x y h
    have h4 := loss_nonneg y
    nlinarith
  have h4 : ∀ x y : ℝ, x ≤ y → (min 0 y) ^ 4 ≤ (min 0 x) ^ 4 := by
    intro x y h
    have := pow_le_pow_left₀ (sq_nonneg _) (h2 x y h) 2
    calc (min 0 y) ^ 4 = ((min 0 y) ^ 2) ^ 2 := by ring
      _ ≤ ((min 0 x) ^ 2) ^ 2 := this
      _ = (min 0 x) ^ 4 := by ring
  have hsv := respects_of (fun x => (min 0 x) ^ 2) h2 m (fun n => (n : ℝ) - 1) pred_nonneg
  refine ⟨?_, hsv, fun r r' h => Real.sqrt_le_sqrt (hsv r r' h), respects_of (fun x => (min 0 x) ^ 4) h4 m (fun n => (n : ℝ)) hl⟩
  intro r r' h
  unfold firstLowerPartialMoment
  simp only
  rw [← h.length_eq]
  refine div_le_div_of_nonneg_right ?_ (Nat.cast_nonneg _)
  have e : ∀ r : List ℝ, -(r.map fun x => min 0 (x - m)).sum = (r.map fun x => -min 0 (x - m)).sum := by
    intro r
    induction r with
    | nil => simp
    | cons x r ih =>
      simp only [List.map_cons, List.sum_cons, ← ih]
      ring
  change -(r'.map fun x => min 0 (x - m)).sum ≤ -(r.map fun x => min 0 (x - m)).sum
  rw [e, e]
  exact sum_antitone (fun x => -min 0 (x - m)) (fun x y hxy => loss_antitone _ _ (by linarith)) r r' h

theorem count_le_of (v v' : ℝ) (hv : v < v') (r r' : List ℝ) (h : NowhereWorse r r') :
    r'.countP (fun x => decide (v' ≤ -x)) ≤ r.countP (fun x => decide (v < -x)) := by
  induction h with
  | nil => simp
  | @cons a b r r' hab _ ih =>
    rw [List.countP_cons, List.countP_cons]
    by_cases h1 : v' ≤ -b
    · have h2 : v < -a := by linarith
      simp only [h1, h2, decide_true, if_true]
      omega
    · simp only [h1, decide_false, Bool.false_eq_true, if_false]
      split <;> omega

/-- **C110.** The worst realization, the value at risk, the conditional value at risk and, for every risk aversion, the entropic risk measure are not higher. -/
theorem C110_tail (P : Partition ℝ) (beta : ℝ) (h0 : 0 ≤ beta) (h1 : beta < 1) :
    RespectsIfDefined worstRealization ∧ RespectsIfDefined (fun r => valueAtRisk P r beta) ∧ RespectsIfDefined (fun r => cvar P r beta) ∧
    ∀ theta, 0 < theta → ∀ r r', r ≠ [] → NowhereWorse r r' → entropicRiskMeasure r' theta beta ≤ entropicRiskMeasure r theta beta := by
  have hne : ∀ r r' : List ℝ, NowhereWorse r r' → r ≠ [] → r' ≠ [] := fun r r' h hr e => hr (by subst e; cases h; rfl)
  refine ⟨fun r r' h a b ha hb => worst_monotone r r' h a b ha hb, fun r r' h a b ha hb => ?_, fun r r' h a b ha hb => ?_,
    fun theta ht r r' hr h => entropic_monotone r r' hr h theta beta ht h1⟩
  · have hr : r ≠ [] := by
      rintro rfl
      have e : P.run [] (tailIndex beta 0) = [] := List.Perm.eq_nil (P.perm [] _)
      simp [valueAtRisk, e] at ha
    have h2 := (C12_var_iff_quantile P r hr beta h0 h1 a).1 ha
    have h3 := (C12_var_iff_quantile P r' (hne r r' h hr) beta h0 h1 b).1 hb
    by_contra hlt
    push Not at hlt
    have h4 := count_le_of a b hlt r r' h
    have h5 : ((r'.countP (fun x => decide (b ≤ -x)) : Nat) : ℝ) ≤ ((r.countP (fun x => decide (a < -x)) : Nat) : ℝ) := by exact_mod_cast h4
    have h6 := h2.1
    have h7 := h3.2
    rw [← h.length_eq] at h7
    linarith
  · by_cases hr : r = []
    · subst hr
      cases h
      simp only [ha, Option.some.injEq] at hb
      rw [hb]
    · exact C13_monotone P r r' hr beta h0 h1 h a b ha hb

/-! ### C110: drawdowns -/

theorem getD_le (r r' : List ℝ) (h : NowhereWorse r r') (k : Nat) : r.getD k 0 ≤ r'.getD k 0 := by
  induction h generalizing k with
  | nil => simp
  | cons hab _ ih =>
    cases k with
    | zero => simpa using hab
    | succ k => simpa using ih k

theorem wealth_succ (r : List ℝ) (k : Nat) : wealth r false (k + 1) = wealth r false k + r.getD (k + 1) 0 := by
  unfold wealth
  simp only [Bool.false_eq_true, if_false]
  by_cases hk : k + 1 < r.length
  · rw [List.take_succ_eq_append_getElem hk, List.sum_append]
    simp [List.getD, hk]
  · rw [List.take_of_length_le (by omega : r.length ≤ k + 1 + 1), List.take_of_length_le (by omega : r.length ≤ k + 1)]
    simp [List.getD, hk]

theorem wealth_succ_compounded (r : List ℝ) (k : Nat) : wealth r true (k + 1) = wealth r true k * (1 + r.getD (k + 1) 0) := by
  unfold wealth
  simp only [if_true]
  by_cases hk : k + 1 < r.length
  · rw [List.take_succ_eq_append_getElem hk, List.map_append, List.prod_append]
    simp [List.getD, hk]
    ring
  · rw [List.take_of_length_le (by omega : r.length ≤ k + 1 + 1), List.take_of_length_le (by omega : r.length ≤ k + 1)]
    simp [List.getD, hk]

theorem gain_le (r r' : List ℝ) (h : NowhereWorse r r') (i k : Nat) : wealth r false (i + k) - wealth r false i ≤ wealth r' false (i + k) - wealth r' false i := by
  induction k with
  | zero => simp
  | succ k ih =>
    rw [← add_assoc, wealth_succ, wealth_succ]
    have := getD_le r r' h (i + k + 1)
    linarith

theorem getD_gt (r : List ℝ) (h : ∀ x ∈ r, -1 < x) (k : Nat) : 0 < 1 + r.getD k 0 := by
  by_cases hk : k < r.length
  · have := h _ (List.getElem_mem hk)
    simp only [List.getD, List.getElem?_eq_getElem hk, Option.getD_some]
    linarith
  · simp [List.getD, hk]

theorem growth_le (r r' : List ℝ) (h : NowhereWorse r r') (hp : ∀ x ∈ r, -1 < x) (hp' : ∀ x ∈ r', -1 < x) (i k : Nat) :
    wealth r true (i + k) / wealth r true i ≤ wealth r' true (i + k) / wealth r' true i := by
  induction k with
  | zero =>
    have h1 := (wealth_pos r hp i).ne'
    have h2 := (wealth_pos r' hp' i).ne'
    simp [h1, h2]
  | succ k ih =>
    rw [← add_assoc, wealth_succ_compounded, wealth_succ_compounded, mul_div_right_comm, mul_div_right_comm]
    have h1 := getD_le r r' h (i + k + 1)
    refine mul_le_mul ih (by linarith) (getD_gt r hp _).le ?_
    exact div_nonneg (wealth_pos r' hp' _).le (wealth_pos r' hp' _).le

/-- **C110.** No drawdown is deeper (with compounding: for returns above -1). -/
theorem C110_drawdowns (r r' : List ℝ) (h : NowhereWorse r r') (compounded : Bool) (hp : compounded = true → ∀ x ∈ r, -1 < x) :
    NowhereWorse (drawdowns r compounded) (drawdowns r' compounded) := by
  have hp' : compounded = true → ∀ x ∈ r', -1 < x := by
    intro hc
    have := hp hc
    clear hp
    induction h with
    | nil => simp
    | cons hab _ ih =>
      intro x hx
      rw [List.mem_cons] at hx
      rcases hx with rfl | hx
      · exact lt_of_lt_of_le (this _ (by simp)) hab
      · exact ih (fun y hy => this y (by simp [hy])) x hx
  refine List.forall₂_iff_get.2 ⟨?_, ?_⟩
  · rw [length_drawdowns, length_drawdowns, h.length_eq]
  · intro k hk hk'
    have e1 := (C14_shortfall r compounded).2 k (by rwa [length_drawdowns] at hk)
    have e2 := (C14_shortfall r' compounded).2 k (by rwa [length_drawdowns] at hk')
    rw [List.getElem?_eq_some_iff] at e1 e2
    obtain ⟨_, e1⟩ := e1
    obtain ⟨_, e2⟩ := e2
    simp only [List.get_eq_getElem, e1, e2]
    obtain ⟨i, hi, hi2⟩ := Finset.exists_mem_eq_sup' (s := Finset.range (k + 1)) ⟨0, by simp⟩ (wealth r' compounded)
    have hik : i ≤ k := by
      have := Finset.mem_range.1 hi
      omega
    obtain ⟨j, rfl⟩ : ∃ j, k = i + j := ⟨k - i, by omega⟩
    have hpk : peak r' compounded (i + j) = wealth r' compounded i := hi2
    have hle : wealth r compounded i ≤ peak r compounded (i + j) := Finset.le_sup' (wealth r compounded) hi
    unfold shortfall
    cases compounded with
    | false =>
      simp only [Bool.false_eq_true, if_false]
      have := gain_le r r' h i j
      rw [hpk]
      linarith
    | true =>
      simp only [if_true]
      rw [hpk]
      have h1 := growth_le r r' h (hp rfl) (hp' rfl) i j
      have h2 : wealth r true (i + j) / peak r true (i + j) ≤ wealth r true (i + j) / wealth r true i :=
        div_le_div_of_nonneg_left (wealth_pos r (hp rfl) _).le (wealth_pos r (hp rfl) _) hle
      linarith

/-- **C110.** Nor is any measure of the drawdowns higher: maximum, average, at risk, conditional, entropic, ulcer index. -/
theorem C110_drawdown_measures (P : Partition ℝ) (r r' : List ℝ) (hr : r ≠ []) (h : NowhereWorse r r') (compounded : Bool)
    (hp : compounded = true → ∀ x ∈ r, -1 < x) (beta : ℝ) (h0 : 0 ≤ beta) (h1 : beta < 1) :
    (∀ a b, maxDrawdown P (drawdowns r compounded) = some a → maxDrawdown P (drawdowns r' compounded) = some b → b ≤ a) ∧
    (∀ a b, averageDrawdown P (drawdowns r compounded) = some a → averageDrawdown P (drawdowns r' compounded) = some b → b ≤ a) ∧
    (∀ a b, drawdownAtRisk P (drawdowns r compounded) beta = some a → drawdownAtRisk P (drawdowns r' compounded) beta = some b → b ≤ a) ∧
    (∀ a b, cdar P (drawdowns r compounded) beta = some a → cdar P (drawdowns r' compounded) beta = some b → b ≤ a) ∧
    (∀ theta, 0 < theta → entropicRiskMeasure (drawdowns r' compounded) theta beta ≤ entropicRiskMeasure (drawdowns r compounded) theta beta) ∧
    ulcerIndex (drawdowns r' compounded) ≤ ulcerIndex (drawdowns r compounded) := by
  have hd := C110_drawdowns r r' h compounded hp
  have hne : drawdowns r compounded ≠ [] := by
    rw [← List.length_pos_iff, length_drawdowns]
    exact List.length_pos_iff.2 hr
  obtain ⟨t1, t2, t3, t4⟩ := C110_tail P beta h0 h1
  refine ⟨?_, ?_, fun a b => t2 _ _ hd a b, fun a b => t3 _ _ hd a b, fun theta ht => t4 theta ht _ _ hne hd, ?_⟩
  · intro a b ha hb
    unfold maxDrawdown drawdownAtRisk at ha hb
    rw [C12_var_one] at ha hb
    exact t1 _ _ hd a b ha hb
  · intro a b
    exact (C110_tail P 0 le_rfl one_pos).2.2.1 _ _ hd a b
  · unfold ulcerIndex ulcerSquared
    refine Real.sqrt_le_sqrt ?_
    rw [← hd.length_eq]
    refine div_le_div_of_nonneg_right ?_ (Nat.cast_nonneg _)
    have hp' : compounded = true → ∀ x ∈ r', -1 < x := by
      intro hc
      have := hp hc
      clear hp hd hne hr
      induction h with
      | nil => simp
      | cons hab _ ih =>
        intro x hx
        rw [List.mem_cons] at hx
        rcases hx with rfl | hx
        · exact lt_of_lt_of_le (this _ (by simp)) hab
        · exact ih (fun y hy => this y (by simp [hy])) x hx
    have hneg := (C14_nonpositive r' compounded hp').1
    generalize drawdowns r compounded = u at hd ⊢
    generalize drawdowns r' compounded = v at hd hneg ⊢
    clear hne
    induction hd with
    | nil => simp
    | cons hab _ ih =>
      simp only [List.map_cons, List.sum_cons]
      refine add_le_add ?_ (ih fun d hd => hneg d (by simp [hd]))
      have := hneg _ List.mem_cons_self
      nlinarith

/-! ### C110: what better returns can raise -/

/-- C110: with the default target, the mean, a larger gain raises the semi-variance; and it raises the variance. -/
theorem C110_two_sided_false : (¬ ∀ r r' : List ℚ, NowhereWorse r r' → semiVariance r' none ≤ semiVariance r none) ∧
    ¬ ∀ r r' : List ℚ, NowhereWorse r r' → variance r' ≤ variance r := by
  constructor
  · intro h
    have := h [0, 0] [0, 2] (by simp [NowhereWorse])
    revert this
    decide +kernel
  · intro h
    have := h [0, 0] [0, 2] (by simp [NowhereWorse])
    revert this
    decide +kernel

/-- Two portfolios that meet the hypotheses, with returns above -1. -/
example : NowhereWorse [(1 : ℝ), -1 / 2, 2] [2, -1 / 2, 5 / 2] ∧ ∀ x ∈ [(1 : ℝ), -1 / 2, 2], -1 < x := by
  unfold NowhereWorse
  norm_num

end Skfolio.Measures
