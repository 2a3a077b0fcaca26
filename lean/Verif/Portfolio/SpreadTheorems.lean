import Verif.Portfolio.PopulationTheorems
import Mathlib.Analysis.Real.Sqrt
import Mathlib.Algebra.Order.BigOperators.Group.List
import Mathlib.Tactic.Linarith
import Mathlib.Tactic.Ring
import Mathlib.Tactic.FieldSimp
import Mathlib.Tactic.Positivity
import Mathlib.Tactic.NormNum

/-!
**C141.** The mean and the spread of the measures of a population.
-/

set_option autoImplicit false

namespace Skfolio.Portfolio.Pop

variable {α : Type}

/-! ### Model -/

/-- `measures`, `population/_population.py` L203-220. -/
def measures (l : List α) (m : α → ℝ) : List ℝ := l.map m

/-- `measures_mean`, L222-239: `ndarray.mean`; `none` is NaN, for an empty population. -/
noncomputable def measuresMean (l : List α) (m : α → ℝ) : Option ℝ :=
  if l = [] then none else some ((measures l m).sum / (measures l m).length)

/-- `measures_std`, L241-258: `ndarray.std`, the root of the mean of the squared deviations from the mean (`ddof=0`). -/
noncomputable def measuresStd (l : List α) (m : α → ℝ) : Option ℝ :=
  match measuresMean l m with
  | none => none
  | some μ => some (Real.sqrt (((measures l m).map fun x => (x - μ) ^ 2).sum / (measures l m).length))

/-! ### Lemmas -/

theorem sum_le_length_mul (l : List α) (f : α → ℝ) (c : ℝ) (h : ∀ x ∈ l, f x ≤ c) : (l.map f).sum ≤ l.length * c := by
  have := List.sum_le_card_nsmul (l.map f) c (by simpa using h)
  simpa using this

theorem length_mul_le_sum (l : List α) (f : α → ℝ) (c : ℝ) (h : ∀ x ∈ l, c ≤ f x) : l.length * c ≤ (l.map f).sum := by
  have := List.card_nsmul_le_sum (l.map f) c (by simpa using h)
  simpa using this

/-- The sum of the squares about any point. -/
theorem sum_sq_about (l : List α) (m : α → ℝ) (μ c : ℝ) (hμ : (l.map m).sum = l.length * μ) :
    (l.map fun x => (m x - c) ^ 2).sum = (l.map fun x => (m x - μ) ^ 2).sum + l.length * (μ - c) ^ 2 := by
  have key : ∀ l : List α, (l.map fun x => (m x - c) ^ 2).sum = (l.map fun x => (m x - μ) ^ 2).sum + 2 * (μ - c) * ((l.map m).sum - l.length * μ) + l.length * (μ - c) ^ 2 := by
    intro l
    induction l with
    | nil => simp
    | cons x xs ih =>
      simp only [List.map_cons, List.sum_cons, List.length_cons, Nat.cast_add, Nat.cast_one, ih]
      ring
  rw [key, hμ]
  ring

/-- The two numbers of a population with members. -/
theorem mean_std_eq (l : List α) (m : α → ℝ) (hl : l ≠ []) : ∃ μ, measuresMean l m = some μ ∧ (l.map m).sum = l.length * μ ∧
    measuresStd l m = some (Real.sqrt ((l.map fun x => (m x - μ) ^ 2).sum / l.length)) := by
  have hpos : (0 : ℝ) < l.length := by exact_mod_cast List.length_pos_iff.2 hl
  have h1 : measuresMean l m = some ((l.map m).sum / l.length) := by
    unfold measuresMean measures
    rw [if_neg hl, List.length_map]
  refine ⟨_, h1, by field_simp, ?_⟩
  unfold measuresStd
  rw [h1]
  simp only [measures, List.map_map, List.length_map]
  rfl

/-! ### The claim -/

/-- **C141.** An empty population has neither a mean nor a standard deviation; every other one has both. -/
theorem C141_defined (l : List α) (m : α → ℝ) : ((∃ μ, measuresMean l m = some μ) ↔ l ≠ []) ∧ ((∃ s, measuresStd l m = some s) ↔ l ≠ []) := by
  by_cases hl : l = []
  · subst hl
    simp [measuresStd, measuresMean]
  · obtain ⟨μ, h1, -, h2⟩ := mean_std_eq l m hl
    exact ⟨⟨fun _ => hl, fun _ => ⟨_, h1⟩⟩, ⟨fun _ => hl, fun _ => ⟨_, h2⟩⟩⟩

/-- **C141.** The mean is between the measures of `min_measure` and `max_measure`, and it is one of them only if all portfolios have the same measure. -/
theorem C141_mean_between (l : List α) (m : α → ℝ) (μ : ℝ) (hμ : measuresMean l m = some μ) :
    ∃ p ∈ l, ∃ q ∈ l, minMeasure l m = .ok p ∧ maxMeasure l m = .ok q ∧ m p ≤ μ ∧ μ ≤ m q ∧ ((μ = m p ∨ μ = m q) ↔ ∀ x ∈ l, m x = μ) := by
  have hl := (C141_defined l m).1.1 ⟨μ, hμ⟩
  obtain ⟨μ', h1, h2, -⟩ := mean_std_eq l m hl
  obtain rfl : μ' = μ := by rw [h1] at hμ; exact Option.some.inj hμ
  have hpos : (0 : ℝ) < l.length := by exact_mod_cast List.length_pos_iff.2 hl
  obtain ⟨⟨p, hp, p1, -, p2⟩, q, hq, q1, -, q2⟩ := C28_extremes l m hl
  have a : m p ≤ μ' := by
    have := length_mul_le_sum l m (m p) p2
    rw [h2] at this
    exact le_of_mul_le_mul_left this hpos
  have b : μ' ≤ m q := by
    have := sum_le_length_mul l m (m q) q2
    rw [h2] at this
    exact le_of_mul_le_mul_left this hpos
  refine ⟨p, hp, q, hq, p1, q1, a, b, ?_, fun h => Or.inl (h p hp).symm⟩
  rintro (h | h) x hx
  · have hz : (l.map fun x => m x - m p).sum = 0 := by
      have : ∀ l : List α, (l.map fun x => m x - m p).sum = (l.map m).sum - l.length * m p := by
        intro l
        induction l with
        | nil => simp
        | cons x xs ih => simp only [List.map_cons, List.sum_cons, List.length_cons, Nat.cast_add, Nat.cast_one, ih]; ring
      rw [this, h2, h, sub_self]
    have := List.all_zero_of_le_zero_le_of_sum_eq_zero (l := l.map fun x => m x - m p) (by simpa using p2) hz (List.mem_map_of_mem hx)
    linarith
  · have hz : (l.map fun x => m q - m x).sum = 0 := by
      have : ∀ l : List α, (l.map fun x => m q - m x).sum = l.length * m q - (l.map m).sum := by
        intro l
        induction l with
        | nil => simp
        | cons x xs ih => simp only [List.map_cons, List.sum_cons, List.length_cons, Nat.cast_add, Nat.cast_one, ih]; ring
      rw [this, h2, h, sub_self]
    have := List.all_zero_of_le_zero_le_of_sum_eq_zero (l := l.map fun x => m q - m x) (by simpa using q2) hz (List.mem_map_of_mem hx)
    linarith

/-- **C141.** The standard deviation is not negative, and it is zero exactly if all portfolios have the same measure. -/
theorem C141_std_zero_iff (l : List α) (m : α → ℝ) (s : ℝ) (hs : measuresStd l m = some s) : 0 ≤ s ∧ (s = 0 ↔ ∀ x ∈ l, ∀ y ∈ l, m x = m y) := by
  have hl := (C141_defined l m).2.1 ⟨s, hs⟩
  obtain ⟨μ, -, h2, h3⟩ := mean_std_eq l m hl
  rw [h3] at hs
  have hs' := Option.some.inj hs
  have hpos : (0 : ℝ) < l.length := by exact_mod_cast List.length_pos_iff.2 hl
  have hnn : 0 ≤ (l.map fun x => (m x - μ) ^ 2).sum := by
    have := length_mul_le_sum l (fun x => (m x - μ) ^ 2) 0 fun x _ => sq_nonneg _
    simpa using this
  refine ⟨hs' ▸ Real.sqrt_nonneg _, ?_⟩
  rw [← hs', Real.sqrt_eq_zero (by positivity), div_eq_zero_iff]
  constructor
  · rintro (h | h) x hx y hy
    · have hall : ∀ x ∈ l, m x = μ := by
        intro x hx
        have := List.all_zero_of_le_zero_le_of_sum_eq_zero (l := l.map fun x => (m x - μ) ^ 2) (by simp only [List.mem_map]; rintro _ ⟨y, -, rfl⟩; exact sq_nonneg _) h (List.mem_map_of_mem hx)
        exact sub_eq_zero.1 (pow_eq_zero_iff (by norm_num) |>.1 this)
      rw [hall x hx, hall y hy]
    · exact absurd h hpos.ne'
  · intro h
    left
    obtain ⟨x0, hx0⟩ := List.exists_mem_of_ne_nil l hl
    have e : μ = m x0 := by
      have h4 : (l.map m).sum = l.length * m x0 := by
        rw [List.map_congr_left fun x hx => h x hx x0 hx0]
        simp
      rw [h2] at h4
      exact mul_left_cancel₀ hpos.ne' h4
    rw [List.map_congr_left (g := fun _ => (0 : ℝ)) fun x hx => by rw [h x hx x0 hx0, e]; ring]
    simp

/-- **C141.** The standard deviation is at most half of the range of the measures, and no portfolio is further from the mean than `√n` standard deviations. -/
theorem C141_std_bounds (l : List α) (m : α → ℝ) (μ s : ℝ) (hμ : measuresMean l m = some μ) (hs : measuresStd l m = some s) :
    (∀ lo hi : ℝ, (∀ x ∈ l, lo ≤ m x ∧ m x ≤ hi) → s ≤ (hi - lo) / 2) ∧ ∀ x ∈ l, (m x - μ) ^ 2 ≤ l.length * s ^ 2 := by
  have hl := (C141_defined l m).2.1 ⟨s, hs⟩
  obtain ⟨μ', h1, h2, h3⟩ := mean_std_eq l m hl
  obtain rfl : μ' = μ := by rw [h1] at hμ; exact Option.some.inj hμ
  rw [h3] at hs
  have hs' := Option.some.inj hs
  have hpos : (0 : ℝ) < l.length := by exact_mod_cast List.length_pos_iff.2 hl
  have hnn : 0 ≤ (l.map fun x => (m x - μ') ^ 2).sum := by
    have := length_mul_le_sum l (fun x => (m x - μ') ^ 2) 0 fun x _ => sq_nonneg _
    simpa using this
  have hsq : s ^ 2 * l.length = (l.map fun x => (m x - μ') ^ 2).sum := by
    rw [← hs', Real.sq_sqrt (by positivity)]
    field_simp
  constructor
  · intro lo hi h
    obtain ⟨x0, hx0⟩ := List.exists_mem_of_ne_nil l hl
    have hr : 0 ≤ (hi - lo) / 2 := by have := h x0 hx0; linarith [this.1, this.2]
    have h5 := sum_sq_about l m μ' ((lo + hi) / 2) h2
    have h6 := sum_le_length_mul l (fun x => (m x - (lo + hi) / 2) ^ 2) (((hi - lo) / 2) ^ 2) fun x hx => by
      obtain ⟨u, v⟩ := h x hx
      exact sq_le_sq' (by linarith) (by linarith)
    have h7 : s ^ 2 * l.length ≤ ((hi - lo) / 2) ^ 2 * l.length := by
      rw [hsq]
      have : 0 ≤ (l.length : ℝ) * (μ' - (lo + hi) / 2) ^ 2 := by positivity
      linarith
    exact le_of_sq_le_sq (le_of_mul_le_mul_right h7 hpos) hr
  · intro x hx
    have := List.single_le_sum (l := l.map fun x => (m x - μ') ^ 2) (by simp only [List.mem_map]; rintro _ ⟨y, -, rfl⟩; exact sq_nonneg _) _ (List.mem_map_of_mem hx)
    rw [← hsq] at this
    linarith

/-- **C141.** At most a share `1 / k²` of the portfolios is `k` standard deviations or more away from the mean. -/
theorem C141_outliers (l : List α) (m : α → ℝ) (μ s k : ℝ) (hμ : measuresMean l m = some μ) (hs : measuresStd l m = some s) (h0 : 0 < s) (hk : 0 < k) :
    ((l.filter fun x => decide (k * s ≤ |m x - μ|)).length : ℝ) * k ^ 2 ≤ l.length := by
  have hl := (C141_defined l m).2.1 ⟨s, hs⟩
  obtain ⟨μ', h1, h2, h3⟩ := mean_std_eq l m hl
  obtain rfl : μ' = μ := by rw [h1] at hμ; exact Option.some.inj hμ
  rw [h3] at hs
  have hs' := Option.some.inj hs
  have hpos : (0 : ℝ) < l.length := by exact_mod_cast List.length_pos_iff.2 hl
  have hnn : 0 ≤ (l.map fun x => (m x - μ') ^ 2).sum := by
    have := length_mul_le_sum l (fun x => (m x - μ') ^ 2) 0 fun x _ => sq_nonneg _
    simpa using this
  have hsq : s ^ 2 * l.length = (l.map fun x => (m x - μ') ^ 2).sum := by
    rw [← hs', Real.sq_sqrt (by positivity)]
    field_simp
  have key : ∀ l : List α, ((l.filter fun x => decide (k * s ≤ |m x - μ'|)).length : ℝ) * (k * s) ^ 2 ≤ (l.map fun x => (m x - μ') ^ 2).sum := by
    intro l
    induction l with
    | nil => simp
    | cons x xs ih =>
      rw [List.map_cons, List.sum_cons, List.filter_cons]
      split_ifs with hx
      · have hx' := of_decide_eq_true hx
        have : (k * s) ^ 2 ≤ (m x - μ') ^ 2 := by
          rw [← sq_abs (m x - μ')]
          exact pow_le_pow_left₀ (by positivity) hx' 2
        rw [List.length_cons, Nat.cast_add, Nat.cast_one]
        linarith
      · linarith [sq_nonneg (m x - μ')]
  have := key l
  rw [← hsq] at this
  have h8 : ((l.filter fun x => decide (k * s ≤ |m x - μ'|)).length : ℝ) * k ^ 2 * s ^ 2 ≤ l.length * s ^ 2 := by
    rw [mul_pow] at this
    linarith
  exact le_of_mul_le_mul_right h8 (by positivity)

/-- **C141.** Neither depends on the order of the portfolios. -/
theorem C141_order (l l' : List α) (m : α → ℝ) (h : l.Perm l') : measuresMean l m = measuresMean l' m ∧ measuresStd l m = measuresStd l' m := by
  by_cases hl : l = []
  · subst hl
    rw [h.nil_eq]
    exact ⟨rfl, rfl⟩
  · have hl' : l' ≠ [] := fun e => hl (by subst e; exact h.eq_nil)
    obtain ⟨μ, h1, h2, h3⟩ := mean_std_eq l m hl
    obtain ⟨μ', h1', h2', h3'⟩ := mean_std_eq l' m hl'
    have hpos : (0 : ℝ) < l.length := by exact_mod_cast List.length_pos_iff.2 hl
    have e : μ = μ' := by
      rw [(h.map m).sum_eq, h2', ← h.length_eq] at h2
      exact (mul_left_cancel₀ hpos.ne' h2).symm
    subst e
    refine ⟨by rw [h1, h1'], ?_⟩
    rw [h3, h3', (h.map _).sum_eq, h.length_eq]

/-- **C141.** Scaling and shifting the measures scales and shifts the mean, and scales the standard deviation. -/
theorem C141_affine (l : List α) (m : α → ℝ) (μ s a b : ℝ) (hμ : measuresMean l m = some μ) (hs : measuresStd l m = some s) :
    measuresMean l (fun x => a * m x + b) = some (a * μ + b) ∧ measuresStd l (fun x => a * m x + b) = some (|a| * s) := by
  have hl := (C141_defined l m).2.1 ⟨s, hs⟩
  obtain ⟨μ', h1, h2, h3⟩ := mean_std_eq l m hl
  obtain rfl : μ' = μ := by rw [h1] at hμ; exact Option.some.inj hμ
  rw [h3] at hs
  have hs' := Option.some.inj hs
  obtain ⟨ν, g1, g2, g3⟩ := mean_std_eq l (fun x => a * m x + b) hl
  have hpos : (0 : ℝ) < l.length := by exact_mod_cast List.length_pos_iff.2 hl
  have e : ν = a * μ' + b := by
    have : ∀ l : List α, (l.map fun x => a * m x + b).sum = a * (l.map m).sum + l.length * b := by
      intro l
      induction l with
      | nil => simp
      | cons x xs ih => simp only [List.map_cons, List.sum_cons, List.length_cons, Nat.cast_add, Nat.cast_one, ih]; ring
    rw [this, h2] at g2
    refine mul_left_cancel₀ hpos.ne' ?_
    rw [← g2]
    ring
  subst e
  refine ⟨g1, ?_⟩
  rw [g3, ← hs', ← Real.sqrt_sq_eq_abs, ← Real.sqrt_mul (sq_nonneg a)]
  congr 2
  have : ∀ l : List α, (l.map fun x => (a * m x + b - (a * μ' + b)) ^ 2).sum = a ^ 2 * (l.map fun x => (m x - μ') ^ 2).sum := by
    intro l
    induction l with
    | nil => simp
    | cons x xs ih => simp only [List.map_cons, List.sum_cons, ih]; ring
  rw [this]
  ring

/-- **C141.** Adding two populations: the mean is the weighted mean, and the variance is the weighted mean of the variances plus what comes from the two means being different. -/
theorem C141_add (l l' : List α) (m : α → ℝ) (μ μ' s s' : ℝ) (hμ : measuresMean l m = some μ) (hμ' : measuresMean l' m = some μ') (hs : measuresStd l m = some s) (hs' : measuresStd l' m = some s') :
    ∃ ν t, measuresMean (l ++ l') m = some ν ∧ measuresStd (l ++ l') m = some t ∧ (l.length + l'.length) * ν = l.length * μ + l'.length * μ' ∧
      (l.length + l'.length) * t ^ 2 = l.length * s ^ 2 + l'.length * s' ^ 2 + l.length * l'.length / (l.length + l'.length) * (μ - μ') ^ 2 := by
  have hl := (C141_defined l m).2.1 ⟨s, hs⟩
  have hl' := (C141_defined l' m).2.1 ⟨s', hs'⟩
  obtain ⟨μ1, h1, h2, h3⟩ := mean_std_eq l m hl
  obtain rfl : μ1 = μ := by rw [h1] at hμ; exact Option.some.inj hμ
  obtain ⟨μ2, h1', h2', h3'⟩ := mean_std_eq l' m hl'
  obtain rfl : μ2 = μ' := by rw [h1'] at hμ'; exact Option.some.inj hμ'
  obtain ⟨ν, g1, g2, g3⟩ := mean_std_eq (l ++ l') m (by simp [hl])
  rw [h3] at hs
  rw [h3'] at hs'
  have e := Option.some.inj hs
  have e' := Option.some.inj hs'
  have nn : ∀ (l : List α) (c : ℝ), 0 ≤ (l.map fun x => (m x - c) ^ 2).sum := by
    intro l c
    have := length_mul_le_sum l (fun x => (m x - c) ^ 2) 0 fun x _ => sq_nonneg _
    simpa using this
  have hpos : (0 : ℝ) < l.length := by exact_mod_cast List.length_pos_iff.2 hl
  have hpos' : (0 : ℝ) < l'.length := by exact_mod_cast List.length_pos_iff.2 hl'
  have hν : ((l.length : ℝ) + l'.length) * ν = l.length * μ1 + l'.length * μ2 := by
    rw [List.map_append, List.sum_append, h2, h2', List.length_append, Nat.cast_add] at g2
    exact g2.symm
  refine ⟨ν, _, g1, g3, hν, ?_⟩
  have q1 : l.length * s ^ 2 = (l.map fun x => (m x - μ1) ^ 2).sum := by
    rw [← e, Real.sq_sqrt (div_nonneg (nn _ _) hpos.le)]
    field_simp
  have q2 : l'.length * s' ^ 2 = (l'.map fun x => (m x - μ2) ^ 2).sum := by
    rw [← e', Real.sq_sqrt (div_nonneg (nn _ _) hpos'.le)]
    field_simp
  rw [Real.sq_sqrt (div_nonneg (nn _ _) (by positivity)), q1, q2, List.map_append, List.sum_append, sum_sq_about l m μ1 ν h2, sum_sq_about l' m μ2 ν h2', List.length_append, Nat.cast_add]
  have hne : (l.length : ℝ) + l'.length ≠ 0 := by positivity
  have hν' : ν = (l.length * μ1 + l'.length * μ2) / (l.length + l'.length) := by
    rw [← hν]
    field_simp
  rw [hν']
  field_simp
  ring

/-- Three portfolios with measures 1, 2 and 6. -/
example : measuresMean [1, 2, 6] (fun x : ℕ => (x : ℝ)) = some 3 ∧ measuresStd [1, 2, 6] (fun x : ℕ => (x : ℝ)) = some (Real.sqrt (14 / 3)) := by
  have h : measuresMean [1, 2, 6] (fun x : ℕ => (x : ℝ)) = some 3 := by
    unfold measuresMean measures
    rw [if_neg (by simp)]
    norm_num
  refine ⟨h, ?_⟩
  unfold measuresStd
  rw [h]
  norm_num [measures]

end Skfolio.Portfolio.Pop
