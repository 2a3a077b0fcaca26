import Verif.Measures.TailTheorems
import Mathlib.Data.List.GetD
import Mathlib.Algebra.Order.BigOperators.Ring.List
import Mathlib.Algebra.BigOperators.Ring.Finset

/-! Helper lemmas about drawdowns and dispersion measures. -/
set_option autoImplicit false

namespace Skfolio.Measures

section
variable {K : Type} [Field K] [LinearOrder K] [IsStrictOrderedRing K]

/-! ### cumulated series -/

omit [LinearOrder K] [IsStrictOrderedRing K] in
theorem length_cumsumFrom (r : List K) (acc : K) : (cumsumFrom acc r).length = r.length := by
  induction r generalizing acc with
  | nil => rfl
  | cons x r ih => rw [cumsumFrom, List.length_cons, ih, List.length_cons]

omit [LinearOrder K] [IsStrictOrderedRing K] in
theorem length_cumprodFrom (r : List K) (acc : K) : (cumprodFrom acc r).length = r.length := by
  induction r generalizing acc with
  | nil => rfl
  | cons x r ih => rw [cumprodFrom, List.length_cons, ih, List.length_cons]

omit [LinearOrder K] [IsStrictOrderedRing K] in
theorem cumsumFrom_get (r : List K) (acc : K) (t : Nat) (ht : t < r.length) : (cumsumFrom acc r)[t]? = some (acc + (r.take (t + 1)).sum) := by
  induction r generalizing acc t with
  | nil => simp at ht
  | cons x r ih =>
    cases t with
    | zero => simp [cumsumFrom]
    | succ t =>
      simp only [cumsumFrom, List.getElem?_cons_succ, List.take_succ_cons, List.sum_cons]
      rw [ih (acc + x) t (by simpa using ht), add_assoc]

omit [LinearOrder K] [IsStrictOrderedRing K] in
theorem cumprodFrom_get (r : List K) (acc : K) (t : Nat) (ht : t < r.length) : (cumprodFrom acc r)[t]? = some (acc * (r.take (t + 1)).prod) := by
  induction r generalizing acc t with
  | nil => simp at ht
  | cons x r ih =>
    cases t with
    | zero => simp [cumprodFrom]
    | succ t =>
      simp only [cumprodFrom, List.getElem?_cons_succ, List.take_succ_cons, List.prod_cons]
      rw [ih (acc * x) t (by simpa using ht), mul_assoc]

omit [LinearOrder K] [IsStrictOrderedRing K] in
theorem length_cumulativeReturns (r : List K) (comp : Bool) : (cumulativeReturns r comp).length = r.length := by
  unfold cumulativeReturns
  cases comp
  · simp [length_cumsumFrom]
  · simp [length_cumprodFrom]

omit [LinearOrder K] [IsStrictOrderedRing K] in
theorem cumulativeReturns_get (r : List K) (comp : Bool) (t : Nat) (ht : t < r.length) :
    (cumulativeReturns r comp)[t]? = some (wealth r comp t) := by
  unfold cumulativeReturns wealth
  cases comp
  · simp only [Bool.false_eq_true, if_false]
    rw [cumsumFrom_get r 0 t ht, zero_add]
  · simp only [if_true]
    rw [List.getElem?_map, cumprodFrom_get _ 1 t (by simpa using ht), one_mul, List.map_take]
    rfl

omit [Field K] [IsStrictOrderedRing K] in
theorem length_maxAccFrom (r : List K) (acc : K) : (maxAccFrom acc r).length = r.length := by
  induction r generalizing acc with
  | nil => rfl
  | cons x r ih => rw [maxAccFrom, List.length_cons, ih, List.length_cons]

omit [Field K] [IsStrictOrderedRing K] in
theorem length_maxAcc (r : List K) : (maxAcc r).length = r.length := by
  cases r with
  | nil => rfl
  | cons x r => rw [maxAcc, List.length_cons, length_maxAccFrom, List.length_cons]

omit [Field K] [IsStrictOrderedRing K] in
/-- The running maximum as a least upper bound. -/
theorem maxAccFrom_get (r : List K) (acc : K) (t : Nat) (ht : t < r.length) :
    ∃ m, (maxAccFrom acc r)[t]? = some m ∧ acc ≤ m ∧ (∀ s x, s ≤ t → r[s]? = some x → x ≤ m) ∧
      (m = acc ∨ ∃ s, s ≤ t ∧ r[s]? = some m) := by
  induction r generalizing acc t with
  | nil => simp at ht
  | cons x r ih =>
    cases t with
    | zero =>
      refine ⟨max acc x, by simp [maxAccFrom], le_max_left _ _, ?_, ?_⟩
      · intro s y hs hy
        have : s = 0 := by omega
        subst this
        simp only [List.getElem?_cons_zero, Option.some.injEq] at hy
        rw [← hy]; exact le_max_right _ _
      · rcases max_choice acc x with h | h
        · exact Or.inl h
        · exact Or.inr ⟨0, le_rfl, by rw [h]; rfl⟩
    | succ t =>
      obtain ⟨m, h1, h2, h3, h4⟩ := ih (max acc x) t (by simpa using ht)
      refine ⟨m, by simpa [maxAccFrom] using h1, (le_max_left _ _).trans h2, ?_, ?_⟩
      · intro s y hs hy
        cases s with
        | zero =>
          simp only [List.getElem?_cons_zero, Option.some.injEq] at hy
          rw [← hy]; exact (le_max_right _ _).trans h2
        | succ s => exact h3 s y (by omega) (by simpa using hy)
      · rcases h4 with h4 | ⟨s, hs, hy⟩
        · rcases max_choice acc x with h | h
          · left; rw [h4, h]
          · right; exact ⟨0, by omega, by rw [h4, h]; rfl⟩
        · right; exact ⟨s + 1, by omega, by simpa using hy⟩

omit [Field K] [IsStrictOrderedRing K] in
theorem maxAcc_get (r : List K) (t : Nat) (ht : t < r.length) :
    ∃ m, (maxAcc r)[t]? = some m ∧ (∀ s x, s ≤ t → r[s]? = some x → x ≤ m) ∧ ∃ s, s ≤ t ∧ r[s]? = some m := by
  cases r with
  | nil => simp at ht
  | cons x r =>
    cases t with
    | zero =>
      refine ⟨x, rfl, ?_, 0, le_rfl, rfl⟩
      intro s y hs hy
      have : s = 0 := by omega
      subst this
      simp only [List.getElem?_cons_zero, Option.some.injEq] at hy
      rw [hy]
    | succ t =>
      obtain ⟨m, h1, h2, h3, h4⟩ := maxAccFrom_get r x t (by simpa using ht)
      refine ⟨m, by simpa [maxAcc] using h1, ?_, ?_⟩
      · intro s y hs hy
        cases s with
        | zero =>
          simp only [List.getElem?_cons_zero, Option.some.injEq] at hy
          rw [← hy]; exact h2
        | succ s => exact h3 s y (by omega) (by simpa using hy)
      · rcases h4 with h4 | ⟨s, hs, hy⟩
        · exact ⟨0, by omega, by rw [h4]; rfl⟩
        · exact ⟨s + 1, by omega, by simpa using hy⟩

omit [IsStrictOrderedRing K] in
theorem maxAcc_peak (r : List K) (comp : Bool) (t : Nat) (ht : t < r.length) :
    (maxAcc (cumulativeReturns r comp))[t]? = some (peak r comp t) := by
  obtain ⟨m, h1, h2, s, hs, hm⟩ := maxAcc_get (cumulativeReturns r comp) t (by rw [length_cumulativeReturns]; exact ht)
  rw [h1]
  congr 1
  unfold peak
  apply le_antisymm
  · rw [cumulativeReturns_get r comp s (by omega), Option.some.injEq] at hm
    rw [← hm]
    exact Finset.le_sup' (wealth r comp) (Finset.mem_range.2 (by omega))
  · apply Finset.sup'_le
    intro u hu
    rw [Finset.mem_range] at hu
    exact h2 u _ (by omega) (cumulativeReturns_get r comp u (by omega))

omit [IsStrictOrderedRing K] in
theorem length_drawdowns (r : List K) (comp : Bool) : (drawdowns r comp).length = r.length := by
  unfold drawdowns
  cases comp <;> simp [length_maxAcc, length_cumulativeReturns]

omit [IsStrictOrderedRing K] in
theorem drawdowns_get (r : List K) (comp : Bool) (t : Nat) (ht : t < r.length) : (drawdowns r comp)[t]? = some (shortfall r comp t) := by
  have h1 := cumulativeReturns_get r comp t ht
  have h2 := maxAcc_peak r comp t ht
  unfold drawdowns shortfall
  cases comp
  · simp only [Bool.false_eq_true, if_false]
    rw [List.getElem?_zipWith, h1, h2]
  · simp only [if_true]
    rw [List.getElem?_zipWith, h1, h2]

omit [Field K] [IsStrictOrderedRing K] in
theorem mem_getElem? (l : List K) (x : K) (h : x ∈ l) : ∃ t, t < l.length ∧ l[t]? = some x := by
  obtain ⟨i, hi, rfl⟩ := List.getElem_of_mem h
  exact ⟨i, hi, List.getElem?_eq_getElem hi⟩

theorem wealth_pos (r : List K) (h : ∀ x ∈ r, -1 < x) (t : Nat) : 0 < wealth r true t := by
  unfold wealth
  simp only [if_true]
  apply mul_pos (by norm_num)
  have key : ∀ l : List K, (∀ x ∈ l, -1 < x) → 0 < (l.map fun x => 1 + x).prod := by
    intro l
    induction l with
    | nil => simp
    | cons x l ih =>
      intro hl
      rw [List.map_cons, List.prod_cons]
      have := hl x (by simp)
      exact mul_pos (by linarith) (ih fun y hy => hl y (by simp [hy]))
  exact key _ fun x hx => h x (List.mem_of_mem_take hx)

omit [IsStrictOrderedRing K] in
theorem wealth_le_peak (r : List K) (comp : Bool) (t : Nat) : wealth r comp t ≤ peak r comp t :=
  Finset.le_sup' (wealth r comp) (Finset.mem_range.2 (by omega))

/-! ### sums -/

omit [LinearOrder K] [IsStrictOrderedRing K] in
theorem sum_sub_const (r : List K) (m : K) : (r.map fun x => x - m).sum = r.sum - (r.length : K) * m := by
  induction r with
  | nil => simp
  | cons x r ih => simp only [List.map_cons, List.sum_cons, List.length_cons, ih]; push_cast; ring

omit [LinearOrder K] [IsStrictOrderedRing K] in
theorem sum_sq_dev (r : List K) (m : K) :
    (r.map fun x => (x - m) ^ 2).sum = (r.map fun x => x ^ 2).sum - 2 * m * r.sum + (r.length : K) * m ^ 2 := by
  induction r with
  | nil => simp
  | cons x r ih => simp only [List.map_cons, List.sum_cons, List.length_cons, ih]; push_cast; ring

theorem sum_sq_nonneg (r : List K) (f : K → K) : 0 ≤ (r.map fun x => (f x) ^ 2).sum := by
  apply List.sum_nonneg
  intro y hy
  obtain ⟨x, _, rfl⟩ := List.mem_map.1 hy
  positivity

theorem sum_nonneg_map (r : List K) (f : K → K) (h : ∀ x ∈ r, 0 ≤ f x) : 0 ≤ (r.map f).sum := by
  apply List.sum_nonneg
  intro y hy
  obtain ⟨x, hx, rfl⟩ := List.mem_map.1 hy
  exact h x hx

theorem sum_eq_zero_map (r : List K) (f : K → K) (h : ∀ x ∈ r, 0 ≤ f x) (h0 : (r.map f).sum = 0) : ∀ x ∈ r, f x = 0 := by
  induction r with
  | nil => simp
  | cons y r ih =>
    simp only [List.map_cons, List.sum_cons] at h0
    have h1 := h y (by simp)
    have h2 := sum_nonneg_map r f (fun x hx => h x (by simp [hx]))
    intro x hx
    rcases List.mem_cons.1 hx with rfl | hx
    · linarith
    · exact ih (fun x hx => h x (by simp [hx])) (by linarith) x hx

theorem sum_le_map (r : List K) (f g : K → K) (h : ∀ x ∈ r, f x ≤ g x) : (r.map f).sum ≤ (r.map g).sum := by
  induction r with
  | nil => simp
  | cons y r ih =>
    simp only [List.map_cons, List.sum_cons]
    exact add_le_add (h y (by simp)) (ih fun x hx => h x (by simp [hx]))

omit [LinearOrder K] [IsStrictOrderedRing K] in
theorem sum_map_add' (r : List K) (f g : K → K) : (r.map fun x => f x + g x).sum = (r.map f).sum + (r.map g).sum := by
  induction r with
  | nil => simp
  | cons y r ih => simp only [List.map_cons, List.sum_cons, ih]; ring

theorem cauchy (r : List K) : r.sum ^ 2 ≤ (r.length : K) * (r.map fun x => x ^ 2).sum := by
  rcases eq_or_ne r [] with rfl | hr
  · simp
  have hn : (0 : K) < (r.length : K) := by exact_mod_cast List.length_pos_iff.2 hr
  have h := sum_sq_nonneg r (fun x => x - r.sum / (r.length : K))
  rw [sum_sq_dev] at h
  have e : (r.map fun x => x ^ 2).sum - 2 * (r.sum / (r.length : K)) * r.sum + (r.length : K) * (r.sum / (r.length : K)) ^ 2 =
      ((r.length : K) * (r.map fun x => x ^ 2).sum - r.sum ^ 2) / (r.length : K) := by
    field_simp; ring
  rw [e] at h
  rw [le_div_iff₀ hn, zero_mul] at h
  linarith

/-! ### Gini -/

/-- Sum of absolute differences over ordered pairs. -/
def pairSum (r : List K) : K := (r.map fun x => (r.map fun y => |x - y|).sum).sum

omit [IsStrictOrderedRing K] in
theorem pairSum_perm (r r' : List K) (h : r.Perm r') : pairSum r = pairSum r' := by
  unfold pairSum
  have e : (fun x => (r.map fun y => |x - y|).sum) = fun x => (r'.map fun y => |x - y|).sum := by
    funext x; exact (h.map _).sum_eq
  rw [e, (h.map _).sum_eq]

theorem pairSum_cons (a : K) (l : List K) : pairSum (a :: l) = 2 * (l.map fun y => |a - y|).sum + pairSum l := by
  unfold pairSum
  simp only [List.map_cons, List.sum_cons, sub_self, abs_zero, zero_add]
  rw [sum_map_add' l (fun x => |x - a|) (fun x => (l.map fun y => |x - y|).sum)]
  have : (fun x : K => |x - a|) = fun x => |a - x| := by funext x; exact abs_sub_comm x a
  rw [this]; ring

omit [LinearOrder K] [IsStrictOrderedRing K] in
theorem dotFrom_shift (w w' : Nat → K) (c : K) (i j : Nat) (l : List K) (h : ∀ k, w (i + k) = w' (j + k) + c) :
    dotFrom w i l = dotFrom w' j l + c * l.sum := by
  induction l generalizing i j with
  | nil => simp [dotFrom]
  | cons x l ih =>
    rw [dotFrom, dotFrom, ih (i + 1) (j + 1) (fun k => by have := h (k + 1); rw [← add_assoc, ← add_assoc] at this; rw [add_right_comm, this, add_right_comm j]), List.sum_cons]
    have := h 0
    simp only [add_zero] at this
    rw [this]; ring

omit [LinearOrder K] [IsStrictOrderedRing K] in
theorem dotFrom_scale (w : Nat → K) (c : K) (i : Nat) (l : List K) : dotFrom (fun k => w k / c) i l = dotFrom w i l / c := by
  induction l generalizing i with
  | nil => simp [dotFrom]
  | cons x l ih => rw [dotFrom, dotFrom, ih]; ring

theorem pairSum_sorted (l : List K) (h : l.Pairwise (· ≤ ·)) :
    pairSum l = dotFrom (fun i => 4 * ((i : K) + 1) - 2 * ((l.length : K) + 1)) 0 l := by
  induction l with
  | nil => simp [pairSum, dotFrom]
  | cons a l ih =>
    obtain ⟨h1, h2⟩ := List.pairwise_cons.1 h
    rw [pairSum_cons, ih h2, dotFrom]
    have hs : (l.map fun y => |a - y|).sum = l.sum - (l.length : K) * a := by
      rw [← sum_sub_const]
      congr 1
      apply List.map_congr_left
      intro y hy
      rw [abs_sub_comm, abs_of_nonneg (sub_nonneg.2 (h1 y hy))]
    rw [hs, dotFrom_shift (fun i => 4 * ((i : K) + 1) - 2 * (((a :: l).length : K) + 1)) (fun i => 4 * ((i : K) + 1) - 2 * ((l.length : K) + 1)) 2 1 0 l
      (fun k => by simp only [List.length_cons]; push_cast; ring)]
    simp only [List.length_cons]
    push_cast
    ring

omit [IsStrictOrderedRing K] in
theorem pairSum_getD (r : List K) :
    ((List.range r.length).map fun i => ((List.range r.length).map fun j => |r.getD i 0 - r.getD j 0|).sum).sum = pairSum r := by
  have hmap : ∀ f : K → K, ((List.range r.length).map fun i => f (r.getD i 0)) = r.map f := by
    intro f
    apply List.ext_getElem
    · simp
    · intro i h1 h2
      simp only [List.getElem_map, List.getElem_range]
      rw [List.getD_eq_getElem]
  unfold pairSum
  have e : (fun i => ((List.range r.length).map fun j => |r.getD i 0 - r.getD j 0|).sum) = fun i => (fun x => (r.map fun y => |x - y|).sum) (r.getD i 0) := by
    funext i
    rw [hmap fun y => |r.getD i 0 - y|]
  rw [e, hmap fun x => (r.map fun y => |x - y|).sum]

theorem abs_sum_le (r : List K) (f : K → K) : |(r.map f).sum| ≤ (r.map fun x => |f x|).sum := by
  induction r with
  | nil => simp
  | cons x r ih =>
    simp only [List.map_cons, List.sum_cons]
    exact (abs_add_le _ _).trans (by linarith)

end

end Skfolio.Measures
