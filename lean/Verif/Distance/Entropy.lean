import Mathlib.Analysis.SpecialFunctions.Log.NegMulLog
import Mathlib.Algebra.BigOperators.Fin
import Mathlib.Algebra.BigOperators.Field
import Mathlib.Algebra.Order.BigOperators.Group.Finset
import Mathlib.Tactic.FieldSimp

/-!
Entropies of partitions of a finite set of observations, each with the same probability: a partition is given by a labelling. The specification for claim C84.
-/
set_option autoImplicit false

namespace Skfolio.Distance

open Finset

variable {ι A B C : Type} [Fintype ι] [DecidableEq A] [DecidableEq B] [DecidableEq C]

/-- The number of observations with the label of `t`. -/
def cls (f : ι → A) (t : ι) : Nat := (univ.filter fun s => f s = f t).card

/-- The entropy of a labelling: the mean of `-log` of the frequency of the label. -/
noncomputable def H (f : ι → A) : ℝ := (∑ t, -Real.log ((cls f t : ℝ) / Fintype.card ι)) / Fintype.card ι

/-- The labelling by both. -/
def joint (f : ι → A) (g : ι → B) : ι → A × B := fun t => (f t, g t)

theorem cls_pos (f : ι → A) (t : ι) : 0 < cls f t := card_pos.2 ⟨t, by simp⟩

theorem cls_le (f : ι → A) (t : ι) : cls f t ≤ Fintype.card ι := (card_le_univ _)

theorem cls_joint_le (f : ι → A) (g : ι → B) (t : ι) : cls (joint f g) t ≤ cls f t := by
  refine card_le_card fun s hs => ?_
  simp only [mem_filter, mem_univ, true_and, joint, Prod.mk.injEq] at hs ⊢
  exact hs.1

theorem cls_joint_comm (f : ι → A) (g : ι → B) (t : ι) : cls (joint f g) t = cls (joint g f) t := by
  unfold cls joint
  congr 1
  ext s
  simp only [mem_filter, mem_univ, true_and, Prod.mk.injEq]
  exact and_comm

theorem H_joint_comm (f : ι → A) (g : ι → B) : H (joint f g) = H (joint g f) := by
  unfold H
  simp only [cls_joint_comm f g]

theorem H_nonneg (f : ι → A) : 0 ≤ H f := by
  refine div_nonneg (sum_nonneg fun t _ => ?_) (Nat.cast_nonneg _)
  have hc : (0 : ℝ) < cls f t := Nat.cast_pos.2 (cls_pos f t)
  have hN : (cls f t : ℝ) ≤ Fintype.card ι := Nat.cast_le.2 (cls_le f t)
  have hN0 : (0 : ℝ) < Fintype.card ι := lt_of_lt_of_le hc hN
  rw [Left.nonneg_neg_iff]
  exact Real.log_nonpos (by positivity) ((div_le_one hN0).2 hN)

/-- More labels, more entropy. -/
theorem H_le_joint (f : ι → A) (g : ι → B) : H f ≤ H (joint f g) := by
  refine div_le_div_of_nonneg_right (sum_le_sum fun t _ => ?_) (Nat.cast_nonneg _)
  have hc : (0 : ℝ) < cls (joint f g) t := Nat.cast_pos.2 (cls_pos _ t)
  have h1 : (cls (joint f g) t : ℝ) ≤ cls f t := Nat.cast_le.2 (cls_joint_le f g t)
  have hN : (cls f t : ℝ) ≤ Fintype.card ι := Nat.cast_le.2 (cls_le f t)
  have hN0 : (0 : ℝ) < Fintype.card ι := by linarith
  exact neg_le_neg (Real.log_le_log (by positivity) (div_le_div_of_nonneg_right h1 hN0.le))

theorem H_le_joint' (f : ι → A) (g : ι → B) : H g ≤ H (joint f g) := by
  rw [H_joint_comm]; exact H_le_joint g f

/-- The counting behind submodularity. -/
theorem sum_ratio_le (f : ι → A) (g : ι → B) (h : ι → C) :
    ∑ t, (cls (joint f g) t : ℝ) * cls (joint g h) t / (cls (joint f (joint g h)) t * cls g t) ≤ Fintype.card ι := by
  have e1 : ∀ t, (cls (joint f g) t : ℝ) = ∑ s, if f s = f t ∧ g s = g t then 1 else 0 := by
    intro t
    unfold cls joint
    simp [Prod.mk.injEq]
  have e2 : ∀ t, (cls (joint g h) t : ℝ) = ∑ u, if g u = g t ∧ h u = h t then 1 else 0 := by
    intro t
    unfold cls joint
    simp [Prod.mk.injEq]
  have e3 : ∀ t, (cls (joint f g) t : ℝ) * cls (joint g h) t / (cls (joint f (joint g h)) t * cls g t) =
      ∑ s, ∑ u, if f s = f t ∧ g s = g t ∧ g u = g t ∧ h u = h t then 1 / ((cls (joint f (joint g h)) t : ℝ) * cls g t) else 0 := by
    intro t
    rw [e1, e2, sum_mul_sum, sum_div]
    refine sum_congr rfl fun s _ => ?_
    rw [sum_div]
    refine sum_congr rfl fun u _ => ?_
    by_cases h1 : f s = f t ∧ g s = g t
    · by_cases h2 : g u = g t ∧ h u = h t
      · rw [if_pos h1, if_pos h2, if_pos ⟨h1.1, h1.2, h2.1, h2.2⟩, one_mul]
      · rw [if_pos h1, if_neg h2, mul_zero, zero_div, if_neg (fun h => h2 ⟨h.2.2.1, h.2.2.2⟩)]
    · rw [if_neg h1, zero_mul, zero_div, if_neg (fun h => h1 ⟨h.1, h.2.1⟩)]
  simp only [e3]
  rw [sum_comm]
  have e4 : ∀ s, ∑ t, ∑ u, (if f s = f t ∧ g s = g t ∧ g u = g t ∧ h u = h t then 1 / ((cls (joint f (joint g h)) t : ℝ) * cls g t) else 0) ≤ 1 := by
    intro s
    rw [sum_comm]
    have hs : (0 : ℝ) < cls g s := Nat.cast_pos.2 (cls_pos g s)
    have e5 : ∀ u, ∑ t, (if f s = f t ∧ g s = g t ∧ g u = g t ∧ h u = h t then 1 / ((cls (joint f (joint g h)) t : ℝ) * cls g t) else 0) ≤
        if g u = g s then 1 / (cls g s : ℝ) else 0 := by
      intro u
      by_cases hu : g u = g s
      · rw [if_pos hu, ← sum_filter]
        set S := univ.filter fun t => f s = f t ∧ g s = g t ∧ g u = g t ∧ h u = h t with hS
        have e6 : ∀ t ∈ S, 1 / ((cls (joint f (joint g h)) t : ℝ) * cls g t) = 1 / ((S.card : ℝ) * cls g s) := by
          intro t ht
          obtain ⟨a, b, c, d⟩ := (mem_filter.1 ht).2
          have : cls (joint f (joint g h)) t = S.card := by
            unfold cls joint
            rw [hS]
            congr 1
            ext r
            simp only [mem_filter, mem_univ, true_and, Prod.mk.injEq]
            rw [a, b, c, d]
            constructor
            · rintro ⟨p, q, r⟩; exact ⟨p.symm, q.symm, q.symm, r.symm⟩
            · rintro ⟨p, q, _, r⟩; exact ⟨p.symm, q.symm, r.symm⟩
          rw [this]
          have : cls g t = cls g s := by unfold cls; rw [b]
          rw [this]
        rw [sum_congr rfl e6, sum_const, nsmul_eq_mul]
        by_cases hz : S.card = 0
        · rw [hz]; simp
        · have : (S.card : ℝ) ≠ 0 := Nat.cast_ne_zero.2 hz
          apply le_of_eq
          field_simp
      · rw [if_neg hu]
        apply le_of_eq
        refine sum_eq_zero fun t _ => ?_
        rw [if_neg]
        rintro ⟨_, b, c, _⟩
        exact hu (c.trans b.symm)
    refine (sum_le_sum fun u _ => e5 u).trans ?_
    rw [← sum_filter, sum_const, nsmul_eq_mul]
    apply le_of_eq
    change (cls g s : ℝ) * (1 / cls g s) = 1
    field_simp
  refine (sum_le_sum fun s _ => e4 s).trans ?_
  simp

/-- Submodularity: `H(f, g, h) + H(g) ≤ H(f, g) + H(g, h)`. -/
theorem H_submodular (f : ι → A) (g : ι → B) (h : ι → C) : H (joint f (joint g h)) + H g ≤ H (joint f g) + H (joint g h) := by
  rcases Nat.eq_zero_or_pos (Fintype.card ι) with hz | hN
  · unfold H; simp [hz]
  have hN : (0 : ℝ) < Fintype.card ι := Nat.cast_pos.2 hN
  unfold H
  rw [← add_div, ← add_div, div_le_div_iff_of_pos_right hN, ← sum_add_distrib, ← sum_add_distrib, ← sub_nonpos, ← sum_sub_distrib]
  have key : ∀ t ∈ univ (α := ι), -Real.log ((cls (joint f (joint g h)) t : ℝ) / Fintype.card ι) + -Real.log ((cls g t : ℝ) / Fintype.card ι) -
      (-Real.log ((cls (joint f g) t : ℝ) / Fintype.card ι) + -Real.log ((cls (joint g h) t : ℝ) / Fintype.card ι)) ≤
      (cls (joint f g) t : ℝ) * cls (joint g h) t / (cls (joint f (joint g h)) t * cls g t) - 1 := by
    intro t _
    have h1 : (0 : ℝ) < cls (joint f (joint g h)) t := Nat.cast_pos.2 (cls_pos _ t)
    have h2 : (0 : ℝ) < cls g t := Nat.cast_pos.2 (cls_pos _ t)
    have h3 : (0 : ℝ) < cls (joint f g) t := Nat.cast_pos.2 (cls_pos _ t)
    have h4 : (0 : ℝ) < cls (joint g h) t := Nat.cast_pos.2 (cls_pos _ t)
    refine le_trans (le_of_eq ?_) (Real.log_le_sub_one_of_pos (x := (cls (joint f g) t : ℝ) * cls (joint g h) t / (cls (joint f (joint g h)) t * cls g t)) (by positivity))
    rw [Real.log_div h1.ne' hN.ne', Real.log_div h2.ne' hN.ne', Real.log_div h3.ne' hN.ne', Real.log_div h4.ne' hN.ne',
      Real.log_div (by positivity) (by positivity), Real.log_mul h3.ne' h4.ne', Real.log_mul h1.ne' h2.ne']
    ring
  refine (sum_le_sum key).trans ?_
  rw [sum_sub_distrib, sum_const, nsmul_eq_mul, mul_one, sub_nonpos]
  exact sum_ratio_le f g h

theorem H_const [Nonempty ι] : H (fun _ : ι => ()) = 0 := by
  unfold H cls
  simp

theorem H_joint_unit (f : ι → A) : H (joint f fun _ : ι => ()) = H f := by
  unfold H
  congr 1
  refine sum_congr rfl fun t _ => ?_
  have : cls (joint f fun _ : ι => ()) t = cls f t := by unfold cls joint; simp
  rw [this]

/-- The joint entropy is at most the sum: mutual information is not negative. -/
theorem H_joint_le_add [Nonempty ι] (f : ι → A) (g : ι → B) : H (joint f g) ≤ H f + H g := by
  have h := H_submodular f (fun _ : ι => ()) g
  rw [H_const, add_zero, H_joint_unit] at h
  have e1 : H (joint (fun _ : ι => ()) g) = H g := by rw [H_joint_comm, H_joint_unit]
  have e2 : H (joint f (joint (fun _ : ι => ()) g)) = H (joint f g) := by
    unfold H
    congr 1
    refine sum_congr rfl fun t _ => ?_
    have : cls (joint f (joint (fun _ : ι => ()) g)) t = cls (joint f g) t := by unfold cls joint; simp
    rw [this]
  rw [e1, e2] at h
  exact h

/-- `H(f, h) ≤ H(f, g) + H(g, h) - H(g)`. -/
theorem H_triangle (f : ι → A) (g : ι → B) (h : ι → C) : H (joint f h) + H g ≤ H (joint f g) + H (joint g h) := by
  refine le_trans (add_le_add ?_ le_rfl) (H_submodular f g h)
  refine div_le_div_of_nonneg_right (sum_le_sum fun t _ => ?_) (Nat.cast_nonneg _)
  have hc : (0 : ℝ) < cls (joint f (joint g h)) t := Nat.cast_pos.2 (cls_pos _ t)
  have h1 : (cls (joint f (joint g h)) t : ℝ) ≤ cls (joint f h) t := by
    refine Nat.cast_le.2 (card_le_card fun s hs => ?_)
    simp only [mem_filter, mem_univ, true_and, joint, Prod.mk.injEq] at hs ⊢
    exact ⟨hs.1, hs.2.2⟩
  have hN : (cls (joint f h) t : ℝ) ≤ Fintype.card ι := Nat.cast_le.2 (cls_le _ t)
  have hN0 : (0 : ℝ) < Fintype.card ι := by linarith
  exact neg_le_neg (Real.log_le_log (by positivity) (div_le_div_of_nonneg_right h1 hN0.le))

/-- The joint entropy is that of `f` only if `f` decides `g`. -/
theorem H_joint_eq_iff (f : ι → A) (g : ι → B) : H (joint f g) = H f ↔ ∀ s t, f s = f t → g s = g t := by
  constructor
  · intro h s t hst
    have hNpos : 0 < Fintype.card ι := Fintype.card_pos_iff.2 ⟨s⟩
    have hN0 : (0 : ℝ) < Fintype.card ι := Nat.cast_pos.2 hNpos
    unfold H at h
    rw [div_left_inj' hN0.ne'] at h
    have hle : ∀ t ∈ univ (α := ι), -Real.log ((cls f t : ℝ) / Fintype.card ι) ≤ -Real.log ((cls (joint f g) t : ℝ) / Fintype.card ι) := by
      intro t _
      have hc : (0 : ℝ) < cls (joint f g) t := Nat.cast_pos.2 (cls_pos _ t)
      have h1 : (cls (joint f g) t : ℝ) ≤ cls f t := Nat.cast_le.2 (cls_joint_le f g t)
      exact neg_le_neg (Real.log_le_log (by positivity) (div_le_div_of_nonneg_right h1 hN0.le))
    have heq := (sum_eq_sum_iff_of_le hle).1 h.symm t (mem_univ t)
    have hc : (0 : ℝ) < cls (joint f g) t := Nat.cast_pos.2 (cls_pos _ t)
    have hc' : (0 : ℝ) < cls f t := Nat.cast_pos.2 (cls_pos _ t)
    have := Real.log_injOn_pos (Set.mem_Ioi.2 (by positivity)) (Set.mem_Ioi.2 (by positivity)) (neg_injective heq)
    rw [div_left_inj' hN0.ne', Nat.cast_inj] at this
    have hsub : (univ.filter fun r => joint f g r = joint f g t) ⊆ univ.filter fun r => f r = f t := by
      intro r hr
      simp only [mem_filter, mem_univ, true_and, joint, Prod.mk.injEq] at hr ⊢
      exact hr.1
    have := eq_of_subset_of_card_le hsub (le_of_eq this)
    have hs : s ∈ univ.filter fun r => f r = f t := by simp [hst]
    rw [← this] at hs
    simp only [mem_filter, mem_univ, true_and, joint, Prod.mk.injEq] at hs
    exact hs.2
  · intro h
    unfold H
    congr 1
    refine sum_congr rfl fun t _ => ?_
    have : cls (joint f g) t = cls f t := by
      unfold cls joint
      congr 1
      ext s
      simp only [mem_filter, mem_univ, true_and, Prod.mk.injEq]
      exact ⟨fun a => a.1, fun a => ⟨a, h s t a⟩⟩
    rw [this]

/-- The entropy is 0 only if there is one label. -/
theorem H_eq_zero_iff (f : ι → A) : H f = 0 ↔ ∀ s t, f s = f t := by
  rcases isEmpty_or_nonempty ι with he | hne
  · unfold H; simp
  · have := H_joint_eq_iff (fun _ : ι => ()) f
    rw [H_const, H_joint_comm, H_joint_unit] at this
    rw [this]
    exact ⟨fun h s t => h s t rfl, fun h s t _ => h s t⟩

end Skfolio.Distance
