import Mathlib.Analysis.LocallyConvex.Separation
import Mathlib.Analysis.Convex.Function
import Mathlib.Analysis.Normed.Module.Basic
import Mathlib.Algebra.BigOperators.Pi
import Mathlib.Algebra.BigOperators.Field
import Mathlib.Topology.Order.OrderClosed

/-!
The theorem of the alternative for finitely many convex functions: if at every point of a convex set some function is at least `V`, then a convex combination of the functions is at least `V` on the whole set.
-/
set_option autoImplicit false

namespace Skfolio.Convex

theorem convex_alternative {E ι : Type} [AddCommGroup E] [Module ℝ E] [Fintype ι] [DecidableEq ι] (X : Set E) (hX : Convex ℝ X) (hne : X.Nonempty) (L : ι → E → ℝ) (hL : ∀ a, ConvexOn ℝ X (L a)) (V : ℝ) (h : ∀ x ∈ X, ∃ a, V ≤ L a x) :
    ∃ p : ι → ℝ, (∀ a, 0 ≤ p a) ∧ ∑ a, p a = 1 ∧ ∀ x ∈ X, V ≤ ∑ a, p a * L a x := by
  obtain ⟨x0, hx0⟩ := hne
  have hs1 : Convex ℝ {y : ι → ℝ | ∀ a, y a < V} := by
    intro y hy z hz α β hα hβ hαβ a
    have h1 := hy a
    have h2 := hz a
    simp only [Pi.add_apply, Pi.smul_apply, smul_eq_mul]
    rcases hα.eq_or_lt with h0 | h0
    · have : β = 1 := by linarith
      rw [← h0, this]
      linarith
    · have h3 := mul_lt_mul_of_pos_left h1 h0
      have h4 := mul_le_mul_of_nonneg_left h2.le hβ
      have h5 : α * V + β * V = V := by rw [← add_mul, hαβ, one_mul]
      linarith
  have hs2 : IsOpen {y : ι → ℝ | ∀ a, y a < V} := by
    have : {y : ι → ℝ | ∀ a, y a < V} = ⋂ a, {y : ι → ℝ | y a < V} := by
      ext y
      simp
    rw [this]
    exact isOpen_iInter_of_finite fun a => isOpen_lt (continuous_apply a) continuous_const
  have ht : Convex ℝ {z : ι → ℝ | ∃ x ∈ X, ∀ a, L a x ≤ z a} := by
    rintro y ⟨x, hx, hxy⟩ z ⟨x', hx', hxz⟩ α β hα hβ hαβ
    refine ⟨α • x + β • x', hX hx hx' hα hβ hαβ, fun a => ?_⟩
    refine ((hL a).2 hx hx' hα hβ hαβ).trans ?_
    simp only [Pi.add_apply, Pi.smul_apply, smul_eq_mul]
    exact add_le_add (mul_le_mul_of_nonneg_left (hxy a) hα) (mul_le_mul_of_nonneg_left (hxz a) hβ)
  have hdisj : Disjoint {y : ι → ℝ | ∀ a, y a < V} {z : ι → ℝ | ∃ x ∈ X, ∀ a, L a x ≤ z a} := by
    rw [Set.disjoint_left]
    rintro y hy ⟨x, hx, hxy⟩
    obtain ⟨a, ha⟩ := h x hx
    exact absurd (hy a) (not_lt.2 (ha.trans (hxy a)))
  obtain ⟨f, u, hf1, hf2⟩ := geometric_hahn_banach_open hs1 hs2 ht hdisj
  have hf : ∀ y : ι → ℝ, f y = ∑ a, f (Pi.single a 1) * y a := by
    intro y
    conv_lhs => rw [← Finset.univ_sum_single y]
    rw [map_sum]
    refine Finset.sum_congr rfl fun a _ => ?_
    have : (Pi.single a (y a) : ι → ℝ) = y a • Pi.single a (1 : ℝ) := by
      rw [← Pi.single_smul, smul_eq_mul, mul_one]
    rw [this, map_smul, smul_eq_mul, mul_comm]
  obtain ⟨q, hq⟩ : ∃ q : ι → ℝ, q = fun a => f (Pi.single a 1) := ⟨_, rfl⟩
  have hf' : ∀ y : ι → ℝ, f y = ∑ a, q a * y a := by
    intro y
    rw [hf, hq]
  have hq0 : ∀ a, 0 ≤ q a := by
    intro a
    by_contra hlt
    push Not at hlt
    -- go up in coordinate a
    have hz : ∀ M : ℝ, 0 ≤ M → u ≤ (∑ b, q b * L b x0) + M * q a := by
      intro M hM
      have := hf2 (fun b => L b x0 + if b = a then M else 0) ⟨x0, hx0, fun b => by dsimp only; split_ifs <;> linarith⟩
      rw [hf'] at this
      refine this.trans (le_of_eq ?_)
      simp only [mul_add, Finset.sum_add_distrib]
      congr 1
      rw [Finset.sum_eq_single a]
      · rw [if_pos rfl, mul_comm]
      · intro b _ hb
        rw [if_neg hb, mul_zero]
      · simp
    obtain ⟨c, hc⟩ : ∃ c, c = ∑ b, q b * L b x0 := ⟨_, rfl⟩
    rw [← hc] at hz
    have h1 := hz (max 0 ((u - c - 1) / q a)) (le_max_left _ _)
    have h2 : max 0 ((u - c - 1) / q a) * q a ≤ (u - c - 1) / q a * q a := mul_le_mul_of_nonpos_right (le_max_right _ _) hlt.le
    rw [div_mul_cancel₀ _ hlt.ne] at h2
    linarith
  have hVd : ∀ d : ℝ, 0 < d → (V - d) * ∑ a, q a < u := by
    intro d hd
    have := hf1 (fun _ => V - d) fun a => by linarith
    rw [hf', ← Finset.sum_mul] at this
    rw [mul_comm]
    exact this
  have hS0 : 0 ≤ ∑ a, q a := Finset.sum_nonneg fun a _ => hq0 a
  have hV : V * ∑ a, q a ≤ u := by
    refine le_of_forall_pos_le_add fun e he => ?_
    have := hVd (e / (1 + ∑ a, q a)) (by positivity)
    rw [sub_mul] at this
    have h1 : e / (1 + ∑ a, q a) * ∑ a, q a ≤ e := by
      rw [div_mul_eq_mul_div, div_le_iff₀ (by positivity)]
      nlinarith
    linarith
  have hS : 0 < ∑ a, q a := by
    rcases hS0.eq_or_lt with h0 | h0
    · exfalso
      have hz : ∀ a, q a = 0 := fun a => (Finset.sum_eq_zero_iff_of_nonneg fun b _ => hq0 b).1 h0.symm a (Finset.mem_univ _)
      have h1 := hVd 1 one_pos
      rw [← h0, mul_zero] at h1
      have h2 := hf2 (fun b => L b x0) ⟨x0, hx0, fun b => le_refl _⟩
      rw [hf'] at h2
      simp only [hz, zero_mul, Finset.sum_const_zero] at h2
      linarith
    · exact h0
  refine ⟨fun a => q a / ∑ b, q b, fun a => div_nonneg (hq0 a) hS.le, ?_, fun x hx => ?_⟩
  · rw [← Finset.sum_div, div_self hS.ne']
  · have h2 := hf2 (fun b => L b x) ⟨x, hx, fun b => le_refl _⟩
    rw [hf'] at h2
    have e : ∑ a, q a / (∑ b, q b) * L a x = (∑ a, q a * L a x) / ∑ b, q b := by
      rw [Finset.sum_div]
      exact Finset.sum_congr rfl fun a _ => by ring
    rw [e, le_div_iff₀ hS]
    exact hV.trans h2

end Skfolio.Convex
