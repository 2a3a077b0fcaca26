import Verif.Copula.Spec
import Mathlib.Analysis.Calculus.Deriv.MeanValue
import Mathlib.Analysis.Calculus.Deriv.Add
import Mathlib.Tactic.Linarith
import Mathlib.Tactic.Ring

/-! A symmetric function whose conditional distribution functions are monotone is a copula. -/
set_option autoImplicit false

namespace Skfolio.Copula

open Set

/-- If `C(u, ·)` has the derivative `h false (u, ·)`, which lies in [0, 1] and increases with `u`, then `C` gives every rectangle a non-negative mass. -/
theorem copula_of_partial (C : ℝ × ℝ → ℝ) (h : Bool → ℝ × ℝ → ℝ) (grounded : ∀ t, Unit t → C (0, t) = 0 ∧ C (t, 0) = 0) (margins : ∀ t, Unit t → C (1, t) = t ∧ C (t, 1) = t)
    (hp : IsPartial C h) (hin : ∀ u v, Inside u → Inside v → 0 ≤ h false (u, v) ∧ h false (u, v) ≤ 1)
    (mono : ∀ u u' v, Inside u → Inside u' → Inside v → u ≤ u' → h false (u, v) ≤ h false (u', v))
    (cont : ∀ u, Inside u → ContinuousOn (fun t => C (u, t)) (Icc 0 1)) : IsCopula C := by
  refine ⟨grounded, margins, fun a b c d h1 h2 h3 h4 h5 h6 => ?_⟩
  have sub : Icc c d ⊆ Icc 0 1 := Icc_subset_Icc h4 h6
  have cont' : ∀ u, Unit u → ContinuousOn (fun t => C (u, t)) (Icc c d) := by
    intro u hu
    rcases eq_or_lt_of_le hu.1 with h0 | h0
    · subst h0
      exact (continuousOn_const (c := (0 : ℝ))).congr fun t ht => (grounded t ⟨(sub ht).1, (sub ht).2⟩).1
    · rcases eq_or_lt_of_le hu.2 with h1 | h1
      · subst h1
        exact continuousOn_id.congr fun t ht => (margins t ⟨(sub ht).1, (sub ht).2⟩).1
      · exact (cont u ⟨h0, h1⟩).mono sub
  have deriv' : ∀ u, Unit u → ∀ t, Inside t → ∃ D, HasDerivAt (fun t => C (u, t)) D t ∧ 0 ≤ D ∧ D ≤ 1 ∧ (u = 1 → D = 1) ∧ (u = 0 → D = 0) ∧ (Inside u → D = h false (u, t)) := by
    intro u hu t ht
    have hev : ∀ᶠ s in nhds t, Unit s := by
      filter_upwards [Ioo_mem_nhds ht.1 ht.2] with s hs using ⟨hs.1.le, hs.2.le⟩
    rcases eq_or_lt_of_le hu.1 with h0 | h0
    · subst h0
      refine ⟨0, (hasDerivAt_const t (0 : ℝ)).congr_of_eventuallyEq ?_, le_refl _, by norm_num, by norm_num, by simp, fun hh => absurd hh.1 (lt_irrefl _)⟩
      filter_upwards [hev] with s hs using (grounded s hs).1
    · rcases eq_or_lt_of_le hu.2 with h1 | h1
      · subst h1
        refine ⟨1, (hasDerivAt_id t).congr_of_eventuallyEq ?_, by norm_num, le_refl _, by simp, by norm_num, fun hh => absurd hh.2 (lt_irrefl _)⟩
        filter_upwards [hev] with s hs using (margins s hs).1
      · exact ⟨h false (u, t), (hp u t ⟨h0, h1⟩ ht).2, (hin u t ⟨h0, h1⟩ ht).1, (hin u t ⟨h0, h1⟩ ht).2, fun e => absurd e h1.ne, fun e => absurd e.symm h0.ne, fun _ => rfl⟩
  have ua : Unit a := ⟨h1, h2.trans h3⟩
  have ub : Unit b := ⟨h1.trans h2, h3⟩
  have key : MonotoneOn (fun t => C (b, t) - C (a, t)) (Icc c d) := by
    apply monotoneOn_of_deriv_nonneg (convex_Icc c d)
    · exact (cont' b ub).sub (cont' a ua)
    · intro t ht
      rw [interior_Icc] at ht
      have it : Inside t := ⟨lt_of_le_of_lt h4 ht.1, lt_of_lt_of_le ht.2 h6⟩
      obtain ⟨Db, hDb, -⟩ := deriv' b ub t it
      obtain ⟨Da, hDa, -⟩ := deriv' a ua t it
      exact (hDb.sub hDa).differentiableAt.differentiableWithinAt
    · intro t ht
      rw [interior_Icc] at ht
      have it : Inside t := ⟨lt_of_le_of_lt h4 ht.1, lt_of_lt_of_le ht.2 h6⟩
      obtain ⟨Db, hDb, b0, b1, be1, be0, bi⟩ := deriv' b ub t it
      obtain ⟨Da, hDa, a0, a1, ae1, ae0, ai⟩ := deriv' a ua t it
      have hd : deriv (fun t => C (b, t) - C (a, t)) t = Db - Da := (hDb.sub hDa).deriv
      rw [hd, sub_nonneg]
      rcases eq_or_lt_of_le ua.1 with e | e
      · rw [ae0 e.symm]
        exact b0
      · rcases eq_or_lt_of_le ub.2 with e' | e'
        · rw [be1 e']
          exact a1
        · have ia : Inside a := ⟨e, lt_of_le_of_lt h2 e'⟩
          have ib : Inside b := ⟨lt_of_lt_of_le e h2, e'⟩
          rw [ai ia, bi ib]
          exact mono a b t ia ib it h2
  have := key ⟨le_refl _, h5⟩ ⟨h5, le_refl _⟩ h5
  simp only at this
  unfold mass
  linarith

end Skfolio.Copula
