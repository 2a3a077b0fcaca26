import Mathlib.Analysis.SpecialFunctions.Gamma.BohrMollerup
import Mathlib.Analysis.SpecialFunctions.Gamma.Deriv
import Mathlib.NumberTheory.Harmonic.EulerMascheroni
import Mathlib.Analysis.PSeries
import Mathlib.Topology.Algebra.InfiniteSum.NatInt
import Mathlib.Tactic.LinearCombination

/-!
The series of the digamma function, the derivative of the logarithm of the Gamma function.
-/
set_option autoImplicit false

namespace Skfolio.Copula

open Filter Topology Real

/-- The digamma function on the positive reals. -/
noncomputable def digamma (x : ℝ) : ℝ := deriv Gamma x / Gamma x

theorem summable_digamma {z : ℝ} (hz : 0 < z) : Summable fun k : ℕ => z / ((k + 1) * (k + 1 + z)) := by
  have h : Summable fun k : ℕ => z * (1 / ((k : ℝ) + 1) ^ 2) := by
    have := (summable_nat_add_iff 1).2 (Real.summable_one_div_nat_pow.2 one_lt_two)
    refine Summable.mul_left z ?_
    simpa using this
  refine Summable.of_nonneg_of_le (fun k => by positivity) (fun k => ?_) h
  rw [mul_one_div, sq]
  have h1 : (0 : ℝ) < (k : ℝ) + 1 := by positivity
  exact div_le_div_of_nonneg_left hz.le (by positivity) (mul_le_mul_of_nonneg_left (by linarith) h1.le)

/-- `ψ(z + 1) = -γ + Σ z / (k (k + z))`. -/
theorem hasSum_digamma {z : ℝ} (hz : 0 < z) : HasSum (fun k : ℕ => z / ((k + 1) * (k + 1 + z))) (digamma (z + 1) + eulerMascheroniConstant) := by
  obtain ⟨S, hS⟩ := summable_digamma hz
  obtain ⟨x, hx⟩ : ∃ x, x = z + 1 := ⟨_, rfl⟩
  have hx0 : 0 < x := by linarith
  -- the derivatives of the approximations converge
  have hd : Tendsto (fun n : ℕ => log n - ∑ m ∈ Finset.range (n + 1), 1 / (x + m)) atTop (𝓝 (S - eulerMascheroniConstant)) := by
    have h1 : Tendsto (fun n : ℕ => ∑ k ∈ Finset.range (n + 1), z / (((k : ℝ) + 1) * (k + 1 + z))) atTop (𝓝 S) := hS.tendsto_sum_nat.comp (tendsto_add_atTop_nat 1)
    have h2 := tendsto_harmonic_sub_log
    have h3 : Tendsto (fun n : ℕ => 1 / ((n : ℝ) + 1)) atTop (𝓝 0) := tendsto_one_div_add_atTop_nhds_zero_nat
    have h4 := (h1.sub h2).sub h3
    rw [sub_zero] at h4
    refine h4.congr fun n => ?_
    have e : ∀ k : ℕ, z / (((k : ℝ) + 1) * (k + 1 + z)) = 1 / ((k : ℝ) + 1) - 1 / (x + k) := by
      intro k
      have a : ((k : ℝ) + 1) ≠ 0 := by positivity
      have b : ((k : ℝ) + 1 + z) ≠ 0 := by positivity
      have c : x + k = (k : ℝ) + 1 + z := by rw [hx]; ring
      rw [c]
      field_simp
      ring
    have e2 : ((harmonic n : ℚ) : ℝ) = ∑ k ∈ Finset.range n, 1 / ((k : ℝ) + 1) := by
      simp [harmonic]
    rw [Finset.sum_congr rfl fun k _ => e k, Finset.sum_sub_distrib, e2, Finset.sum_range_succ (fun k : ℕ => 1 / ((k : ℝ) + 1))]
    ring
  -- a line below the logarithm of the Gamma function
  have hmin : ∀ y, 0 < y → log (Gamma x) + (y - x) * (S - eulerMascheroniConstant) ≤ log (Gamma y) := by
    intro y hy
    refine le_of_tendsto_of_tendsto ((BohrMollerup.tendsto_log_gamma hx0).add (hd.const_mul (y - x))) (BohrMollerup.tendsto_log_gamma hy) (Eventually.of_forall fun n => ?_)
    simp only [BohrMollerup.logGammaSeq]
    have : ∑ m ∈ Finset.range (n + 1), log (y + m) ≤ ∑ m ∈ Finset.range (n + 1), log (x + m) + (y - x) * ∑ m ∈ Finset.range (n + 1), 1 / (x + m) := by
      rw [Finset.mul_sum, ← Finset.sum_add_distrib]
      refine Finset.sum_le_sum fun m _ => ?_
      have a : 0 < x + m := by positivity
      have b : 0 < y + m := by positivity
      have := log_le_sub_one_of_pos (div_pos b a)
      rw [log_div b.ne' a.ne'] at this
      have e : (y + m) / (x + m) - 1 = (y - x) * (1 / (x + m)) := by
        field_simp
        ring
      linarith
    linarith
  have hG : HasDerivAt (fun y => log (Gamma y)) (digamma x) x := by
    have hne : ∀ m : ℕ, x ≠ -m := by
      intro m h
      have : (0 : ℝ) ≤ m := Nat.cast_nonneg m
      linarith
    exact (differentiableAt_Gamma hne).hasDerivAt.log (Gamma_pos_of_pos hx0).ne'
  have hloc : IsLocalMin (fun y => log (Gamma y) - (y - x) * (S - eulerMascheroniConstant)) x := by
    filter_upwards [lt_mem_nhds hx0] with y hy
    have := hmin y hy
    rw [sub_self, zero_mul, sub_zero]
    linarith
  have hder := hG.sub (((hasDerivAt_id x).sub_const x).mul_const (S - eulerMascheroniConstant))
  have h0 := hloc.hasDerivAt_eq_zero hder
  rw [← hx]
  have e : digamma x + eulerMascheroniConstant = S := by linarith
  rw [e]
  exact hS

end Skfolio.Copula
