import Verif.Uncertainty.Spec
import Mathlib.Algebra.Order.BigOperators.Ring.Finset
import Mathlib.Tactic.Ring
import Mathlib.Tactic.Linarith
import Mathlib.Tactic.FieldSimp
import Mathlib.Tactic.Positivity

/-! Linear functions on ellipsoids. -/
set_option autoImplicit false

namespace Skfolio.Uncertainty

section
variable {ι : Type} [Fintype ι]

/-- The two descriptions of the uncertainty set agree for a shape with an inverse. -/
theorem ellipsoid_eq [DecidableEq ι] (kappa : ℝ) (R S : Matrix ι ι ℝ) (c : ι → ℝ) (hR : IsRoot R S) (hS : IsUnit S.det) : Ellipsoid kappa S c = BallImage kappa R c := by
  have hRdet : IsUnit R.det := by
    have : R.det * R.det = S.det := by rw [← Matrix.det_mul, hR.square]
    rw [← this] at hS
    exact isUnit_of_mul_isUnit_left hS
  have hinv : S⁻¹ = R⁻¹ * R⁻¹ := by rw [← hR.square, Matrix.mul_inv_rev]
  have hsymm : R⁻¹.transpose = R⁻¹ := by rw [Matrix.transpose_nonsing_inv, hR.symmetric]
  have hq : ∀ d : ι → ℝ, d ⬝ᵥ (S⁻¹.mulVec d) = ∑ i, (R⁻¹.mulVec d) i ^ 2 := by
    intro d
    rw [hinv, ← Matrix.mulVec_mulVec, Matrix.dotProduct_mulVec, ← Matrix.mulVec_transpose, hsymm]
    exact Finset.sum_congr rfl fun i _ => (sq _).symm
  ext x
  constructor
  · intro h
    refine ⟨R⁻¹.mulVec (x - c), ?_, fun i => ?_⟩
    · rw [← hq]
      exact h
    · have : R.mulVec (R⁻¹.mulVec (x - c)) = x - c := by rw [Matrix.mulVec_mulVec, Matrix.mul_nonsing_inv _ hRdet, Matrix.one_mulVec]
      have h2 := congrFun this i
      change ∑ j, R i j * (R⁻¹.mulVec (x - c)) j = x i - c i at h2
      rw [h2]
      ring
  · rintro ⟨z, hz, hx⟩
    have : x - c = R.mulVec z := by
      funext i
      rw [Pi.sub_apply, hx i]
      change _ = ∑ j, R i j * z j
      ring
    change (x - c) ⬝ᵥ (S⁻¹.mulVec (x - c)) ≤ kappa ^ 2
    rw [hq, this, Matrix.mulVec_mulVec, Matrix.nonsing_inv_mul _ hRdet, Matrix.one_mulVec]
    exact hz

/-- Exchange of the sums. -/
theorem linear_ball (R : Matrix ι ι ℝ) (hR : R.transpose = R) (z y : ι → ℝ) : ∑ i, (∑ j, R i j * z j) * y i = ∑ j, z j * ∑ i, R j i * y i := by
  have hs : ∀ i j, R i j = R j i := fun i j => by
    conv_lhs => rw [← hR]
    rfl
  simp only [Finset.sum_mul, Finset.mul_sum]
  rw [Finset.sum_comm]
  refine Finset.sum_congr rfl fun j _ => Finset.sum_congr rfl fun i _ => ?_
  rw [hs i j]
  ring

/-- The largest value of a linear function on the image of a ball. -/
theorem greatest_on_ball (kappa : ℝ) (hk : 0 ≤ kappa) (R : Matrix ι ι ℝ) (hR : R.transpose = R) (c y : ι → ℝ) :
    IsGreatest ((fun x => ∑ i, x i * y i) '' BallImage kappa R c) ((∑ i, c i * y i) + kappa * Real.sqrt (∑ l, (∑ i, R l i * y i) ^ 2)) := by
  obtain ⟨v, hv⟩ : ∃ v : ι → ℝ, v = fun l => ∑ i, R l i * y i := ⟨_, rfl⟩
  obtain ⟨N, hN⟩ : ∃ N, N = ∑ l, (∑ i, R l i * y i) ^ 2 := ⟨_, rfl⟩
  have hNv : N = ∑ l, v l ^ 2 := by rw [hN, hv]
  have hN0 : 0 ≤ N := hNv ▸ Finset.sum_nonneg fun _ _ => sq_nonneg _
  have hval : ∀ x z : ι → ℝ, (∀ i, x i = c i + ∑ j, R i j * z j) → ∑ i, x i * y i = (∑ i, c i * y i) + ∑ j, z j * v j := by
    intro x z hx
    rw [hv, ← linear_ball R hR z y, ← Finset.sum_add_distrib]
    refine Finset.sum_congr rfl fun i _ => ?_
    rw [hx i]
    ring
  rw [← hN]
  have hsq : Real.sqrt N * Real.sqrt N = N := Real.mul_self_sqrt hN0
  constructor
  · rcases hN0.eq_or_lt with h0 | h0
    · refine ⟨c, ⟨0, by simpa using sq_nonneg kappa, by simp⟩, ?_⟩
      rw [← h0]
      simp
    · have hs : 0 < Real.sqrt N := Real.sqrt_pos.2 h0
      refine ⟨fun i => c i + ∑ j, R i j * (kappa / Real.sqrt N * v j), ⟨fun j => kappa / Real.sqrt N * v j, ?_, fun i => rfl⟩, ?_⟩
      · simp only [mul_pow]
        rw [← Finset.mul_sum, ← hNv, div_pow, sq (Real.sqrt N), hsq]
        exact le_of_eq (by field_simp)
      · dsimp only
        rw [hval _ (fun j => kappa / Real.sqrt N * v j) fun i => rfl]
        congr 1
        have : ∀ j, kappa / Real.sqrt N * v j * v j = kappa / Real.sqrt N * v j ^ 2 := fun j => by ring
        rw [Finset.sum_congr rfl fun j _ => this j, ← Finset.mul_sum, ← hNv]
        rw [div_mul_eq_mul_div, div_eq_iff hs.ne', mul_assoc, hsq]
  · rintro _ ⟨x, ⟨z, hz, hx⟩, rfl⟩
    dsimp only
    rw [hval x z hx]
    refine add_le_add_right ?_ _
    have h1 := Finset.sum_mul_sq_le_sq_mul_sq Finset.univ z v
    rw [← hNv] at h1
    have h2 : (∑ i, z i * v i) ^ 2 ≤ (kappa * Real.sqrt N) ^ 2 := by
      rw [mul_pow, sq (Real.sqrt N), hsq]
      exact h1.trans (mul_le_mul_of_nonneg_right hz hN0)
    exact abs_le_of_sq_le_sq' h2 (mul_nonneg hk (Real.sqrt_nonneg _)) |>.2

/-- The least value of a linear function on the image of a ball. -/
theorem least_on_ball (kappa : ℝ) (hk : 0 ≤ kappa) (R : Matrix ι ι ℝ) (hR : R.transpose = R) (c y : ι → ℝ) :
    IsLeast ((fun x => ∑ i, x i * y i) '' BallImage kappa R c) ((∑ i, c i * y i) - kappa * Real.sqrt (∑ l, (∑ i, R l i * y i) ^ 2)) := by
  obtain ⟨⟨x, hx, hv⟩, hmax⟩ := greatest_on_ball kappa hk R hR c (-y)
  have hsq : ∑ l, (∑ i, R l i * (-y) i) ^ 2 = ∑ l, (∑ i, R l i * y i) ^ 2 := by
    refine Finset.sum_congr rfl fun l _ => ?_
    simp only [Pi.neg_apply, mul_neg, Finset.sum_neg_distrib, neg_sq]
  rw [hsq] at hv hmax
  simp only [Pi.neg_apply, mul_neg, Finset.sum_neg_distrib] at hv hmax
  constructor
  · refine ⟨x, hx, ?_⟩
    dsimp only
    linarith
  · rintro _ ⟨x', hx', rfl⟩
    have := hmax ⟨x', hx', rfl⟩
    dsimp only at this ⊢
    linarith

end

end Skfolio.Uncertainty
