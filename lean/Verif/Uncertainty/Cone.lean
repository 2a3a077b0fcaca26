import Verif.Uncertainty.CovSpec
import Mathlib.Analysis.Normed.Group.Constructions
import Mathlib.Analysis.Normed.Group.Real
import Mathlib.Analysis.Normed.Module.Basic
import Mathlib.Analysis.LocallyConvex.Separation
import Mathlib.Analysis.Matrix.PosDef
import Mathlib.Analysis.Matrix.Order
import Mathlib.Algebra.Order.Chebyshev
import Mathlib.Tactic.Ring
import Mathlib.Tactic.Linarith
import Mathlib.Tactic.FieldSimp
import Mathlib.Tactic.Positivity
import Mathlib.Tactic.LinearCombination

/-! The cone of matrices with nonnegative quadratic form. -/
set_option autoImplicit false

namespace Skfolio.Uncertainty

open scoped MatrixOrder

section
variable {n : Nat}

abbrev Mat (n : Nat) := Fin n → Fin n → ℝ

/-- Sum of the products of the entries. -/
def pairing (A B : Mat n) : ℝ := ∑ i, ∑ j, A i j * B i j

def cone (n : Nat) : Set (Mat n) := {M | ∀ x, 0 ≤ varianceUnder M x}

theorem pairing_add_left (A B C : Mat n) : pairing (A + B) C = pairing A C + pairing B C := by
  simp [pairing, add_mul, Finset.sum_add_distrib]

theorem pairing_add_right (A B C : Mat n) : pairing A (B + C) = pairing A B + pairing A C := by
  simp [pairing, mul_add, Finset.sum_add_distrib]

theorem pairing_smul_left (c : ℝ) (A B : Mat n) : pairing (c • A) B = c * pairing A B := by
  simp [pairing, Finset.mul_sum, mul_assoc]

theorem pairing_comm (A B : Mat n) : pairing A B = pairing B A := by
  simp [pairing, mul_comm]

theorem variance_add (A B : Mat n) (x : Fin n → ℝ) : varianceUnder (A + B) x = varianceUnder A x + varianceUnder B x := by
  simp [varianceUnder, mul_add, add_mul, Finset.sum_add_distrib]

theorem variance_smul (c : ℝ) (A : Mat n) (x : Fin n → ℝ) : varianceUnder (c • A) x = c * varianceUnder A x := by
  unfold varianceUnder
  rw [Finset.mul_sum]
  refine Finset.sum_congr rfl fun i _ => ?_
  rw [Finset.mul_sum]
  refine Finset.sum_congr rfl fun j _ => ?_
  simp only [Pi.smul_apply, smul_eq_mul]
  ring

/-- The variance as a pairing with the matrix of products. -/
theorem variance_pairing (C : Mat n) (w : Fin n → ℝ) : varianceUnder C w = pairing C fun i j => w i * w j := by
  unfold varianceUnder pairing
  exact Finset.sum_congr rfl fun i _ => Finset.sum_congr rfl fun j _ => by ring

/-- A symmetric matrix of the cone is a sum of matrices of products; so the pairing with a matrix of the cone is nonnegative. -/
theorem pairing_nonneg (A Z : Mat n) (hA : A ∈ cone n) (hs : ∀ i j, Z i j = Z j i) (hZ : Z ∈ cone n) : 0 ≤ pairing A Z := by
  have hpsd : (Matrix.of Z).PosSemidef := by
    refine Matrix.PosSemidef.of_dotProduct_mulVec_nonneg ?_ fun x => ?_
    · ext i j
      simp [Matrix.conjTranspose_apply, hs j i]
    · have := hZ x
      unfold varianceUnder at this
      simp only [star_trivial, dotProduct, Matrix.mulVec, Matrix.of_apply]
      refine le_of_le_of_eq this ?_
      refine Finset.sum_congr rfl fun i _ => ?_
      rw [Finset.mul_sum]
      exact Finset.sum_congr rfl fun j _ => by ring
  obtain ⟨B, hB⟩ := CStarAlgebra.nonneg_iff_eq_star_mul_self.mp hpsd.nonneg
  have hZB : ∀ i j, Z i j = ∑ l, B l i * B l j := by
    intro i j
    have := congrFun (congrFun hB i) j
    simpa [Matrix.mul_apply, Matrix.star_apply] using this
  have e : pairing A Z = ∑ l, varianceUnder A fun i => B l i := by
    unfold pairing varianceUnder
    have h1 : ∀ i j, A i j * Z i j = ∑ l, B l i * A i j * B l j := by
      intro i j
      rw [hZB, Finset.mul_sum]
      exact Finset.sum_congr rfl fun l _ => by ring
    simp only [h1]
    have h2 : ∀ i, ∑ j, ∑ l, B l i * A i j * B l j = ∑ l, ∑ j, B l i * A i j * B l j := fun i => Finset.sum_comm
    simp only [h2]
    rw [Finset.sum_comm]
  rw [e]
  exact Finset.sum_nonneg fun l _ => hA _

/-! ### The interior -/

theorem cone_convex (n : Nat) : Convex ℝ (cone n) := by
  intro A hA B hB a b ha hb _ x
  rw [variance_add, variance_smul, variance_smul]
  exact add_nonneg (mul_nonneg ha (hA x)) (mul_nonneg hb (hB x))

def unit (n : Nat) : Mat n := fun i j => if i = j then 1 else 0

theorem variance_unit (x : Fin n → ℝ) : varianceUnder (unit n) x = ∑ i, x i ^ 2 := by
  unfold varianceUnder unit
  refine Finset.sum_congr rfl fun i _ => ?_
  rw [Finset.sum_eq_single i (fun j _ hj => by simp [Ne.symm hj]) (fun h => absurd (Finset.mem_univ i) h)]
  simp
  ring

/-- Matrices with small entries. -/
theorem variance_small (M : Mat n) (δ : ℝ) (hM : ∀ i j, |M i j| ≤ δ) (x : Fin n → ℝ) : -(δ * (n * ∑ i, x i ^ 2)) ≤ varianceUnder M x := by
  by_cases hn : n = 0
  · subst hn
    simp [varianceUnder]
  have h0 : 0 ≤ δ := (abs_nonneg _).trans (hM ⟨0, Nat.pos_of_ne_zero hn⟩ ⟨0, Nat.pos_of_ne_zero hn⟩)
  have h1 : (∑ i, |x i|) ^ 2 ≤ n * ∑ i, x i ^ 2 := by
    have := sq_sum_le_card_mul_sum_sq (s := Finset.univ) (f := fun i => |x i|)
    simpa using this
  have h2 : -(δ * (∑ i, |x i|) ^ 2) ≤ varianceUnder M x := by
    have e : δ * (∑ i, |x i|) ^ 2 = ∑ i, ∑ j, |x i| * δ * |x j| := by
      rw [sq, Finset.sum_mul_sum, Finset.mul_sum]
      refine Finset.sum_congr rfl fun i _ => ?_
      rw [Finset.mul_sum]
      exact Finset.sum_congr rfl fun j _ => by ring
    rw [e, ← Finset.sum_neg_distrib]
    unfold varianceUnder
    refine Finset.sum_le_sum fun i _ => ?_
    rw [← Finset.sum_neg_distrib]
    refine Finset.sum_le_sum fun j _ => ?_
    have h3 : |x i * M i j * x j| ≤ |x i| * δ * |x j| := by
      rw [abs_mul, abs_mul]
      exact mul_le_mul_of_nonneg_right (mul_le_mul_of_nonneg_left (hM i j) (abs_nonneg _)) (abs_nonneg _)
    exact (abs_le.1 h3).1
  have h4 := mul_le_mul_of_nonneg_left h1 h0
  linarith

theorem unit_interior (ε : ℝ) (hε : 0 < ε) : ε • unit n ∈ interior (cone n) := by
  rw [mem_interior]
  refine ⟨Metric.ball (ε • unit n) (ε / (n + 1)), ?_, Metric.isOpen_ball, Metric.mem_ball_self (by positivity)⟩
  intro M hM x
  have hd : ∀ i j, |(M - ε • unit n) i j| ≤ ε / (n + 1) := by
    intro i j
    have h1 := (dist_le_pi_dist (M i) ((ε • unit n) i) j).trans ((dist_le_pi_dist M (ε • unit n) i).trans (Metric.mem_ball.1 hM).le)
    rw [Real.dist_eq] at h1
    exact h1
  have h2 := variance_small (M - ε • unit n) _ hd x
  have e : varianceUnder M x = varianceUnder (M - ε • unit n) x + ε * ∑ i, x i ^ 2 := by
    rw [← variance_unit, ← variance_smul, ← variance_add, sub_add_cancel]
  rw [e]
  have h3 : 0 ≤ ∑ i, x i ^ 2 := Finset.sum_nonneg fun _ _ => sq_nonneg _
  have h4 : ε / (n + 1) * (n * ∑ i, x i ^ 2) ≤ ε * ∑ i, x i ^ 2 := by
    rw [div_mul_eq_mul_div, div_le_iff₀ (by positivity)]
    have := mul_nonneg hε.le h3
    nlinarith
  linarith

theorem interior_add (A B : Mat n) (hA : A ∈ interior (cone n)) (hB : B ∈ cone n) : A + B ∈ interior (cone n) := by
  rw [mem_interior]
  refine ⟨(fun M => M - B) ⁻¹' interior (cone n), ?_, isOpen_interior.preimage (by fun_prop), ?_⟩
  · intro M hM x
    have h1 := interior_subset hM x
    have e : varianceUnder M x = varianceUnder (M - B) x + varianceUnder B x := by rw [← variance_add, sub_add_cancel]
    rw [e]
    exact add_nonneg h1 (hB x)
  · simpa using hA

/-- A covariance under which every portfolio has a positive variance is in the interior. -/
theorem definite_interior (C : Mat n) (hC : ∀ x, x ≠ 0 → 0 < varianceUnder C x) : C ∈ interior (cone n) := by
  by_cases hn : n = 0
  · subst hn
    have : cone 0 = Set.univ := by
      ext M
      simp [cone, varianceUnder]
    rw [this]
    simp
  have hcont : Continuous (varianceUnder C) := by
    unfold varianceUnder
    fun_prop
  have : Nonempty (Fin n) := ⟨⟨0, Nat.pos_of_ne_zero hn⟩⟩
  obtain ⟨x0, hx0, hmin⟩ := (isCompact_sphere (0 : Fin n → ℝ) 1).exists_isMinOn (NormedSpace.sphere_nonempty.2 zero_le_one) hcont.continuousOn
  have hpos : 0 < varianceUnder C x0 := hC x0 (by
    rintro rfl
    simp at hx0)
  obtain ⟨μ, hμ⟩ : ∃ μ, μ = varianceUnder C x0 := ⟨_, rfl⟩
  rw [← hμ] at hpos
  have hn' : (0 : ℝ) < n := by exact_mod_cast Nat.pos_of_ne_zero hn
  have hbound : C - (μ / n) • unit n ∈ cone n := by
    intro x
    have e : varianceUnder C x = varianceUnder (C - (μ / n) • unit n) x + μ / n * ∑ i, x i ^ 2 := by
      rw [← variance_unit, ← variance_smul, ← variance_add, sub_add_cancel]
    have h1 : μ / n * ∑ i, x i ^ 2 ≤ varianceUnder C x := by
      by_cases hx : x = 0
      · subst hx
        simp [varianceUnder]
      have hxn : 0 < ‖x‖ := norm_pos_iff.2 hx
      have h2 : μ ≤ varianceUnder C (‖x‖⁻¹ • x) := by
        rw [hμ]
        refine hmin ?_
        rw [mem_sphere_zero_iff_norm, norm_smul, norm_inv, norm_norm, inv_mul_cancel₀ hxn.ne']
      have h3 : varianceUnder C (‖x‖⁻¹ • x) = ‖x‖⁻¹ ^ 2 * varianceUnder C x := by
        unfold varianceUnder
        rw [Finset.mul_sum]
        refine Finset.sum_congr rfl fun i _ => ?_
        rw [Finset.mul_sum]
        refine Finset.sum_congr rfl fun j _ => ?_
        simp only [Pi.smul_apply, smul_eq_mul]
        ring
      rw [h3, inv_pow, inv_mul_eq_div, le_div_iff₀ (by positivity)] at h2
      refine le_trans ?_ h2
      rw [div_mul_eq_mul_div, div_le_iff₀ hn', mul_assoc]
      refine mul_le_mul_of_nonneg_left ?_ hpos.le
      calc ∑ i, x i ^ 2 ≤ ∑ _i : Fin n, ‖x‖ ^ 2 := Finset.sum_le_sum fun i _ => by
              have := norm_le_pi_norm x i
              rw [← sq_abs]
              exact pow_le_pow_left₀ (abs_nonneg _) this 2
        _ = ‖x‖ ^ 2 * n := by simp [mul_comm]
    linarith
  have := interior_add _ _ (unit_interior (n := n) (μ / n) (by positivity)) hbound
  simpa using this

end

end Skfolio.Uncertainty
