import Verif.Uncertainty.Model
import Verif.Uncertainty.Cone
import Verif.Uncertainty.Ellipsoid
import Verif.Convex.RiskSpec
import Mathlib.Data.Fin.VecNotation
import Mathlib.Tactic.FinCases
import Mathlib.Algebra.BigOperators.Group.Finset.Basic

/-!
**C64**: the worst-case variance is the least upper bound of the variance over the uncertainty set of covariances.
-/
set_option autoImplicit false

namespace Skfolio.Uncertainty

open Skfolio.Convex

section
variable {n : Nat}

theorem sum_columns (A B : Mat n) : ∑ p, columns A p * columns B p = pairing A B := by
  unfold pairing
  rw [Finset.sum_comm, ← Fintype.sum_prod_type' (f := fun j i => A i j * B i j)]
  exact Fintype.sum_equiv finProdFinEquiv.symm _ _ fun p => rfl

/-- The worst case of a linear function of the covariance. -/
theorem pairing_greatest (kappa : ℝ) (hk : 0 ≤ kappa) (R : Matrix (Fin (n * n)) (Fin (n * n)) ℝ) (hR : R.transpose = R) (cov Z : Mat n) :
    (∀ C, columns C ∈ BallImage kappa R (columns cov) → pairing C Z ≤ pairing cov Z + kappa * Real.sqrt (∑ p, (∑ q, R p q * columns Z q) ^ 2)) ∧
      ∃ C, columns C ∈ BallImage kappa R (columns cov) ∧ pairing C Z = pairing cov Z + kappa * Real.sqrt (∑ p, (∑ q, R p q * columns Z q) ^ 2) := by
  obtain ⟨⟨x, hx, hv⟩, hmax⟩ := greatest_on_ball kappa hk R hR (columns cov) (columns Z)
  rw [sum_columns] at hv hmax
  constructor
  · intro C hC
    have := hmax ⟨columns C, hC, rfl⟩
    dsimp only at this
    rw [sum_columns] at this
    exact this
  · have e : columns (fun i j => x (finProdFinEquiv (j, i))) = x := by
      funext p
      change x (finProdFinEquiv (finProdFinEquiv.symm p)) = x p
      rw [Equiv.apply_symm_apply]
    refine ⟨fun i j => x (finProdFinEquiv (j, i)), by rw [e]; exact hx, ?_⟩
    rw [← sum_columns, e, ← hv]

/-- The constraint on the blocks: `X - w wᵀ / k` has a nonnegative quadratic form. -/
theorem block_semidefinite (X : Mat n) (w : Fin n → ℝ) (k s : ℝ) (hk : 0 < k) (hs : 0 < s) :
    semidefinite (fun x y => block X w k x y * s) ↔ (X - fun i j => w i * w j / k) ∈ cone n := by
  have hform : ∀ (x : Fin n → ℝ) (t : ℝ), ∑ a, ∑ b, (Sum.elim x fun _ => t : Fin n ⊕ Unit → ℝ) a * (block X w k a b * s) * (Sum.elim x fun _ => t : Fin n ⊕ Unit → ℝ) b = s * (varianceUnder X x + 2 * t * (∑ i, w i * x i) + k * t ^ 2) := by
    intro x t
    simp only [Fintype.sum_sum_type, Sum.elim_inl, Sum.elim_inr, block, Finset.univ_unique, Finset.sum_singleton, Finset.sum_add_distrib]
    have h1 : ∑ i, ∑ j, x i * (X i j * s) * x j = s * varianceUnder X x := by
      unfold varianceUnder
      rw [Finset.mul_sum]
      refine Finset.sum_congr rfl fun i _ => ?_
      rw [Finset.mul_sum]
      exact Finset.sum_congr rfl fun j _ => by ring
    have h2 : ∑ i, x i * (w i * s) * t = s * t * ∑ i, w i * x i := by
      rw [Finset.mul_sum]
      exact Finset.sum_congr rfl fun i _ => by ring
    have h3 : ∑ i, t * (w i * s) * x i = s * t * ∑ i, w i * x i := by
      rw [Finset.mul_sum]
      exact Finset.sum_congr rfl fun i _ => by ring
    rw [h1, h2, h3]
    ring
  have hdiff : ∀ x, varianceUnder (X - fun i j => w i * w j / k) x = varianceUnder X x - (∑ i, w i * x i) ^ 2 / k := by
    intro x
    unfold varianceUnder
    have h1 : (∑ i, w i * x i) ^ 2 / k = ∑ i, ∑ j, x i * (w i * w j / k) * x j := by
      rw [sq, Finset.sum_mul_sum, Finset.sum_div]
      refine Finset.sum_congr rfl fun i _ => ?_
      rw [Finset.sum_div]
      exact Finset.sum_congr rfl fun j _ => by ring
    rw [h1, ← Finset.sum_sub_distrib]
    refine Finset.sum_congr rfl fun i _ => ?_
    rw [← Finset.sum_sub_distrib]
    refine Finset.sum_congr rfl fun j _ => ?_
    simp only [Pi.sub_apply]
    ring
  constructor
  · intro h x
    have h1 := h (Sum.elim x fun _ => -(∑ i, w i * x i) / k)
    rw [hform] at h1
    have h2 := nonneg_of_mul_nonneg_right h1 hs
    rw [hdiff]
    refine h2.trans (le_of_eq ?_)
    field_simp
    ring
  · intro h z
    have hz : z = Sum.elim (fun i => z (.inl i)) fun _ => z (.inr ()) := by
      funext a
      cases a <;> rfl
    rw [hz, hform]
    refine mul_nonneg hs.le ?_
    have h1 := h fun i => z (.inl i)
    rw [hdiff] at h1
    obtain ⟨y, hy⟩ : ∃ y, y = ∑ i, w i * z (.inl i) := ⟨_, rfl⟩
    obtain ⟨t, ht⟩ : ∃ t, t = z (.inr ()) := ⟨_, rfl⟩
    rw [← hy] at h1 ⊢
    rw [← ht]
    have h2 : 0 ≤ (y + k * t) ^ 2 / k := by positivity
    have h3 : (y + k * t) ^ 2 / k = y ^ 2 / k + 2 * t * y + k * t ^ 2 := by
      field_simp
      ring
    linarith

theorem semidefinite_cone (Y : Mat n) (s : ℝ) (hs : 0 < s) : semidefinite (fun i j => Y i j * s) ↔ Y ∈ cone n := by
  have e : ∀ z : Fin n → ℝ, ∑ a, ∑ b, z a * (Y a b * s) * z b = s * varianceUnder Y z := by
    intro z
    unfold varianceUnder
    rw [Finset.mul_sum]
    refine Finset.sum_congr rfl fun i _ => ?_
    rw [Finset.mul_sum]
    exact Finset.sum_congr rfl fun j _ => by ring
  constructor
  · intro h z
    have := h z
    rw [e] at this
    exact nonneg_of_mul_nonneg_right this hs
  · intro h z
    rw [e]
    exact mul_nonneg hs.le (h z)

theorem risk_eq (cov : Mat n) (kappa : ℝ) (R : Matrix (Fin (n * n)) (Fin (n * n)) ℝ) (w : Fin n → ℝ) (k s : ℝ) (X Y : Mat n) (hX : ∀ i j, X i j = X j i) (hY : ∀ i j, Y i j = Y j i) :
    (worstCaseVarianceRisk cov kappa R w k s).risk (X, Y) = pairing cov (X + Y) + kappa * Real.sqrt (∑ p, (∑ q, R p q * columns (X + Y) q) ^ 2) := by
  rw [add_comm (pairing cov (X + Y))]
  unfold worstCaseVarianceRisk pairing
  dsimp only
  congr 1
  refine Finset.sum_congr rfl fun i _ => Finset.sum_congr rfl fun j _ => ?_
  rw [hX j i, hY j i]
  rfl

/-- **C64.** Soundness: at every feasible point the risk is at least the variance under every covariance of the uncertainty set. -/
theorem C64_bound (cov : Mat n) (kappa : ℝ) (hkappa : 0 ≤ kappa) (R : Matrix (Fin (n * n)) (Fin (n * n)) ℝ) (hR : R.transpose = R) (w : Fin n → ℝ) (k s : ℝ) (hk : 0 < k) (hs : 0 < s)
    (a : (worstCaseVarianceRisk cov kappa R w k s).Aux) (ha : (worstCaseVarianceRisk cov kappa R w k s).feasible a) (C : Mat n) (hC : PlausibleCov cov kappa R C) :
    k * varianceUnder C (fun i => w i / k) ≤ (worstCaseVarianceRisk cov kappa R w k s).risk a := by
  obtain ⟨X, Y⟩ := a
  obtain ⟨h1, h2, h3, h4⟩ := ha
  dsimp only at h1 h2 h3 h4
  rw [block_semidefinite X w k s hk hs] at h3
  rw [semidefinite_cone Y s hs] at h4
  rw [risk_eq cov kappa R w k s X Y h1 h2]
  refine le_trans ?_ ((pairing_greatest kappa hkappa R hR cov (X + Y)).1 C hC.near)
  have e : pairing C (X + Y) = pairing C (X - fun i j => w i * w j / k) + pairing C Y + pairing C fun i j => w i * w j / k := by
    rw [← pairing_add_right, ← pairing_add_right]
    congr 1
    funext i j
    simp only [Pi.add_apply, Pi.sub_apply]
    ring
  have e2 : pairing C (fun i j => w i * w j / k) = k * varianceUnder C fun i => w i / k := by
    unfold pairing varianceUnder
    rw [Finset.mul_sum]
    refine Finset.sum_congr rfl fun i _ => ?_
    rw [Finset.mul_sum]
    refine Finset.sum_congr rfl fun j _ => ?_
    field_simp
  have p1 := pairing_nonneg C (X - fun i j => w i * w j / k) hC.nonneg (fun i j => by simp only [Pi.sub_apply]; rw [h1 i j]; ring) h3
  have p2 := pairing_nonneg C Y hC.nonneg h2 h4
  rw [e, e2]
  linarith

/-! ### Exactness -/

theorem ball_convex (kappa : ℝ) (R : Matrix (Fin (n * n)) (Fin (n * n)) ℝ) (cov : Mat n) : Convex ℝ {C : Mat n | columns C ∈ BallImage kappa R (columns cov)} := by
  rintro A ⟨y, hy, hA⟩ B ⟨z, hz, hB⟩ a b ha hb hab
  refine ⟨fun j => a * y j + b * z j, ?_, fun i => ?_⟩
  · have h1 : ∀ j, (a * y j + b * z j) ^ 2 ≤ a * y j ^ 2 + b * z j ^ 2 := by
      intro j
      have : b = 1 - a := by linarith
      subst this
      nlinarith [mul_nonneg (mul_nonneg ha hb) (sq_nonneg (y j - z j))]
    refine (Finset.sum_le_sum fun j _ => h1 j).trans ?_
    rw [Finset.sum_add_distrib, ← Finset.mul_sum, ← Finset.mul_sum]
    have h2 := mul_le_mul_of_nonneg_left hy ha
    have h3 := mul_le_mul_of_nonneg_left hz hb
    have : a * kappa ^ 2 + b * kappa ^ 2 = kappa ^ 2 := by rw [← add_mul, hab, one_mul]
    linarith
  · have h1 := hA i
    have h2 := hB i
    have e : columns (a • A + b • B) i = a * columns A i + b * columns B i := rfl
    have e2 : ∑ j, R i j * (a * y j + b * z j) = a * (∑ j, R i j * y j) + b * ∑ j, R i j * z j := by
      rw [Finset.mul_sum, Finset.mul_sum, ← Finset.sum_add_distrib]
      exact Finset.sum_congr rfl fun j _ => by ring
    rw [e, e2, h1, h2]
    have : columns cov i = a * columns cov i + b * columns cov i := by rw [← add_mul, hab, one_mul]
    linarith

theorem functional_eq (f : (Mat n × ℝ) →L[ℝ] ℝ) : ∃ (Z : Mat n) (α : ℝ), ∀ M t, f (M, t) = pairing M Z + α * t := by
  refine ⟨fun i j => f (Pi.single i (Pi.single j 1), 0), f (0, 1), fun M t => ?_⟩
  have h1 : (M, t) = (M, (0 : ℝ)) + t • ((0 : Mat n), (1 : ℝ)) := by
    ext <;> simp
  have h2 : (M, (0 : ℝ)) = ∑ i, ∑ j, M i j • ((Pi.single i (Pi.single j 1) : Mat n), (0 : ℝ)) := by
    refine Prod.ext ?_ ?_
    · rw [Prod.fst_sum]
      simp only [Prod.fst_sum, Prod.smul_fst]
      funext a b
      rw [Finset.sum_apply, Finset.sum_apply]
      rw [Finset.sum_eq_single a]
      · rw [Finset.sum_apply, Finset.sum_apply, Finset.sum_eq_single b]
        · simp
        · intro j _ hj
          simp [Pi.single_apply, Ne.symm hj]
        · simp
      · intro i _ hi
        rw [Finset.sum_apply, Finset.sum_apply]
        refine Finset.sum_eq_zero fun j _ => ?_
        simp [Pi.single_apply, Ne.symm hi]
      · simp
    · rw [Prod.snd_sum]
      simp [Prod.snd_sum]
  rw [h1, map_add, map_smul, h2, map_sum]
  simp only [map_sum, map_smul, smul_eq_mul]
  rw [mul_comm t]
  rfl

/-- The matrix with a single entry 1. -/
def entry (a b : Fin n) : Mat n := fun i j => if i = a ∧ j = b then 1 else 0

theorem variance_entry (a b : Fin n) (x : Fin n → ℝ) : varianceUnder (entry a b) x = x a * x b := by
  unfold varianceUnder entry
  rw [Finset.sum_eq_single a (fun i _ hi => Finset.sum_eq_zero fun j _ => by simp [hi]) (by simp), Finset.sum_eq_single b (fun j _ hj => by simp [hj]) (by simp)]
  simp

theorem pairing_entry (a b : Fin n) (Z : Mat n) : pairing (entry a b) Z = Z a b := by
  unfold pairing entry
  rw [Finset.sum_eq_single a (fun i _ hi => Finset.sum_eq_zero fun j _ => by simp [hi]) (by simp), Finset.sum_eq_single b (fun j _ hj => by simp [hj]) (by simp)]
  simp

/-- A matrix whose pairing with the cone is nonnegative is symmetric and in the cone. -/
theorem dual_cone (Z : Mat n) (hcone : ∀ N ∈ cone n, 0 ≤ pairing N Z) : (∀ i j, Z i j = Z j i) ∧ Z ∈ cone n := by
  have hanti : ∀ i j : Fin n, entry i j + (-1 : ℝ) • entry j i ∈ cone n := by
    intro i j x
    rw [variance_add, variance_smul, variance_entry, variance_entry]
    exact le_of_eq (by ring)
  have hle : ∀ i j, Z j i ≤ Z i j := by
    intro i j
    have := hcone _ (hanti i j)
    rw [pairing_add_left, pairing_smul_left, pairing_entry, pairing_entry] at this
    linarith
  have hZsymm : ∀ i j, Z i j = Z j i := fun i j => le_antisymm (hle j i) (hle i j)
  have hZcone : Z ∈ cone n := by
    intro x
    rw [variance_pairing, pairing_comm]
    refine hcone _ fun y => ?_
    have : varianceUnder (fun i j => x i * x j) y = (∑ i, y i * x i) ^ 2 := by
      unfold varianceUnder
      rw [sq, Finset.sum_mul_sum]
      exact Finset.sum_congr rfl fun i _ => Finset.sum_congr rfl fun j _ => by ring
    rw [this]
    exact sq_nonneg _
  exact ⟨hZsymm, hZcone⟩

/-- The multiplier of the positivity constraint. -/
theorem exists_multiplier (cov : Mat n) (hcov : ∀ x, x ≠ 0 → 0 < varianceUnder cov x) (U : Set (Mat n)) (hUconv : Convex ℝ U) (hcovU : cov ∈ U) (W : Mat n) (b : ℝ) (hb : ∀ C ∈ U, C ∈ cone n → pairing C W ≤ b) :
    ∃ (Z : Mat n) (α : ℝ), 0 < α ∧ (∀ N ∈ cone n, 0 ≤ pairing N Z) ∧ ∀ C ∈ U, pairing C Z + α * pairing C W ≤ α * b := by
  -- the set to be separated from the point
  obtain ⟨D, hD⟩ : ∃ D : Set (Mat n × ℝ), D = {x | ∃ C ∈ U, ∃ P ∈ interior (cone n), x.1 = C - P ∧ x.2 < pairing C W} := ⟨_, rfl⟩
  have hDconv : Convex ℝ D := by
    rw [hD]
    rintro ⟨M, t⟩ ⟨C, hC, P, hP, h1, h2⟩ ⟨M', t'⟩ ⟨C', hC', P', hP', h1', h2'⟩ a c ha hc hac
    refine ⟨a • C + c • C', hUconv hC hC' ha hc hac, a • P + c • P', (cone_convex n).interior hP hP' ha hc hac, ?_, ?_⟩
    · dsimp only at h1 h1'
      simp only [Prod.smul_mk, Prod.mk_add_mk, h1, h1', smul_sub]
      abel
    · dsimp only at h2 h2'
      simp only [Prod.smul_mk, Prod.mk_add_mk, smul_eq_mul, pairing_add_left, pairing_smul_left]
      rcases ha.eq_or_lt with h0 | h0
      · have : c = 1 := by linarith
        rw [← h0, this]
        linarith
      · have h3 := mul_lt_mul_of_pos_left h2 h0
        have h4 := mul_le_mul_of_nonneg_left h2'.le hc
        linarith
  have hDopen : IsOpen D := by
    have e : D = ⋃ C ∈ U, ((fun M : Mat n => C - M) ⁻¹' interior (cone n)) ×ˢ Set.Iio (pairing C W) := by
      rw [hD]
      ext ⟨M, t⟩
      simp only [Set.mem_ofPred_eq, Set.mem_iUnion, Set.mem_prod, Set.mem_preimage, Set.mem_Iio, exists_prop]
      constructor
      · rintro ⟨C, hC, P, hP, rfl, h2⟩
        exact ⟨C, hC, by rw [sub_sub_cancel]; exact hP, h2⟩
      · rintro ⟨C, hC, hP, h2⟩
        exact ⟨C, hC, C - M, hP, by rw [sub_sub_cancel], h2⟩
    rw [e]
    exact isOpen_biUnion fun C _ => (isOpen_interior.preimage (by fun_prop)).prod isOpen_Iio
  have hnot : ((0 : Mat n), b) ∉ D := by
    rw [hD]
    rintro ⟨C, hC, P, hP, h1, h2⟩
    dsimp only at h1 h2
    have : C = P := (sub_eq_zero.1 h1.symm)
    subst this
    have := hb C hC (interior_subset hP)
    linarith
  obtain ⟨f, hf⟩ := geometric_hahn_banach_open_point hDconv hDopen hnot
  obtain ⟨Z, α, hZ⟩ := functional_eq f
  have key : ∀ C ∈ U, ∀ P ∈ interior (cone n), ∀ t, t < pairing C W → pairing C Z - pairing P Z + α * t < α * b := by
    intro C hC P hP t ht
    have := hf (C - P, t) (by rw [hD]; exact ⟨C, hC, P, hP, rfl, ht⟩)
    rw [hZ, hZ] at this
    have e : pairing (C - P) Z = pairing C Z - pairing P Z := by
      have : pairing (C - P + P) Z = pairing (C - P) Z + pairing P Z := pairing_add_left _ _ _
      rw [sub_add_cancel] at this
      linarith
    have e0 : pairing (0 : Mat n) Z = 0 := by simp [pairing]
    rw [e, e0] at this
    linarith
  have hI : ∀ ε : ℝ, 0 < ε → ε • unit n ∈ interior (cone n) := fun ε hε => unit_interior ε hε
  have hα : 0 ≤ α := by
    by_contra h
    push Not at h
    obtain ⟨q, hq⟩ : ∃ q, q = pairing cov Z - pairing ((1 : ℝ) • unit n) Z - α * b := ⟨_, rfl⟩
    have h1 := key cov hcovU _ (hI 1 one_pos) (min (pairing cov W - 1) (-q / α)) (lt_of_le_of_lt (min_le_left _ _) (by linarith))
    have h2 : α * (-q / α) ≤ α * min (pairing cov W - 1) (-q / α) := mul_le_mul_of_nonpos_left (min_le_right _ _) h.le
    have h3 : α * (-q / α) = -q := mul_div_cancel₀ _ h.ne
    linarith
  have hcone : ∀ N ∈ cone n, 0 ≤ pairing N Z := by
    intro N hN
    by_contra h
    push Not at h
    obtain ⟨q, hq⟩ : ∃ q, q = pairing cov Z - pairing ((1 : ℝ) • unit n) Z + α * (pairing cov W - 1) - α * b := ⟨_, rfl⟩
    have hN' : (|q| / -pairing N Z) • N ∈ cone n := by
      intro x
      rw [variance_smul]
      exact mul_nonneg (div_nonneg (abs_nonneg _) (by linarith)) (hN x)
    have h1 := key cov hcovU _ (interior_add _ _ (hI 1 one_pos) hN') (pairing cov W - 1) (by linarith)
    rw [pairing_add_left, pairing_smul_left (|q| / -pairing N Z)] at h1
    have h2 : |q| / -pairing N Z * pairing N Z = -|q| := by
      have : pairing N Z ≠ 0 := h.ne
      field_simp
    have h3 := neg_abs_le q
    linarith
  have hle : ∀ C ∈ U, pairing C Z + α * pairing C W ≤ α * b := by
    intro C hC
    refine le_of_forall_pos_le_add fun ε hε => ?_
    obtain ⟨q, hq⟩ : ∃ q, q = pairing (unit n) Z + α := ⟨_, rfl⟩
    have hq0 : 0 ≤ q := by
      rw [hq]
      have := hcone (unit n) (fun x => by rw [variance_unit]; exact Finset.sum_nonneg fun _ _ => sq_nonneg _)
      linarith
    have hδ : 0 < ε / (q + 1) := div_pos hε (by linarith)
    have h1 := key C hC _ (hI _ hδ) (pairing C W - ε / (q + 1)) (by linarith)
    rw [pairing_smul_left] at h1
    have h2 : ε / (q + 1) * q ≤ ε := by
      rw [div_mul_eq_mul_div, div_le_iff₀ (by linarith)]
      nlinarith
    rw [hq] at h2
    rw [hq] at h1
    nlinarith
  have hαpos : 0 < α := by
    refine hα.lt_of_ne fun h => ?_
    have h1 := key cov hcovU cov (definite_interior cov hcov) (pairing cov W - 1) (by linarith)
    rw [← h] at h1
    linarith
  exact ⟨Z, α, hαpos, hcone, hle⟩

/-- Every upper bound of the variance over the uncertainty set is reached by a feasible point: strong duality. -/
theorem dual_attained (cov : Mat n) (hcov : ∀ x, x ≠ 0 → 0 < varianceUnder cov x) (kappa : ℝ) (hkappa : 0 ≤ kappa) (R : Matrix (Fin (n * n)) (Fin (n * n)) ℝ) (hR : R.transpose = R) (w : Fin n → ℝ) (k s : ℝ) (hk : 0 < k) (hs : 0 < s) (b : ℝ)
    (hb : ∀ C, PlausibleCov cov kappa R C → k * varianceUnder C (fun i => w i / k) ≤ b) :
    ∃ a, (worstCaseVarianceRisk cov kappa R w k s).feasible a ∧ (worstCaseVarianceRisk cov kappa R w k s).risk a ≤ b := by
  obtain ⟨W, hW⟩ : ∃ W : Mat n, W = fun i j => w i * w j / k := ⟨_, rfl⟩
  have hWv : ∀ C, k * varianceUnder C (fun i => w i / k) = pairing C W := by
    intro C
    rw [hW]
    unfold pairing varianceUnder
    rw [Finset.mul_sum]
    refine Finset.sum_congr rfl fun i _ => ?_
    rw [Finset.mul_sum]
    refine Finset.sum_congr rfl fun j _ => ?_
    field_simp
  simp only [hWv] at hb
  obtain ⟨U, hU⟩ : ∃ U : Set (Mat n), U = {C : Mat n | columns C ∈ BallImage kappa R (columns cov)} := ⟨_, rfl⟩
  have hUconv : Convex ℝ U := hU ▸ ball_convex kappa R cov
  have hcovU : cov ∈ U := by
    rw [hU]
    exact ⟨0, by simpa using sq_nonneg kappa, by simp⟩
  obtain ⟨Z, α, hαpos, hcone, hle⟩ := exists_multiplier cov hcov U hUconv hcovU W b fun C hC hC' => hb C ⟨by rw [hU] at hC; exact hC, hC'⟩
  have hα := hαpos.le
  obtain ⟨hZsymm, hZcone⟩ := dual_cone Z hcone
  have hWs : ∀ i j, W i j = W j i := fun i j => by rw [hW]; ring
  have hYs : ∀ i j, (α⁻¹ • Z) i j = (α⁻¹ • Z) j i := fun i j => by simp only [Pi.smul_apply]; rw [hZsymm i j]
  refine ⟨(W, α⁻¹ • Z), ⟨hWs, hYs, ?_, ?_⟩, ?_⟩
  · rw [block_semidefinite W w k s hk hs]
    intro x
    rw [← hW, sub_self]
    simp [varianceUnder]
  · dsimp only
    rw [semidefinite_cone _ s hs]
    intro x
    rw [variance_smul]
    exact mul_nonneg (inv_nonneg.2 hα) (hZcone x)
  · rw [risk_eq cov kappa R w k s W _ hWs hYs]
    obtain ⟨C, hC, hv⟩ := (pairing_greatest kappa hkappa R hR cov (W + α⁻¹ • Z)).2
    rw [← hv, pairing_add_right, pairing_comm C (α⁻¹ • Z), pairing_smul_left, pairing_comm Z C]
    have h1 := hle C (by rw [hU]; exact hC)
    have h2 := mul_le_mul_of_nonneg_left h1 (inv_nonneg.2 hα)
    have h3 : α⁻¹ * (pairing C Z + α * pairing C W) = α⁻¹ * pairing C Z + pairing C W := by field_simp
    have h4 : α⁻¹ * (α * b) = b := by field_simp
    linarith

/-- **C64.** The minimum of the worst-case variance program is the least upper bound of the variance over the uncertainty set (times the scale, for the ratio). -/
theorem C64_worst_case (cov : Mat n) (hcov : ∀ x, x ≠ 0 → 0 < varianceUnder cov x) (kappa : ℝ) (hkappa : 0 ≤ kappa) (R : Matrix (Fin (n * n)) (Fin (n * n)) ℝ) (hR : R.transpose = R) (w : Fin n → ℝ) (k s : ℝ) (hk : 0 < k) (hs : 0 < s) (v : ℝ) :
    IsOptimalValue (worstCaseVarianceRisk cov kappa R w k s) v ↔ IsLUB {y | ∃ C, PlausibleCov cov kappa R C ∧ y = k * varianceUnder C fun i => w i / k} v := by
  constructor
  · rintro ⟨⟨a, ha, rfl⟩, hmin⟩
    constructor
    · rintro _ ⟨C, hC, rfl⟩
      exact C64_bound cov kappa hkappa R hR w k s hk hs a ha C hC
    · intro b hb
      obtain ⟨a', ha', hle⟩ := dual_attained cov hcov kappa hkappa R hR w k s hk hs b fun C hC => hb ⟨C, hC, rfl⟩
      exact (hmin a' ha').trans hle
  · rintro ⟨hub, hleast⟩
    obtain ⟨a, ha, hle⟩ := dual_attained cov hcov kappa hkappa R hR w k s hk hs v fun C hC => hub ⟨C, hC, rfl⟩
    have hlow : ∀ a', (worstCaseVarianceRisk cov kappa R w k s).feasible a' → v ≤ (worstCaseVarianceRisk cov kappa R w k s).risk a' := by
      intro a' ha'
      refine hleast ?_
      rintro _ ⟨C, hC, rfl⟩
      exact C64_bound cov kappa hkappa R hR w k s hk hs a' ha' C hC
    exact ⟨⟨a, ha, le_antisymm hle (hlow a ha)⟩, hlow⟩

/-! ### The set of the documentation, and symmetric covariances -/

/-- The uncertainty set as documented: symmetric, no negative variances, and `vec(C - cov)ᵀ S⁻¹ vec(C - cov) ≤ κ²`. -/
structure DocumentedCov (cov : Mat n) (kappa : ℝ) (S : Matrix (Fin (n * n)) (Fin (n * n)) ℝ) (C : Mat n) : Prop where
  symmetric : ∀ i j, C i j = C j i
  near : columns C ∈ Ellipsoid kappa S (columns cov)
  nonneg : ∀ x, 0 ≤ varianceUnder C x

/-- The position of the transposed entry. -/
def swap (p : Fin (n * n)) : Fin (n * n) := finProdFinEquiv (p.modNat, p.divNat)

theorem swap_swap (p : Fin (n * n)) : swap (swap p) = p := by
  unfold swap
  have h := finProdFinEquiv.symm_apply_apply (p.modNat, p.divNat)
  have h1 : (finProdFinEquiv (p.modNat, p.divNat)).divNat = p.modNat := congrArg Prod.fst h
  have h2 : (finProdFinEquiv (p.modNat, p.divNat)).modNat = p.divNat := congrArg Prod.snd h
  rw [h1, h2]
  exact finProdFinEquiv.apply_symm_apply p

def swapEquiv : Fin (n * n) ≃ Fin (n * n) := ⟨swap, swap, swap_swap, swap_swap⟩

theorem columns_transpose (C : Mat n) (p : Fin (n * n)) : columns (fun i j => C j i) p = columns C (swap p) := by
  unfold columns swap
  have h := finProdFinEquiv.symm_apply_apply (p.modNat, p.divNat)
  have h1 : (finProdFinEquiv (p.modNat, p.divNat)).divNat = p.modNat := congrArg Prod.fst h
  have h2 : (finProdFinEquiv (p.modNat, p.divNat)).modNat = p.divNat := congrArg Prod.snd h
  rw [h1, h2]

/-- A shape that does not distinguish an entry from the transposed one: the transposed covariance is as plausible. -/
theorem ellipsoid_transpose (cov C : Mat n) (hcs : ∀ i j, cov i j = cov j i) (kappa : ℝ) (S : Matrix (Fin (n * n)) (Fin (n * n)) ℝ) (hsw : ∀ p q, S (swap p) (swap q) = S p q) (h : columns C ∈ Ellipsoid kappa S (columns cov)) :
    columns (fun i j => C j i) ∈ Ellipsoid kappa S (columns cov) := by
  have hS : S.reindex swapEquiv swapEquiv = S := by
    ext p q
    exact hsw p q
  have hinv : ∀ p q, S⁻¹ (swap p) (swap q) = S⁻¹ p q := by
    intro p q
    have := Matrix.inv_reindex swapEquiv swapEquiv S
    rw [hS] at this
    have h2 := congrFun (congrFun this p) q
    rw [h2]
    rfl
  have hd : ∀ p, (columns (fun i j => C j i) - columns cov) p = (columns C - columns cov) (swap p) := by
    intro p
    rw [Pi.sub_apply, Pi.sub_apply, columns_transpose]
    congr 1
    unfold columns
    have : cov p.modNat p.divNat = columns (fun i j => cov j i) p := (hcs _ _)
    rw [this, columns_transpose]
    rfl
  unfold Ellipsoid at h ⊢
  rw [Set.mem_ofPred_eq] at h ⊢
  refine le_of_eq_of_le ?_ h
  unfold dotProduct Matrix.mulVec dotProduct
  rw [← Equiv.sum_comp swapEquiv]
  refine Finset.sum_congr rfl fun p _ => ?_
  have e : swapEquiv p = swap p := rfl
  rw [e, hd, swap_swap]
  congr 1
  rw [← Equiv.sum_comp swapEquiv]
  refine Finset.sum_congr rfl fun q _ => ?_
  have e : swapEquiv q = swap q := rfl
  rw [e, hd, swap_swap]
  dsimp only
  rw [hinv]

/-- **C64.** The minimum of the program is the worst variance over the documented uncertainty set, for shapes that do not distinguish an entry from the transposed one (as those of the estimators, see C65). -/
theorem C64_documented (cov : Mat n) (hcs : ∀ i j, cov i j = cov j i) (hcov : ∀ x, x ≠ 0 → 0 < varianceUnder cov x) (kappa : ℝ) (hkappa : 0 ≤ kappa) (R S : Matrix (Fin (n * n)) (Fin (n * n)) ℝ) (hR : IsRoot R S) (hS : IsUnit S.det)
    (hsw : ∀ p q, S (swap p) (swap q) = S p q) (w : Fin n → ℝ) (k s : ℝ) (hk : 0 < k) (hs : 0 < s) (v : ℝ) :
    IsOptimalValue (worstCaseVarianceRisk cov kappa R w k s) v ↔ IsLUB {y | ∃ C, DocumentedCov cov kappa S C ∧ y = k * varianceUnder C fun i => w i / k} v := by
  rw [C64_worst_case cov hcov kappa hkappa R hR.symmetric w k s hk hs v]
  have e : {y | ∃ C, PlausibleCov cov kappa R C ∧ y = k * varianceUnder C fun i => w i / k} = {y | ∃ C, DocumentedCov cov kappa S C ∧ y = k * varianceUnder C fun i => w i / k} := by
    ext y
    constructor
    · rintro ⟨C, ⟨h1, h2⟩, rfl⟩
      have ht := ellipsoid_transpose cov C hcs kappa S hsw (by rw [ellipsoid_eq kappa R S _ hR hS]; exact h1)
      have hv : ∀ x, varianceUnder (fun i j => C j i) x = varianceUnder C x := by
        intro x
        unfold varianceUnder
        rw [Finset.sum_comm]
        exact Finset.sum_congr rfl fun i _ => Finset.sum_congr rfl fun j _ => by ring
      have hmid : ∀ x, varianceUnder ((1 / 2 : ℝ) • C + (1 / 2 : ℝ) • fun i j => C j i) x = varianceUnder C x := by
        intro x
        rw [variance_add, variance_smul, variance_smul, hv]
        ring
      refine ⟨(1 / 2 : ℝ) • C + (1 / 2 : ℝ) • fun i j => C j i, ⟨fun i j => ?_, ?_, fun x => by rw [hmid]; exact h2 x⟩, by rw [hmid]⟩
      · simp only [Pi.add_apply, Pi.smul_apply, smul_eq_mul]
        ring
      · rw [ellipsoid_eq kappa R S _ hR hS] at ht ⊢
        exact ball_convex kappa R cov h1 ht (by norm_num) (by norm_num) (by norm_num)
    · rintro ⟨C, ⟨-, h1, h2⟩, rfl⟩
      exact ⟨C, ⟨by rw [← ellipsoid_eq kappa R S _ hR hS]; exact h1, h2⟩, rfl⟩
  rw [e]

/-! ### Minimisation -/

/-- **C64.** Minimising the worst-case variance over any set of portfolios gives a portfolio with the smallest worst variance: its worst variance is the value of the problem, and every other portfolio of the set comes as close to
that value under some covariance of the uncertainty set as wanted, or exceeds it. -/
theorem C64_minimum (cov : Mat n) (hcov : ∀ x, x ≠ 0 → 0 < varianceUnder cov x) (kappa : ℝ) (hkappa : 0 ≤ kappa) (R : Matrix (Fin (n * n)) (Fin (n * n)) ℝ) (hR : R.transpose = R) (s : ℝ) (hs : 0 < s) (allowed : Set (Fin n → ℝ)) (w : Fin n → ℝ) (a : Mat n × Mat n)
    (ha : (worstCaseVarianceRisk cov kappa R w 1 s).feasible a)
    (hopt : ∀ w' a', w' ∈ allowed → (worstCaseVarianceRisk cov kappa R w' 1 s).feasible a' → (worstCaseVarianceRisk cov kappa R w 1 s).risk a ≤ (worstCaseVarianceRisk cov kappa R w' 1 s).risk a') (hw : w ∈ allowed) :
    IsLUB {y | ∃ C, PlausibleCov cov kappa R C ∧ y = varianceUnder C w} ((worstCaseVarianceRisk cov kappa R w 1 s).risk a) ∧
      ∀ w' ∈ allowed, ∀ ε, 0 < ε → ∃ C, PlausibleCov cov kappa R C ∧ (worstCaseVarianceRisk cov kappa R w 1 s).risk a - ε ≤ varianceUnder C w' := by
  have h1 := (C64_worst_case cov hcov kappa hkappa R hR w 1 s one_pos hs _).1 ⟨⟨a, ha, rfl⟩, fun a' ha' => hopt w a' hw ha'⟩
  simp only [div_one, one_mul] at h1
  refine ⟨h1, fun w' hw' ε hε => ?_⟩
  by_contra hcon
  push Not at hcon
  obtain ⟨a', ha', hle⟩ := dual_attained cov hcov kappa hkappa R hR w' 1 s one_pos hs ((worstCaseVarianceRisk cov kappa R w 1 s).risk a - ε) (by
    intro C hC
    simp only [div_one, one_mul]
    exact (hcon C hC).le)
  have := hopt w' a' hw' ha'
  linarith

/-! A concrete case: two uncorrelated assets with variance 1, all entries uncertain by 1/10, radius 2; all in the first asset. -/

noncomputable def tenth : Matrix (Fin (2 * 2)) (Fin (2 * 2)) ℝ := Matrix.diagonal fun _ => 1 / 10

example : IsOptimalValue (worstCaseVarianceRisk (unit 2) 2 tenth ![1, 0] 1 1) (12 / 10) := by
  have hpd : ∀ x : Fin 2 → ℝ, x ≠ 0 → 0 < varianceUnder (unit 2) x := by
    intro x hx
    rw [variance_unit]
    refine lt_of_le_of_ne (Finset.sum_nonneg fun _ _ => sq_nonneg _) fun h => hx ?_
    funext i
    have := (Finset.sum_eq_zero_iff_of_nonneg fun i _ => sq_nonneg (x i)).1 h.symm i (Finset.mem_univ i)
    simpa using this
  rw [C64_worst_case (unit 2) hpd 2 (by norm_num) tenth (by simp [tenth]) ![1, 0] 1 1 one_pos one_pos]
  have hv : ∀ C : Mat 2, (1 : ℝ) * varianceUnder C (fun i => ![(1 : ℝ), 0] i / 1) = C 0 0 := by
    intro C
    simp [varianceUnder, Fin.sum_univ_two]
  constructor
  · rintro _ ⟨C, ⟨⟨z, hz, hC⟩, -⟩, rfl⟩
    rw [hv]
    have h0 := hC ⟨0, by norm_num⟩
    have e1 : columns C ⟨0, by norm_num⟩ = C 0 0 := rfl
    have e2 : columns (unit 2) ⟨0, by norm_num⟩ = 1 := rfl
    rw [e1, e2] at h0
    have e3 : ∑ j, tenth ⟨0, by norm_num⟩ j * z j = 1 / 10 * z ⟨0, by norm_num⟩ := by
      unfold tenth
      simp only [Matrix.diagonal_apply, ite_mul, zero_mul, Finset.sum_ite_eq, Finset.mem_univ, if_true]
    rw [e3] at h0
    have h1 : z ⟨0, by norm_num⟩ ^ 2 ≤ 2 ^ 2 := (Finset.single_le_sum (f := fun i => z i ^ 2) (fun _ _ => sq_nonneg _) (Finset.mem_univ _)).trans hz
    have h2 := (abs_le_of_sq_le_sq' h1 (by norm_num)).2
    linarith
  · intro b hb
    have h := hb ⟨fun i j => if i = j then (if i = 0 then 12 / 10 else 1) else 0, ⟨⟨fun p => if p = ⟨0, by norm_num⟩ then 2 else 0, ?_, ?_⟩, ?_⟩, rfl⟩
    · rw [hv] at h
      simpa using h
    · simp
    · intro p
      fin_cases p <;> simp [columns, unit, tenth, Fin.divNat, Fin.modNat] <;> norm_num
    · intro x
      simp [varianceUnder, Fin.sum_univ_two]
      nlinarith [sq_nonneg (x 0), sq_nonneg (x 1)]

end

end Skfolio.Uncertainty
