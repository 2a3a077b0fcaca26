import Verif.Uncertainty.CovTheorems
import Verif.Uncertainty.ShapeSpec
import Mathlib.LinearAlgebra.Matrix.PosDef

/-!
**C65**: shapes of the uncertainty sets. **C66**: shapes of the bootstrapped sets.
-/
set_option autoImplicit false

namespace Skfolio.Uncertainty

section
variable {n : Nat} {F : Type} [Field F]

/-! ### Commutation matrix -/

theorem commutation_target (m n : Nat) (p : Fin (m * n)) : p.val / n + m * (p.val % n) < m * n := by
  have hn : 0 < n := by
    rcases Nat.eq_zero_or_pos n with h | h
    · exact absurd p.2 (by subst h; simp)
    · exact h
  have h1 : p.val / n < m := (Nat.div_lt_iff_lt_mul hn).2 p.2
  have h2 : p.val % n < n := Nat.mod_lt _ hn
  calc p.val / n + m * (p.val % n) < m + m * (p.val % n) := by omega
    _ = m * (p.val % n + 1) := by ring
    _ ≤ m * n := Nat.mul_le_mul_left _ h2

/-- **C65.** The commutation matrix turns the columns of any matrix of the given shape into the columns of the transposed matrix: the entry `(i, j)` of an `m × n` matrix is at position `i + m * j`, and in the transposed one at `j + n * i`. -/
theorem C65_commutation (m n : Nat) (x : Nat → Nat → F) (p : Fin (m * n)) : ∑ q : Fin (m * n), commutation (F := F) m n p q * x (q.val % m) (q.val / m) = x (p.val / n) (p.val % n) := by
  have ht := commutation_target m n p
  have hn : 0 < n := by
    rcases Nat.eq_zero_or_pos n with h | h
    · exact absurd p.2 (by subst h; simp)
    · exact h
  have hm : p.val / n < m := (Nat.div_lt_iff_lt_mul hn).2 p.2
  rw [Finset.sum_eq_single ⟨_, ht⟩]
  · have h1 : (p.val / n + m * (p.val % n)) % m = p.val / n := by
      rw [Nat.add_mul_mod_self_left, Nat.mod_eq_of_lt hm]
    have h2 : (p.val / n + m * (p.val % n)) / m = p.val % n := by
      rw [Nat.add_mul_div_left _ _ (by omega), Nat.div_eq_of_lt hm, zero_add]
    simp [commutation, h1, h2]
  · intro q _ hq
    unfold commutation
    rw [if_neg (fun h => hq (Fin.ext h)), zero_mul]
  · simp

/-! ### Shape of the covariance -/

theorem commutation_kron (sigma : Fin n → Fin n → F) (p q : Fin (n * n)) : ∑ r, commutation (F := F) n n p r * kron sigma r q = sigma p.modNat q.divNat * sigma p.divNat q.modNat := by
  have ht := commutation_target n n p
  have hn : 0 < n := by
    rcases Nat.eq_zero_or_pos n with h | h
    · exact absurd p.2 (by subst h; simp)
    · exact h
  have hm : p.val / n < n := (Nat.div_lt_iff_lt_mul hn).2 p.2
  rw [Finset.sum_eq_single ⟨_, ht⟩]
  · have h1 : (⟨p.val / n + n * (p.val % n), ht⟩ : Fin (n * n)).modNat = p.divNat := by
      apply Fin.ext
      change (p.val / n + n * (p.val % n)) % n = p.val / n
      rw [Nat.add_mul_mod_self_left, Nat.mod_eq_of_lt hm]
    have h2 : (⟨p.val / n + n * (p.val % n), ht⟩ : Fin (n * n)).divNat = p.modNat := by
      apply Fin.ext
      change (p.val / n + n * (p.val % n)) / n = p.val % n
      rw [Nat.add_mul_div_left _ _ hn, Nat.div_eq_of_lt hm, zero_add]
    unfold kron
    rw [h1, h2]
    simp [commutation]
  · intro q _ hq
    unfold commutation
    rw [if_neg (fun h => hq (Fin.ext h)), zero_mul]
  · simp

theorem covShape_eq (cov : Fin n → Fin n → F) (T : Nat) (diagonal : Bool) (p q : Fin (n * n)) :
    empiricalCovShape cov T diagonal p q = if p = q then (T : F) * (empiricalMuShape cov T diagonal p.divNat p.divNat * empiricalMuShape cov T diagonal p.modNat p.modNat + empiricalMuShape cov T diagonal p.modNat p.divNat * empiricalMuShape cov T diagonal p.divNat p.modNat) else 0 := by
  unfold empiricalCovShape onlyDiagonal
  dsimp only
  split_ifs
  · have e : ∀ r : Fin (n * n), (T : F) * ((if p = r then 1 else 0) + commutation n n p r) * kron (empiricalMuShape cov T diagonal) r p = (T : F) * ((if p = r then 1 else 0) * kron (empiricalMuShape cov T diagonal) r p + commutation n n p r * kron (empiricalMuShape cov T diagonal) r p) := fun r => by ring
    rw [Finset.sum_congr rfl fun r _ => e r, ← Finset.mul_sum, Finset.sum_add_distrib, commutation_kron]
    simp only [ite_mul, one_mul, zero_mul, Finset.sum_ite_eq, Finset.mem_univ, if_true]
    rfl
  · rfl

/-- **C65.** With `diagonal=False`, the shape of the covariance has the Wishart variances of the entries on its diagonal, times `(T - 1) / T`; all other entries are zero. -/
theorem C65_covariance_shape (cov : Fin n → Fin n → F) (T : Nat) (hT : (T : F) ≠ 0) (hT1 : (T : F) - 1 ≠ 0) (p q : Fin (n * n)) :
    empiricalCovShape cov T false p q = if p = q then ((T : F) - 1) / (T : F) * wishart cov T p.modNat p.divNat p.modNat p.divNat else 0 := by
  rw [covShape_eq]
  split_ifs
  · unfold empiricalMuShape wishart
    simp only [Bool.false_eq_true, if_false]
    field_simp
  · rfl

/-- **C65.** With `diagonal=True`, the shape has the Wishart variances that belong to uncorrelated assets with the same variances, times `(T - 1) / T`. -/
theorem C65_covariance_shape_diagonal (cov : Fin n → Fin n → F) (T : Nat) (hT : (T : F) ≠ 0) (hT1 : (T : F) - 1 ≠ 0) (p q : Fin (n * n)) :
    empiricalCovShape cov T true p q = if p = q then ((T : F) - 1) / (T : F) * wishart (fun i j => if i = j then cov i i else 0) T p.modNat p.divNat p.modNat p.divNat else 0 := by
  rw [covShape_eq]
  split_ifs
  · unfold empiricalMuShape wishart onlyDiagonal
    simp only [if_true]
    by_cases h : p.modNat = p.divNat
    · simp only [h, if_true]
      field_simp
    · rw [if_neg h, if_neg (Ne.symm h), if_neg h, if_neg (Ne.symm h)]
      field_simp
      ring
  · rfl

end

section
variable {n : Nat}

/-- **C65.** The shape of the expected returns is the covariance of the mean of `T` observations: it is symmetric and positive definite if the covariance is; with `diagonal=True` only the variances are kept. -/
theorem C65_mu_shape (cov : Fin n → Fin n → ℝ) (T : Nat) (hT : 0 < T) (diagonal : Bool) (hs : ∀ i j, cov i j = cov j i) (hpd : ∀ x, x ≠ 0 → 0 < varianceUnder cov x) :
    (∀ i j, (T : ℝ) * empiricalMuShape cov T diagonal i j = if diagonal = true ∧ i ≠ j then 0 else cov i j) ∧ (∀ i j, empiricalMuShape cov T diagonal i j = empiricalMuShape cov T diagonal j i) ∧
      (∀ x, x ≠ 0 → 0 < varianceUnder (empiricalMuShape cov T diagonal) x) ∧ IsUnit (Matrix.of (empiricalMuShape cov T diagonal)).det := by
  have hT' : (0 : ℝ) < T := by exact_mod_cast hT
  have h1 : ∀ i j, empiricalMuShape cov T diagonal i j = if diagonal = true ∧ i ≠ j then 0 else cov i j / T := by
    intro i j
    unfold empiricalMuShape onlyDiagonal
    cases diagonal
    · simp
    · by_cases h : i = j
      · subst h
        simp
      · simp [h]
  have hsymm : ∀ i j, empiricalMuShape cov T diagonal i j = empiricalMuShape cov T diagonal j i := by
    intro i j
    rw [h1, h1, hs i j]
    simp only [ne_comm]
  have hii : ∀ i, 0 < cov i i := by
    intro i
    have := hpd (Pi.single i 1) (by intro h; have := congrFun h i; simp at this)
    have e : varianceUnder cov (Pi.single i 1) = cov i i := by
      unfold varianceUnder
      rw [Finset.sum_eq_single i (fun a _ ha => Finset.sum_eq_zero fun b _ => by simp [ha]) (by simp), Finset.sum_eq_single i (fun b _ hb => by simp [hb]) (by simp)]
      simp
    rwa [e] at this
  have hdef : ∀ x, x ≠ 0 → 0 < varianceUnder (empiricalMuShape cov T diagonal) x := by
    intro x hx
    cases diagonal
    · have e : varianceUnder (empiricalMuShape cov T false) x = varianceUnder cov x / T := by
        unfold varianceUnder
        rw [Finset.sum_div]
        refine Finset.sum_congr rfl fun i _ => ?_
        rw [Finset.sum_div]
        refine Finset.sum_congr rfl fun j _ => ?_
        rw [h1]
        simp
        ring
      rw [e]
      exact div_pos (hpd x hx) hT'
    · have e : varianceUnder (empiricalMuShape cov T true) x = ∑ i, x i ^ 2 * (cov i i / T) := by
        unfold varianceUnder
        refine Finset.sum_congr rfl fun i _ => ?_
        rw [Finset.sum_eq_single i (fun j _ hj => by rw [h1]; simp [Ne.symm hj]) (by simp), h1]
        simp
        ring
      rw [e]
      obtain ⟨i, hi⟩ := Function.ne_iff.1 hx
      refine Finset.sum_pos' (fun j _ => mul_nonneg (sq_nonneg _) (div_pos (hii j) hT').le) ⟨i, Finset.mem_univ _, mul_pos ?_ (div_pos (hii i) hT')⟩
      exact lt_of_le_of_ne (sq_nonneg _) (Ne.symm (pow_ne_zero 2 hi))
  refine ⟨fun i j => ?_, hsymm, hdef, ?_⟩
  · rw [h1]
    split_ifs
    · simp
    · field_simp
  · have : (Matrix.of (empiricalMuShape cov T diagonal)).PosDef := by
      refine Matrix.PosDef.of_dotProduct_mulVec_pos ?_ fun x hx => ?_
      · ext i j
        simp [Matrix.conjTranspose_apply, hsymm j i]
      · have := hdef x hx
        unfold varianceUnder at this
        simp only [star_trivial, dotProduct, Matrix.mulVec, Matrix.of_apply]
        refine lt_of_lt_of_eq this ?_
        refine Finset.sum_congr rfl fun i _ => ?_
        rw [Finset.mul_sum]
        exact Finset.sum_congr rfl fun j _ => by ring
    exact this.det_pos.ne'.isUnit

/-- **C65.** The shape of the covariance meets the hypotheses of `C64_documented`, with the root that has the square roots on its diagonal: so with `EmpiricalCovarianceUncertaintySet` the risk is the worst variance over the documented set. -/
theorem C65_covariance_set (cov : Mat n) (T : Nat) (hT : 0 < T) (diagonal : Bool) (hs : ∀ i j, cov i j = cov j i) (hpd : ∀ x, x ≠ 0 → 0 < varianceUnder cov x) (kappa : ℝ) (hkappa : 0 ≤ kappa) (w : Fin n → ℝ) (k s : ℝ) (hk : 0 < k) (hs0 : 0 < s) (v : ℝ) :
    IsRoot (Matrix.diagonal fun p => Real.sqrt (empiricalCovShape cov T diagonal p p)) (Matrix.of (empiricalCovShape cov T diagonal)) ∧
      (Skfolio.Convex.IsOptimalValue (worstCaseVarianceRisk cov kappa (Matrix.diagonal fun p => Real.sqrt (empiricalCovShape cov T diagonal p p)) w k s) v ↔
        IsLUB {y | ∃ C, DocumentedCov cov kappa (Matrix.of (empiricalCovShape cov T diagonal)) C ∧ y = k * varianceUnder C fun i => w i / k} v) := by
  obtain ⟨-, hsymm, hdef, -⟩ := C65_mu_shape cov T hT diagonal hs hpd
  have hT' : (0 : ℝ) < T := by exact_mod_cast hT
  have hii : ∀ i, 0 < empiricalMuShape cov T diagonal i i := by
    intro i
    have := hdef (Pi.single i 1) (by intro h; have := congrFun h i; simp at this)
    have e : varianceUnder (empiricalMuShape cov T diagonal) (Pi.single i 1) = empiricalMuShape cov T diagonal i i := by
      unfold varianceUnder
      rw [Finset.sum_eq_single i (fun a _ ha => Finset.sum_eq_zero fun b _ => by simp [ha]) (by simp), Finset.sum_eq_single i (fun b _ hb => by simp [hb]) (by simp)]
      simp
    rwa [e] at this
  have hpos : ∀ p, 0 < empiricalCovShape cov T diagonal p p := by
    intro p
    rw [covShape_eq, if_pos rfl]
    refine mul_pos hT' (add_pos_of_pos_of_nonneg (mul_pos (hii _) (hii _)) ?_)
    rw [hsymm p.modNat p.divNat]
    exact mul_self_nonneg _
  have hdiag : Matrix.of (empiricalCovShape cov T diagonal) = Matrix.diagonal fun p => empiricalCovShape cov T diagonal p p := by
    ext p q
    rw [Matrix.of_apply, Matrix.diagonal_apply]
    split_ifs with h
    · subst h
      rfl
    · rw [covShape_eq, if_neg h]
  have hroot : IsRoot (Matrix.diagonal fun p => Real.sqrt (empiricalCovShape cov T diagonal p p)) (Matrix.of (empiricalCovShape cov T diagonal)) := by
    constructor
    · exact Matrix.diagonal_transpose _
    · rw [Matrix.diagonal_mul_diagonal, hdiag]
      congr 1
      funext p
      exact Real.mul_self_sqrt (hpos p).le
  refine ⟨hroot, ?_⟩
  refine C64_documented cov hs hpd kappa hkappa _ _ hroot ?_ (fun p q => ?_) w k s hk hs0 v
  · rw [hdiag, Matrix.det_diagonal]
    exact (Finset.prod_pos fun p _ => hpos p).ne'.isUnit
  · rw [Matrix.of_apply, Matrix.of_apply, covShape_eq, covShape_eq]
    have hinj : swap p = swap q ↔ p = q := ⟨fun h => by rw [← swap_swap p, h, swap_swap], fun h => by rw [h]⟩
    have h := finProdFinEquiv.symm_apply_apply (p.modNat, p.divNat)
    have h1 : (swap p).divNat = p.modNat := congrArg Prod.fst h
    have h2 : (swap p).modNat = p.divNat := congrArg Prod.snd h
    rw [h1, h2]
    by_cases hpq : p = q
    · rw [if_pos (hinj.2 hpq), if_pos hpq]
      ring
    · rw [if_neg (fun h => hpq (hinj.1 h)), if_neg hpq]

end

/-! ### Bootstrap -/

section
variable {n B : Nat}

theorem npCov_shift {ι : Type} (x : Fin B → ι → ℝ) (c : ι → ℝ) (hB : 0 < B) : (npCov fun b i => x b i - c i) = npCov x := by
  have hB' : (B : ℝ) ≠ 0 := by exact_mod_cast hB.ne'
  funext p q
  unfold npCov
  congr 1
  refine Finset.sum_congr rfl fun b _ => ?_
  have e : ∀ i : ι, x b i - c i - (∑ a, (x a i - c i)) / (B : ℝ) = x b i - (∑ a, x a i) / (B : ℝ) := by
    intro i
    simp only [Finset.sum_sub_distrib, Finset.sum_const, Finset.card_univ, Fintype.card_fin, nsmul_eq_mul]
    field_simp
    ring
  rw [e p, e q]

/-- **C66.** The shapes do not depend on the point around which they are taken. -/
theorem C66_centre (hB : 0 < B) (diagonal : Bool) :
    (∀ (mus : Fin B → Fin n → ℝ) (mu mu' : Fin n → ℝ), bootstrapMuShape mus mu diagonal = bootstrapMuShape mus mu' diagonal) ∧ ∀ (covs : Fin B → Mat n) (cov cov' : Mat n), bootstrapCovShape covs cov diagonal = bootstrapCovShape covs cov' diagonal := by
  constructor
  · intro mus mu mu'
    unfold bootstrapMuShape
    rw [npCov_shift mus mu hB, npCov_shift mus mu' hB]
  · intro covs cov cov'
    have e : ∀ c : Mat n, (npCov fun b => vecF fun i j => covs b i j - c i j) = npCov fun b => vecF (covs b) := fun c => npCov_shift (fun b => vecF (covs b)) (vecF c) hB
    unfold bootstrapCovShape
    rw [e, e]

theorem npCov_symmetric {ι : Type} (x : Fin B → ι → ℝ) (p q : ι) : npCov x p q = npCov x q p := by
  unfold npCov
  congr 1
  exact Finset.sum_congr rfl fun b _ => mul_comm _ _

theorem npCov_nonneg {ι : Type} [Fintype ι] (x : Fin B → ι → ℝ) (hB : 1 ≤ B) (z : ι → ℝ) : 0 ≤ ∑ p, ∑ q, z p * npCov x p q * z q := by
  obtain ⟨d, hd⟩ : ∃ d : Fin B → ι → ℝ, ∀ b p, d b p = x b p - (∑ c, x c p) / (B : ℝ) := ⟨_, fun _ _ => rfl⟩
  have e : ∑ p, ∑ q, z p * npCov x p q * z q = (∑ b, (∑ p, z p * d b p) ^ 2) / ((B : ℝ) - 1) := by
    unfold npCov
    simp only [← hd]
    have h1 : ∀ b, (∑ p, z p * d b p) ^ 2 = ∑ p, ∑ q, z p * (d b p * d b q) * z q := by
      intro b
      rw [sq, Finset.sum_mul_sum]
      refine Finset.sum_congr rfl fun p _ => Finset.sum_congr rfl fun q _ => ?_
      ring
    simp only [h1]
    conv_rhs => rw [Finset.sum_comm, Finset.sum_div]
    refine Finset.sum_congr rfl fun p _ => ?_
    conv_rhs => rw [Finset.sum_comm, Finset.sum_div]
    refine Finset.sum_congr rfl fun q _ => ?_
    rw [← Finset.sum_mul, ← Finset.mul_sum]
    ring
  rw [e]
  refine div_nonneg (Finset.sum_nonneg fun _ _ => sq_nonneg _) ?_
  have : (1 : ℝ) ≤ B := by exact_mod_cast hB
  linarith

theorem npCov_diagonal {ι : Type} [Fintype ι] [DecidableEq ι] (x : Fin B → ι → ℝ) (hB : 1 ≤ B) (z : ι → ℝ) : 0 ≤ ∑ p, ∑ q, z p * onlyDiagonal (npCov x) p q * z q := by
  refine Finset.sum_nonneg fun p _ => ?_
  rw [Finset.sum_eq_single p (fun q _ hq => by simp [onlyDiagonal, Ne.symm hq]) (by simp)]
  have h : 0 ≤ npCov x p p := by
    unfold npCov
    refine div_nonneg (Finset.sum_nonneg fun _ _ => mul_self_nonneg _) ?_
    have : (1 : ℝ) ≤ B := by exact_mod_cast hB
    linarith
  simp only [onlyDiagonal, if_true]
  have := mul_nonneg h (mul_self_nonneg (z p))
  nlinarith

theorem npCov_either {ι : Type} [Fintype ι] [DecidableEq ι] (x : Fin B → ι → ℝ) (hB : 1 ≤ B) (diagonal : Bool) (S : ι → ι → ℝ) (hS : S = if diagonal then onlyDiagonal (npCov x) else npCov x) : (∀ p q, S p q = S q p) ∧ ∀ z : ι → ℝ, 0 ≤ ∑ p, ∑ q, z p * S p q * z q := by
  subst hS
  cases diagonal
  · exact ⟨npCov_symmetric x, npCov_nonneg x hB⟩
  · refine ⟨fun p q => ?_, npCov_diagonal x hB⟩
    simp only [if_true, onlyDiagonal]
    by_cases h : p = q
    · subst h
      rfl
    · rw [if_neg h, if_neg (Ne.symm h)]

/-- **C66.** The shapes are symmetric with a nonnegative quadratic form. -/
theorem C66_shapes (hB : 1 ≤ B) (diagonal : Bool) :
    (∀ (mus : Fin B → Fin n → ℝ) (mu : Fin n → ℝ), (∀ i j, bootstrapMuShape mus mu diagonal i j = bootstrapMuShape mus mu diagonal j i) ∧ ∀ z : Fin n → ℝ, 0 ≤ ∑ i, ∑ j, z i * bootstrapMuShape mus mu diagonal i j * z j) ∧
      ∀ (covs : Fin B → Mat n) (cov : Mat n), (∀ p q, bootstrapCovShape covs cov diagonal p q = bootstrapCovShape covs cov diagonal q p) ∧ ∀ z : Fin (n * n) → ℝ, 0 ≤ ∑ p, ∑ q, z p * bootstrapCovShape covs cov diagonal p q * z q :=
  ⟨fun _ _ => npCov_either _ hB diagonal _ rfl, fun _ _ => npCov_either _ hB diagonal _ rfl⟩

/-- **C66.** The shape of the covariance treats an entry as its transposed one, as `C64_documented` asks. -/
theorem C66_transposed (covs : Fin B → Mat n) (hc : ∀ b i j, covs b i j = covs b j i) (covariance : Mat n) (hcov : ∀ i j, covariance i j = covariance j i) (diagonal : Bool) (p q : Fin (n * n)) :
    bootstrapCovShape covs covariance diagonal (swap p) (swap q) = bootstrapCovShape covs covariance diagonal p q := by
  have hv : ∀ b p, vecF (fun i j => covs b i j - covariance i j) (swap p) = vecF (fun i j => covs b i j - covariance i j) p := by
    intro b p
    have := columns_transpose (fun i j => covs b i j - covariance i j) p
    change columns (fun i j => covs b i j - covariance i j) (swap p) = columns (fun i j => covs b i j - covariance i j) p
    rw [← this]
    congr 1
    funext i j
    rw [hc b j i, hcov j i]
  have h1 : ∀ p q, npCov (fun b => vecF fun i j => covs b i j - covariance i j) (swap p) (swap q) = npCov (fun b => vecF fun i j => covs b i j - covariance i j) p q := by
    intro p q
    unfold npCov
    simp only [hv]
  have hinj : swap p = swap q ↔ p = q := ⟨fun h => by rw [← swap_swap p, h, swap_swap], fun h => by rw [h]⟩
  unfold bootstrapCovShape
  cases diagonal
  · exact h1 p q
  · simp only [if_true, onlyDiagonal]
    by_cases h : p = q
    · rw [if_pos (hinj.2 h), if_pos h, h1]
    · rw [if_neg fun g => h (hinj.1 g), if_neg h]

/-- **C66.** With `diagonal=False` and at least two assets the shape of the bootstrapped covariance is singular: the documented inverse does not exist, and the set is the one of `C64_worst_case`. -/
theorem C66_singular (covs : Fin B → Mat n) (hc : ∀ b i j, covs b i j = covs b j i) (covariance : Mat n) (hcov : ∀ i j, covariance i j = covariance j i) (hn : 2 ≤ n) : (Matrix.of (bootstrapCovShape covs covariance false)).det = 0 := by
  have hv : ∀ b p, vecF (fun i j => covs b i j - covariance i j) (swap p) = vecF (fun i j => covs b i j - covariance i j) p := by
    intro b p
    have := columns_transpose (fun i j => covs b i j - covariance i j) p
    change columns (fun i j => covs b i j - covariance i j) (swap p) = columns (fun i j => covs b i j - covariance i j) p
    rw [← this]
    congr 1
    funext i j
    rw [hc b j i, hcov j i]
  obtain ⟨p, hp⟩ : ∃ p : Fin (n * n), p = finProdFinEquiv (⟨0, by omega⟩, ⟨1, by omega⟩) := ⟨_, rfl⟩
  refine Matrix.det_zero_of_row_eq (i := swap p) (j := p) ?_ ?_
  · intro h
    have h1 := finProdFinEquiv.symm_apply_apply (p.modNat, p.divNat)
    have h2 : (swap p).divNat = p.modNat := congrArg Prod.fst h1
    have h3 := finProdFinEquiv.symm_apply_apply ((⟨0, by omega⟩ : Fin n), (⟨1, by omega⟩ : Fin n))
    rw [← hp] at h3
    have h4 : p.divNat = (⟨0, by omega⟩ : Fin n) := congrArg Prod.fst h3
    have h5 : p.modNat = (⟨1, by omega⟩ : Fin n) := congrArg Prod.snd h3
    rw [h, h4, h5] at h2
    exact absurd (congrArg Fin.val h2) (by simp)
  · funext q
    simp only [Matrix.of_apply, bootstrapCovShape, Bool.false_eq_true, if_false, npCov, hv]

end

/-! Concrete cases. -/

example : empiricalCovShape (fun i j : Fin 2 => if i = j then (4 : ℚ) else 2) 8 false = fun p q => if p = q then (if p = 0 ∨ p = 3 then 4 else 20 / 8) else 0 := by decide +kernel

example : bootstrapMuShape (n := 2) (B := 3) (fun b i => if i = 0 then (b.val : ℚ) else 2 * b.val) (fun _ => 7) false = fun i j => (if i = 0 then 1 else 2) * (if j = 0 then 1 else 2) := by decide +kernel

end Skfolio.Uncertainty
