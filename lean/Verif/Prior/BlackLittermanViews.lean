import Verif.Prior.BlackLittermanTheorems
import Mathlib.Logic.Equiv.Basic

/-!
C134. How the posterior of Black-Litterman, `posterior` in `BlackLittermanModel.lean`, depends on the way the views are written and on their number.
-/
set_option autoImplicit false

namespace Skfolio.Prior

open Matrix

section
variable {K : Type} [Field K] [LinearOrder K] {n m m' : Nat}

/-- The same views with each equation multiplied by a number: "2 * A == 0.04" in place of "A == 0.02", "B - A == -0.01" in place of "A - B == 0.01". -/
def rescaled (s : Fin m → K) (b : BL K n m) : BL K n m :=
  { b with picking := of fun i j => s i * b.picking i j, views := fun i => s i * b.views i }

/-- The views of `b` numbered by `f` : some of them, or all of them in another order, each with its confidence. -/
def chosen (f : Fin m → Fin m') (b : BL K n m') : BL K n m :=
  { mu := b.mu, covariance := b.covariance, picking := of fun i j => b.picking (f i) j, views := fun i => b.views (f i), tau := b.tau, riskFreeRate := b.riskFreeRate,
    confidences := b.confidences.map fun c i => c (f i) }

/-- The assets in another order. -/
def permuted (e : Fin n ≃ Fin n) (b : BL K n m) : BL K n m :=
  { b with mu := fun i => b.mu (e i), covariance := of fun i j => b.covariance (e i) (e j), picking := of fun i j => b.picking i (e j) }

/-- `fit` succeeds when the confidences are accepted and the system is regular, and what it returns then. -/
theorem posterior_ok {b : BL K n m} {om : Matrix (Fin m) (Fin m) K} (ho : omega b = .ok om) (hd : (aMat b om).det ≠ 0) :
    posterior b = .ok (fun i => b.mu i + (vMat b * ((aMat b om)⁻¹ * bVec b)) i () + b.riskFreeRate, b.covariance + b.tau • b.covariance - vMat b * ((aMat b om)⁻¹ * (vMat b)ᵀ)) := by
  unfold posterior
  rw [ho]
  simp only [solve, hd, if_false, bind, Except.bind, pure, Except.pure]

theorem posterior_singular {b : BL K n m} {om : Matrix (Fin m) (Fin m) K} (ho : omega b = .ok om) (hd : (aMat b om).det = 0) : posterior b = .error .singular := by
  unfold posterior
  rw [ho]
  simp only [solve, hd, if_true, bind, Except.bind]

theorem posterior_error {b : BL K n m} {e : BLErr} (ho : omega b = .error e) : posterior b = .error e := by
  unfold posterior
  rw [ho]
  rfl

/-- A regular linear change of the views that carries the view uncertainty along does not change the posterior. -/
theorem posterior_change (b b' : BL K n m) (t u : Matrix (Fin m) (Fin m) K) (htu : u * t = 1)
    (hmu : b'.mu = b.mu) (hcov : b'.covariance = b.covariance) (htau : b'.tau = b.tau) (hrf : b'.riskFreeRate = b.riskFreeRate)
    (hp : b'.picking = t * b.picking) (hq : b'.views = t *ᵥ b.views)
    (ho : omega b' = (omega b).map fun om => t * om * tᵀ) : posterior b' = posterior b := by
  have htu' : t * u = 1 := mul_eq_one_comm.1 htu
  cases h : omega b with
  | error e =>
    rw [h] at ho
    rw [posterior_error h, posterior_error ho]
  | ok om =>
    rw [h] at ho
    have ho' : omega b' = .ok (t * om * tᵀ) := ho
    have hv : vMat b' = vMat b * tᵀ := by
      rw [vMat, vMat, htau, hcov, hp, Matrix.transpose_mul, Matrix.mul_assoc]
    have ha : aMat b' (t * om * tᵀ) = t * aMat b om * tᵀ := by
      rw [aMat, aMat, hv, hp, Matrix.mul_add, Matrix.add_mul]
      simp only [Matrix.mul_assoc]
    have hb : bVec b' = t * bVec b := by
      have : b'.views - b'.picking *ᵥ b'.mu = t *ᵥ (b.views - b.picking *ᵥ b.mu) := by
        rw [hq, hp, hmu, mulVec_sub, Matrix.mulVec_mulVec]
      funext i j
      exact congrFun this i
    have hdt : t.det ≠ 0 := by
      intro h0
      have := congrArg Matrix.det htu
      rw [Matrix.det_mul, h0, mul_zero, Matrix.det_one] at this
      exact zero_ne_one this
    have hdet : (aMat b' (t * om * tᵀ)).det = 0 ↔ (aMat b om).det = 0 := by
      rw [ha, Matrix.det_mul, Matrix.det_mul, Matrix.det_transpose]
      constructor
      · intro h
        rcases mul_eq_zero.1 h with h | h
        · exact (mul_eq_zero.1 h).resolve_left hdt
        · exact absurd h hdt
      · intro h
        rw [h, mul_zero, zero_mul]
    by_cases hd : (aMat b om).det = 0
    · rw [posterior_singular h hd, posterior_singular ho' (hdet.2 hd)]
    · rw [posterior_ok h hd, posterior_ok ho' (fun h => hd (hdet.1 h))]
      obtain ⟨-, e2⟩ := a_inv hd
      have htuT : tᵀ * uᵀ = 1 := by rw [← Matrix.transpose_mul, htu, Matrix.transpose_one]
      have hinv : (aMat b' (t * om * tᵀ))⁻¹ = uᵀ * (aMat b om)⁻¹ * u := by
        apply Matrix.inv_eq_left_inv
        rw [ha]
        calc uᵀ * (aMat b om)⁻¹ * u * (t * aMat b om * tᵀ) = uᵀ * ((aMat b om)⁻¹ * (u * t) * aMat b om) * tᵀ := by simp only [Matrix.mul_assoc]
          _ = 1 := by rw [htu, Matrix.mul_one, e2, Matrix.mul_one, ← Matrix.transpose_mul, htu', Matrix.transpose_one]
      have k1 : vMat b' * ((aMat b' (t * om * tᵀ))⁻¹ * bVec b') = vMat b * ((aMat b om)⁻¹ * bVec b) := by
        rw [hinv, hv, hb]
        calc vMat b * tᵀ * (uᵀ * (aMat b om)⁻¹ * u * (t * bVec b)) = vMat b * (tᵀ * uᵀ) * ((aMat b om)⁻¹ * ((u * t) * bVec b)) := by simp only [Matrix.mul_assoc]
          _ = _ := by rw [htu, htuT, Matrix.mul_one, Matrix.one_mul]
      have k2 : vMat b' * ((aMat b' (t * om * tᵀ))⁻¹ * (vMat b')ᵀ) = vMat b * ((aMat b om)⁻¹ * (vMat b)ᵀ) := by
        rw [hinv, hv, Matrix.transpose_mul, Matrix.transpose_transpose]
        calc vMat b * tᵀ * (uᵀ * (aMat b om)⁻¹ * u * (t * (vMat b)ᵀ)) = vMat b * (tᵀ * uᵀ) * ((aMat b om)⁻¹ * ((u * t) * (vMat b)ᵀ)) := by simp only [Matrix.mul_assoc]
          _ = _ := by rw [htu, htuT, Matrix.mul_one, Matrix.one_mul]
      rw [k1, k2, hmu, hcov, htau, hrf]

variable [IsStrictOrderedRing K]

/-- The view uncertainty as a function of the inputs. -/
theorem omega_cases (b : BL K n m) : omega b =
    if (∃ c, b.confidences = some c ∧ ∃ i, c i < 0 ∨ 1 < c i) then .error .confidences
    else .ok (diagonal (viewUncertainty b.covariance b.picking b.tau (degree b.confidences))) := by
  split_ifs with h
  · obtain ⟨c, hc, i, hi⟩ := h
    unfold omega
    rw [hc]
    exact if_pos (hi.imp (fun h => ⟨i, h⟩) (fun h => ⟨i, h⟩))
  · cases ho : omega b with
    | error e =>
      exfalso
      apply h
      unfold omega at ho
      cases hc : b.confidences with
      | none => rw [hc] at ho; cases ho
      | some c =>
        rw [hc] at ho
        simp only at ho
        refine ⟨c, rfl, ?_⟩
        by_contra hn
        push Not at hn
        rw [if_neg (by push Not; exact ⟨fun i => (hn i).1, fun i => (hn i).2⟩)] at ho
        cases ho
    | ok om => rw [(omega_eq ho).1]

/-- **C134.** Multiplying both sides of a view by a number other than zero changes nothing, with or without confidences: `fit` fails in the same cases and returns the same posterior. -/
theorem C134_scale_of_views (b : BL K n m) (s : Fin m → K) (hs : ∀ i, s i ≠ 0) : posterior (rescaled s b) = posterior b := by
  refine posterior_change b (rescaled s b) (diagonal s) (diagonal fun i => (s i)⁻¹) ?_ rfl rfl rfl rfl ?_ ?_ ?_
  · rw [Matrix.diagonal_mul_diagonal, ← Matrix.diagonal_one]
    congr 1
    funext i
    exact inv_mul_cancel₀ (hs i)
  · funext i j
    rw [Matrix.diagonal_mul]
    rfl
  · funext i
    rw [Matrix.mulVec_diagonal]
    rfl
  · rw [omega_cases, omega_cases]
    change (if (∃ c, b.confidences = some c ∧ ∃ i, c i < 0 ∨ 1 < c i) then _ else _) = _
    split_ifs
    · rfl
    · change Except.ok _ = Except.ok _
      congr 1
      beta_reduce
      rw [Matrix.diagonal_transpose, Matrix.diagonal_mul_diagonal, Matrix.diagonal_mul_diagonal]
      congr 1
      funext i
      have : viewVariance (rescaled s b).covariance (rescaled s b).picking i = s i * s i * viewVariance b.covariance b.picking i := by
        have : (rescaled s b).picking i = s i • b.picking i := rfl
        unfold viewVariance
        rw [this, mulVec_smul, dotProduct_smul, smul_dotProduct, smul_eq_mul, smul_eq_mul]
        change s i * (s i * (b.picking i ⬝ᵥ b.covariance *ᵥ b.picking i)) = _
        ring
      rw [viewUncertainty, viewUncertainty, this]
      change b.tau * (1 / degree b.confidences i - 1) * _ = _
      ring

omit [IsStrictOrderedRing K] in
theorem degree_chosen (c : Option (Fin m' → K)) (f : Fin m → Fin m') (i : Fin m) : degree (c.map fun c i => c (f i)) i = degree c (f i) := by
  cases c <;> rfl

/-- **C134.** The order of the views does not matter (each keeping its confidence). -/
theorem C134_order_of_views (b : BL K n m) (e : Fin m ≃ Fin m) : posterior (chosen e b) = posterior b := by
  have ht : ∀ i k, (1 : Matrix (Fin m) (Fin m) K).submatrix e id i k = if e i = k then 1 else 0 := fun i k => by
    rw [Matrix.submatrix_apply, Matrix.one_apply]
    rfl
  refine posterior_change b (chosen e b) ((1 : Matrix (Fin m) (Fin m) K).submatrix e id) ((1 : Matrix (Fin m) (Fin m) K).submatrix id e) ?_ rfl rfl rfl rfl ?_ ?_ ?_
  · rw [Matrix.submatrix_mul_equiv, Matrix.mul_one, Matrix.submatrix_id_id]
  · funext i j
    rw [Matrix.mul_apply]
    simp only [ht, ite_mul, one_mul, zero_mul, Finset.sum_ite_eq, Finset.mem_univ, if_true]
    rfl
  · funext i
    rw [Matrix.mulVec, dotProduct]
    simp only [ht, ite_mul, one_mul, zero_mul, Finset.sum_ite_eq, Finset.mem_univ, if_true]
    rfl
  · rw [omega_cases, omega_cases]
    have hiff : (∃ c, (chosen e b).confidences = some c ∧ ∃ i, c i < 0 ∨ 1 < c i) ↔ ∃ c, b.confidences = some c ∧ ∃ i, c i < 0 ∨ 1 < c i := by
      cases hc : b.confidences with
      | none => simp [chosen, hc]
      | some c =>
        simp only [chosen, hc, Option.map_some, Option.some.injEq, exists_eq_left']
        exact ⟨fun ⟨i, h⟩ => ⟨e i, h⟩, fun ⟨i, h⟩ => ⟨e.symm i, by rwa [Equiv.apply_symm_apply]⟩⟩
    by_cases h : ∃ c, b.confidences = some c ∧ ∃ i, c i < 0 ∨ 1 < c i
    · rw [if_pos h, if_pos (hiff.2 h)]
      rfl
    · rw [if_neg h, if_neg (fun k => h (hiff.1 k))]
      change Except.ok _ = Except.ok _
      congr 1
      funext i j
      beta_reduce
      rw [Matrix.transpose_submatrix, Matrix.transpose_one, Matrix.mul_apply]
      simp only [Matrix.mul_apply, ht, Matrix.submatrix_apply, Matrix.one_apply, id, ite_mul, mul_ite, one_mul, mul_one, zero_mul, mul_zero, Finset.sum_ite_eq, Finset.sum_ite_eq', Finset.mem_univ, if_true]
      rw [Matrix.diagonal_apply, Matrix.diagonal_apply]
      by_cases hij : i = j
      · rw [if_pos hij, if_pos (congrArg e hij)]
        change b.tau * (1 / degree (b.confidences.map fun c i => c (e i)) i - 1) * viewVariance b.covariance b.picking (e i) = _
        rw [degree_chosen]
        rfl
      · rw [if_neg hij, if_neg (fun h => hij (e.injective h))]

/-- **C134.** Views that the prior already holds leave the expected returns as they are, whatever the confidence (the risk-free rate is added as always). -/
theorem C134_agreeing_views (b : BL K n m) (hq : ∀ i, b.views i = b.picking i ⬝ᵥ b.mu) (r : (Fin n → K) × Matrix (Fin n) (Fin n) K) (h : posterior b = .ok r) :
    ∀ i, r.1 i = b.mu i + b.riskFreeRate := by
  obtain ⟨om, ho, hd, h1, h2⟩ := posterior_eq h
  have : b.views - b.picking *ᵥ b.mu = 0 := by
    funext i
    exact sub_eq_zero.2 (hq i)
  intro i
  rw [h1, this, mulVec_zero, mulVec_zero]
  simp

/-- **C134.** The posterior covariance does not depend on what the views say, and the posterior expected returns depend on it linearly: views between two others give expected returns in between, in the same
proportion. -/
theorem C134_linear_in_views (b : BL K n m) (q q' : Fin m → K) (t : K) (r r' : (Fin n → K) × Matrix (Fin n) (Fin n) K)
    (h : posterior { b with views := q } = .ok r) (h' : posterior { b with views := q' } = .ok r') :
    posterior { b with views := fun i => (1 - t) * q i + t * q' i } = .ok (fun i => (1 - t) * r.1 i + t * r'.1 i, r.2) ∧ r'.2 = r.2 := by
  obtain ⟨om, ho, hd, h1, h2⟩ := posterior_eq h
  obtain ⟨om', ho', hd', h1', h2'⟩ := posterior_eq h'
  have e : om' = om := by
    have : omega { b with views := q' } = omega { b with views := q } := rfl
    rw [this, ho] at ho'
    cases ho'
    rfl
  subst e
  refine ⟨?_, by rw [h2, h2']; rfl⟩
  have ho3 : omega { b with views := fun i => (1 - t) * q i + t * q' i } = .ok om' := ho
  obtain ⟨r3, hr3⟩ : ∃ r3, posterior { b with views := fun i => (1 - t) * q i + t * q' i } = .ok r3 := ⟨_, posterior_ok ho3 hd⟩
  obtain ⟨om3, ho3', hd3, h13, h23⟩ := posterior_eq hr3
  rw [ho3] at ho3'
  cases ho3'
  rw [hr3]
  congr 1
  refine Prod.ext ?_ (by rw [h23, h2]; rfl)
  rw [h13, h1, h1']
  change (fun i => b.mu i + (vMat b *ᵥ ((aMat b om')⁻¹ *ᵥ ((fun i => (1 - t) * q i + t * q' i) - b.picking *ᵥ b.mu))) i + b.riskFreeRate) = fun i =>
    (1 - t) * (b.mu i + (vMat b *ᵥ ((aMat b om')⁻¹ *ᵥ (q - b.picking *ᵥ b.mu))) i + b.riskFreeRate) + t * (b.mu i + (vMat b *ᵥ ((aMat b om')⁻¹ *ᵥ (q' - b.picking *ᵥ b.mu))) i + b.riskFreeRate)
  have hm : (fun i => (1 - t) * q i + t * q' i) - b.picking *ᵥ b.mu = (1 - t) • (q - b.picking *ᵥ b.mu) + t • (q' - b.picking *ᵥ b.mu) := by
    funext i
    simp only [Pi.sub_apply, Pi.add_apply, Pi.smul_apply, smul_eq_mul]
    ring
  funext i
  rw [hm, mulVec_add, mulVec_smul, mulVec_smul, mulVec_add, mulVec_smul, mulVec_smul]
  simp only [Pi.add_apply, Pi.smul_apply, smul_eq_mul]
  ring

/-- The quadratic form of the matrix of the system, as a sum of non-negative terms. -/
theorem aMat_quad (b : BL K n m) (w : Fin m → K) (y : Fin m → K) :
    y ⬝ᵥ aMat b (diagonal w) *ᵥ y = b.tau * ((b.pickingᵀ *ᵥ y) ⬝ᵥ b.covariance *ᵥ (b.pickingᵀ *ᵥ y)) + ∑ i, w i * y i ^ 2 := by
  rw [aMat, add_mulVec, dotProduct_add, vMat, Matrix.smul_mul, Matrix.mul_smul, smul_mulVec, dotProduct_smul, smul_eq_mul, ← Matrix.mulVec_mulVec, ← Matrix.mulVec_mulVec,
    dotProduct_mulVec, ← mulVec_transpose]
  congr 1
  simp only [dotProduct, mulVec_diagonal]
  exact Finset.sum_congr rfl fun i _ => by ring

theorem aMat_symm (b : BL K n m) (hs : b.covarianceᵀ = b.covariance) (w : Fin m → K) : (aMat b (diagonal w))ᵀ = aMat b (diagonal w) := by
  rw [aMat, vMat, Matrix.transpose_add, Matrix.diagonal_transpose, Matrix.transpose_mul, Matrix.transpose_mul, Matrix.transpose_smul, hs, Matrix.transpose_transpose, Matrix.mul_assoc]

/-- The uncertainty taken away by the views is the most that any weighting `z` of the views takes away. -/
theorem schur_max {b : BL K n m} {w : Fin m → K} (htau : 0 ≤ b.tau) (hs : SymPSD b.covariance) (hw : ∀ i, 0 ≤ w i) (hd : (aMat b (diagonal w)).det ≠ 0) (x : Fin n → K) (z : Fin m → K) :
    x ⬝ᵥ (b.tau • b.covariance) *ᵥ x - (b.tau * ((x - b.pickingᵀ *ᵥ z) ⬝ᵥ b.covariance *ᵥ (x - b.pickingᵀ *ᵥ z)) + ∑ i, w i * z i ^ 2) ≤
      x ⬝ᵥ (vMat b * ((aMat b (diagonal w))⁻¹ * (vMat b)ᵀ)) *ᵥ x := by
  obtain ⟨e1, -⟩ := a_inv hd
  obtain ⟨y, hy⟩ : ∃ y, y = (aMat b (diagonal w))⁻¹ *ᵥ ((vMat b)ᵀ *ᵥ x) := ⟨_, rfl⟩
  have hAy : aMat b (diagonal w) *ᵥ y = (vMat b)ᵀ *ᵥ x := by rw [hy, Matrix.mulVec_mulVec, e1, one_mulVec]
  have hR : x ⬝ᵥ (vMat b * ((aMat b (diagonal w))⁻¹ * (vMat b)ᵀ)) *ᵥ x = y ⬝ᵥ (vMat b)ᵀ *ᵥ x := by
    rw [← Matrix.mulVec_mulVec, ← Matrix.mulVec_mulVec, ← hy, dotProduct_mulVec, ← mulVec_transpose, dotProduct_comm]
  have hz : z ⬝ᵥ (vMat b)ᵀ *ᵥ x = b.tau * (x ⬝ᵥ b.covariance *ᵥ (b.pickingᵀ *ᵥ z)) := by
    rw [vMat, Matrix.transpose_mul, Matrix.transpose_transpose, Matrix.transpose_smul, hs.1, ← Matrix.mulVec_mulVec, smul_mulVec, mulVec_smul, dotProduct_smul, smul_eq_mul,
      dotProduct_mulVec, ← mulVec_transpose, dot_symm hs.1 x]
  have hq := aMat_quad b w z
  have hzy : z ⬝ᵥ aMat b (diagonal w) *ᵥ y = z ⬝ᵥ (vMat b)ᵀ *ᵥ x := by rw [hAy]
  have hyz : y ⬝ᵥ aMat b (diagonal w) *ᵥ z = z ⬝ᵥ (vMat b)ᵀ *ᵥ x := by rw [dot_symm (aMat_symm b hs.1 w), hzy]
  have hyy : y ⬝ᵥ aMat b (diagonal w) *ᵥ y = y ⬝ᵥ (vMat b)ᵀ *ᵥ x := by rw [hAy]
  have hpos : 0 ≤ (z - y) ⬝ᵥ aMat b (diagonal w) *ᵥ (z - y) := by
    rw [aMat_quad]
    exact add_nonneg (mul_nonneg htau (hs.2 _)) (Finset.sum_nonneg fun i _ => mul_nonneg (hw i) (sq_nonneg _))
  rw [mulVec_sub, sub_dotProduct, dotProduct_sub, dotProduct_sub, hzy, hyz, hyy] at hpos
  rw [hR, smul_mulVec, dotProduct_smul, smul_eq_mul, mulVec_sub, sub_dotProduct, dotProduct_sub, dotProduct_sub, dot_symm hs.1 (b.pickingᵀ *ᵥ z) x]
  linarith

/-- **C134.** More views, and more confidence in them, never make the expected returns less certain: the posterior covariance with some of the views, each held with at most the confidence of the full
list, exceeds that with all the views by a positive semidefinite matrix. -/
theorem C134_more_views (b : BL K n m) (b' : BL K n m') (f : Fin m → Fin m') (hf : Function.Injective f) (hmu : b.covariance = b'.covariance) (htau' : b.tau = b'.tau)
    (hp : ∀ i j, b.picking i j = b'.picking (f i) j) (hc : ∀ i, degree b.confidences i ≤ degree b'.confidences (f i))
    (htau : 0 ≤ b'.tau) (hs : SymPSD b'.covariance) (r r' : (Fin n → K) × Matrix (Fin n) (Fin n) K) (h : posterior b = .ok r) (h' : posterior b' = .ok r') : SymPSD (r.2 - r'.2) := by
  obtain ⟨om, ho, hd, h1, h2⟩ := posterior_eq h
  obtain ⟨om', ho', hd', h1', h2'⟩ := posterior_eq h'
  obtain ⟨hom, hdeg⟩ := omega_eq ho
  obtain ⟨hom', hdeg'⟩ := omega_eq ho'
  have hw' := uncertainty_nonneg ho' htau hs
  have hww : ∀ i, viewUncertainty b'.covariance b'.picking b'.tau (degree b'.confidences) (f i) ≤ viewUncertainty b.covariance b.picking b.tau (degree b.confidences) i := by
    intro i
    have hvv : viewVariance b.covariance b.picking i = viewVariance b'.covariance b'.picking (f i) := by
      have : b.picking i = b'.picking (f i) := funext (hp i)
      rw [viewVariance, viewVariance, this, hmu]
    unfold viewUncertainty
    rw [hvv, htau']
    refine mul_le_mul_of_nonneg_right (mul_le_mul_of_nonneg_left ?_ htau) (hs.2 _)
    have := one_div_le_one_div_of_le (hdeg i).1 (hc i)
    linarith
  obtain ⟨w, hwe⟩ : ∃ w, w = viewUncertainty b.covariance b.picking b.tau (degree b.confidences) := ⟨_, rfl⟩
  obtain ⟨w', hwe'⟩ : ∃ w', w' = viewUncertainty b'.covariance b'.picking b'.tau (degree b'.confidences) := ⟨_, rfl⟩
  rw [← hwe] at hom hww
  rw [← hwe'] at hom' hww hw'
  subst hom hom'
  have hsb : b.covarianceᵀ = b.covariance := by rw [hmu, hs.1]
  have hT : (vMat b * ((aMat b (diagonal w))⁻¹ * (vMat b)ᵀ))ᵀ = vMat b * ((aMat b (diagonal w))⁻¹ * (vMat b)ᵀ) := by
    rw [Matrix.transpose_mul, Matrix.transpose_mul, Matrix.transpose_transpose, Matrix.transpose_nonsing_inv, aMat_symm b hsb, Matrix.mul_assoc]
  have hT' : (vMat b' * ((aMat b' (diagonal w'))⁻¹ * (vMat b')ᵀ))ᵀ = vMat b' * ((aMat b' (diagonal w'))⁻¹ * (vMat b')ᵀ) := by
    rw [Matrix.transpose_mul, Matrix.transpose_mul, Matrix.transpose_transpose, Matrix.transpose_nonsing_inv, aMat_symm b' hs.1, Matrix.mul_assoc]
  have hdiff : r.2 - r'.2 = vMat b' * ((aMat b' (diagonal w'))⁻¹ * (vMat b')ᵀ) - vMat b * ((aMat b (diagonal w))⁻¹ * (vMat b)ᵀ) := by
    rw [h2, h2', hmu, htau']
    abel
  rw [hdiff]
  refine ⟨by rw [Matrix.transpose_sub, hT, hT'], fun x => ?_⟩
  rw [sub_mulVec, dotProduct_sub]
  obtain ⟨y, e1, e2⟩ := schur (w := w) hsb hd x
  rw [e1]
  obtain ⟨z, hz⟩ : ∃ z : Fin m' → K, z = fun k => ∑ i, if f i = k then y i else 0 := ⟨_, rfl⟩
  have hzf : ∀ i, z (f i) = y i := by
    intro i
    rw [hz]
    simp only [hf.eq_iff, Finset.sum_ite_eq', Finset.mem_univ, if_true]
  have hsum : ∀ g : Fin m' → K, ∑ k, g k * z k = ∑ i, g (f i) * y i := by
    intro g
    rw [hz]
    simp only [Finset.mul_sum]
    rw [Finset.sum_comm]
    refine Finset.sum_congr rfl fun i _ => ?_
    simp only [mul_ite, mul_zero, Finset.sum_ite_eq, Finset.mem_univ, if_true]
  have hPz : b'.pickingᵀ *ᵥ z = b.pickingᵀ *ᵥ y := by
    funext j
    have := hsum fun k => b'.picking k j
    simp only [← hp] at this
    exact this
  have hsq : ∑ k, w' k * z k ^ 2 = ∑ i, w' (f i) * y i ^ 2 := by
    have := hsum fun k => w' k * z k
    simp only [hzf] at this
    rw [show ∑ k, w' k * z k ^ 2 = ∑ k, w' k * z k * z k from Finset.sum_congr rfl fun k _ => by ring, this]
    exact Finset.sum_congr rfl fun k _ => by ring
  have hle : ∑ i, w' (f i) * y i ^ 2 ≤ ∑ i, w i * y i ^ 2 := Finset.sum_le_sum fun i _ => mul_le_mul_of_nonneg_right (hww i) (sq_nonneg _)
  have := schur_max htau hs hw' hd' x z
  rw [hPz, hsq, ← hmu, ← htau'] at this
  linarith

omit [IsStrictOrderedRing K] in
/-- **C134.** The order of the assets does not matter: the posterior of the reordered problem is the reordered posterior, and `fit` fails in the same cases. -/
theorem C134_order_of_assets (b : BL K n m) (e : Fin n ≃ Fin n) :
    posterior (permuted e b) = (posterior b).map fun r => (fun i => r.1 (e i), of fun i j => r.2 (e i) (e j)) := by
  have hcov : (permuted e b).covariance = b.covariance.submatrix e e := rfl
  have hpick : (permuted e b).picking = b.picking.submatrix id e := rfl
  have hv : vMat (permuted e b) = (vMat b).submatrix e id := by
    rw [vMat, vMat, hcov, hpick, Matrix.transpose_submatrix, ← Matrix.submatrix_mul_equiv (b.tau • b.covariance) b.pickingᵀ e e id]
    rfl
  have hpv : (permuted e b).picking * vMat (permuted e b) = b.picking * vMat b := by
    rw [hv, hpick, Matrix.submatrix_mul_equiv, Matrix.submatrix_id_id]
  have ha : ∀ om, aMat (permuted e b) om = aMat b om := fun om => by rw [aMat, aMat, hpv]
  have hquad : ∀ p : Matrix (Fin m) (Fin n) K, p.submatrix id e * (permuted e b).covariance * (permuted e b).pickingᵀ = p * b.covariance * b.pickingᵀ := by
    intro p
    rw [hcov, hpick, Matrix.submatrix_mul_equiv, Matrix.transpose_submatrix, Matrix.submatrix_mul_equiv, Matrix.submatrix_id_id]
  have ho : omega (permuted e b) = omega b := by
    unfold omega
    change (match b.confidences with | none => _ | some c => _) = _
    cases hc : b.confidences with
    | none =>
      simp only
      have := hquad (b.tau • b.picking)
      congr 2
      funext i
      exact congrFun (congrFun this i) i
    | some c =>
      simp only
      have := hquad (of fun i j => b.tau * (1 / effectiveConfidence (c i) - 1) * b.picking i j)
      congr 3
      funext i
      exact congrFun (congrFun this i) i
  have hb : bVec (permuted e b) = bVec b := by
    funext i j
    change b.views i - ∑ k, b.picking i (e k) * b.mu (e k) = b.views i - ∑ k, b.picking i k * b.mu k
    rw [e.sum_comp fun k => b.picking i k * b.mu k]
  cases h : omega b with
  | error er => rw [posterior_error h, posterior_error (ho.trans h)]; rfl
  | ok om =>
    by_cases hd : (aMat b om).det = 0
    · rw [posterior_singular h hd, posterior_singular (ho.trans h) (by rw [ha]; exact hd)]
      rfl
    · rw [posterior_ok h hd, posterior_ok (ho.trans h) (by rw [ha]; exact hd)]
      change Except.ok _ = Except.ok _
      congr 1
      rw [ha, hb, hv]
      refine Prod.ext ?_ ?_
      · funext i
        rfl
      · funext i j
        rfl

/-- **C134.** Finding: a view stated several times counts as so much more evidence. Stated `m` times with confidence `c`, it moves the expected return of its portfolio by the fraction `m / (m - 1 + 1 / c)`
of the way to the view: without confidences one half if stated once, two thirds if stated twice. -/
theorem C134_repeated_view (b : BL K n m) (p : Fin n → K) (q c : K) (hp : ∀ i, b.picking i = p) (hq : ∀ i, b.views i = q) (hc : ∀ i, degree b.confidences i = c) (htau : 0 < b.tau)
    (hv : 0 < p ⬝ᵥ b.covariance *ᵥ p) (hm : 0 < m) (r : (Fin n → K) × Matrix (Fin n) (Fin n) K) (h : posterior b = .ok r) :
    p ⬝ᵥ r.1 - b.riskFreeRate * ∑ j, p j = p ⬝ᵥ b.mu + (m : K) / ((m : K) - 1 + 1 / c) * (q - p ⬝ᵥ b.mu) := by
  obtain ⟨om, ho, hd, h1, h2⟩ := posterior_eq h
  obtain ⟨hom, hdeg⟩ := omega_eq ho
  obtain ⟨v, hve⟩ : ∃ v, v = p ⬝ᵥ b.covariance *ᵥ p := ⟨_, rfl⟩
  rw [← hve] at hv
  obtain ⟨c0, c1⟩ : 0 < c ∧ c ≤ 1 := by
    have := hdeg ⟨0, hm⟩
    rwa [hc] at this
  have hm1 : (1 : K) ≤ m := by exact_mod_cast hm
  have hc1 : 1 ≤ 1 / c := (one_le_div c0).2 c1
  have hden : 0 < (m : K) - 1 + 1 / c := by linarith
  have hpv : ∀ i j, (b.picking * vMat b) i j = b.tau * v := by
    intro i j
    have : (b.picking * vMat b) i j = b.tau * (b.picking i ⬝ᵥ b.covariance *ᵥ b.picking j) := by
      rw [vMat, Matrix.smul_mul, Matrix.mul_smul, Matrix.smul_apply, smul_eq_mul]
      rfl
    rw [this, hp, hp, hve]
  have hpvc : ∀ k : K, (b.picking * vMat b) *ᵥ (fun _ => k) = fun _ => m * (b.tau * v * k) := by
    intro k
    funext i
    simp only [mulVec, dotProduct, hpv, Finset.sum_const, Finset.card_univ, Fintype.card_fin, nsmul_eq_mul]
  have hac : ∀ k : K, aMat b om *ᵥ (fun _ => k) = fun _ => b.tau * v * ((m : K) - 1 + 1 / c) * k := by
    intro k
    rw [aMat, add_mulVec, hpvc, hom]
    funext i
    rw [Pi.add_apply, mulVec_diagonal, viewUncertainty, hc, viewVariance, hp, ← hve]
    ring
  obtain ⟨-, e2⟩ := a_inv hd
  have hinv : ∀ d : K, (aMat b om)⁻¹ *ᵥ (fun _ => d) = fun _ => d / (b.tau * v * ((m : K) - 1 + 1 / c)) := by
    intro d
    have : (fun _ : Fin m => d) = aMat b om *ᵥ fun _ => d / (b.tau * v * ((m : K) - 1 + 1 / c)) := by
      rw [hac]
      funext i
      have := hv.ne'
      have := htau.ne'
      have := hden.ne'
      rw [mul_div_cancel₀]
      positivity
    conv_lhs => rw [this]
    rw [Matrix.mulVec_mulVec, e2, one_mulVec]
  have hdiff : b.views - b.picking *ᵥ b.mu = fun _ => q - p ⬝ᵥ b.mu := by
    funext i
    rw [Pi.sub_apply, hq, ← hp i]
    rfl
  have := congrFun (views_posterior h1) ⟨0, hm⟩
  rw [hdiff, hinv, hpvc] at this
  have hl : (b.picking *ᵥ r.1) ⟨0, hm⟩ = p ⬝ᵥ r.1 := by rw [← hp ⟨0, hm⟩]; rfl
  have hl2 : (b.picking *ᵥ b.mu) ⟨0, hm⟩ = p ⬝ᵥ b.mu := by rw [← hp ⟨0, hm⟩]; rfl
  have hl3 : (b.picking *ᵥ fun _ => 1) ⟨0, hm⟩ = ∑ j, p j := by
    simp only [mulVec, dotProduct, mul_one, hp]
  rw [hl, Pi.add_apply, Pi.add_apply, Pi.smul_apply, hl2, hl3, smul_eq_mul] at this
  rw [this]
  have h1 := hv.ne'
  have h2 := htau.ne'
  have h3 := hden.ne'
  rw [show (m : K) * (b.tau * v * ((q - p ⬝ᵥ b.mu) / (b.tau * v * ((m : K) - 1 + 1 / c)))) = (m : K) / ((m : K) - 1 + 1 / c) * (q - p ⬝ᵥ b.mu) by field_simp]
  ring

/-- **C134.** Finding: a view held with full confidence cannot be stated twice: `fit` fails with a singular matrix, although the two views agree. -/
theorem C134_repeated_certain_view (b : BL K n m) (i j : Fin m) (hij : i ≠ j) (hp : b.picking i = b.picking j) (hc : b.confidences = some fun _ => 1) : posterior b = .error .singular := by
  have ho : omega b = .ok (diagonal (viewUncertainty b.covariance b.picking b.tau (degree b.confidences))) := by
    rw [omega_cases, if_neg]
    rw [hc]
    rintro ⟨c, h, k, hk⟩
    cases h
    rcases hk with hk | hk
    · exact absurd hk (by norm_num)
    · exact absurd hk (lt_irrefl _)
  have h0 : diagonal (viewUncertainty b.covariance b.picking b.tau (degree b.confidences)) = 0 := by
    funext i j
    rw [Matrix.diagonal_apply]
    simp [viewUncertainty, degree, hc]
  rw [h0] at ho
  refine posterior_singular ho (Matrix.det_zero_of_row_eq hij ?_)
  rw [aMat, add_zero]
  funext k
  rw [Matrix.mul_apply, Matrix.mul_apply]
  exact Finset.sum_congr rfl fun l _ => by rw [hp]

end

/-! The case of `BlackLittermanTheorems.lean`: two assets and one view, and the same with a second view on the difference of the two. -/

/-- The view of `sample`, and a relative view held with confidence one half. -/
def sample2 : BL ℚ 2 2 :=
  { mu := ![1, 2], covariance := !![2, 1; 1, 2], picking := !![1, 0; 1, -1], views := ![3, 1], tau := 1 / 2, riskFreeRate := 0, confidences := some ![1 / 4, 1 / 2] }

theorem sample2_defined : ∃ r, posterior sample2 = .ok r :=
  C34_defined sample2 (by norm_num [sample2]) sample_psd (by decide +kernel) (by intro c hc i; cases Option.some.inj hc; fin_cases i <;> norm_num)

theorem sample_defined : ∃ r, posterior sample = .ok r :=
  C34_defined sample (by norm_num [sample]) sample_psd sample_variance (by intro c hc i; cases Option.some.inj hc; norm_num)

/-- The second view, of assets that the first view leaves uncertain, takes uncertainty away (`C134_more_views`). -/
example : ∃ r r', posterior sample = .ok r ∧ posterior sample2 = .ok r' ∧ SymPSD (r.2 - r'.2) := by
  obtain ⟨r, hr⟩ := sample_defined
  obtain ⟨r', hr'⟩ := sample2_defined
  exact ⟨r, r', hr, hr', C134_more_views sample sample2 (fun _ => 0) (fun i j _ => Subsingleton.elim i j) rfl rfl (fun i j => by fin_cases i; rfl)
    (by intro i; simp [degree, sample, sample2]) (by norm_num [sample2]) sample_psd r r' hr hr'⟩

/-- Doubling the first view and reversing the second leaves the posterior unchanged (`C134_scale_of_views`); so does exchanging them (`C134_order_of_views`). -/
example : posterior (rescaled ![2, -1] sample2) = posterior sample2 ∧ posterior (chosen (Equiv.swap 0 1) sample2) = posterior sample2 ∧ (rescaled ![2, -1] sample2).picking = !![2, 0; -1, 1] :=
  ⟨C134_scale_of_views sample2 _ (by decide +kernel), C134_order_of_views sample2 _, by decide +kernel⟩

/-- A view stated twice without confidences moves the first asset two thirds of the way from 1 to 4; stated once, one half (`C134_repeated_view`). -/
example (r r' : (Fin 2 → ℚ) × Matrix (Fin 2) (Fin 2) ℚ)
    (h : posterior ({ sample with views := ![4], confidences := none } : BL ℚ 2 1) = .ok r)
    (h' : posterior ({ sample2 with picking := !![1, 0; 1, 0], views := ![4, 4], confidences := none } : BL ℚ 2 2) = .ok r') : r.1 0 = 5 / 2 ∧ r'.1 0 = 3 := by
  constructor
  · have := C134_repeated_view ({ sample with views := ![4], confidences := none } : BL ℚ 2 1) ![1, 0] 4 (1 / 2) (fun i => by fin_cases i <;> rfl) (fun i => by fin_cases i <;> rfl) (fun _ => rfl) (by norm_num [sample])
      (by decide +kernel) Nat.one_pos r h
    simp [sample, dotProduct, Fin.sum_univ_two] at this
    rw [this]
    norm_num
  · have := C134_repeated_view ({ sample2 with picking := !![1, 0; 1, 0], views := ![4, 4], confidences := none } : BL ℚ 2 2) ![1, 0] 4 (1 / 2) (fun i => by fin_cases i <;> rfl) (fun i => by fin_cases i <;> rfl) (fun _ => rfl)
      (by norm_num [sample2]) (by decide +kernel) Nat.two_pos r' h'
    simp [sample2, dotProduct, Fin.sum_univ_two] at this
    rw [this]
    norm_num

/-- Both fits succeed. -/
example : (∃ r, posterior ({ sample with views := ![4], confidences := none } : BL ℚ 2 1) = .ok r) ∧
    ∃ r, posterior ({ sample2 with picking := !![1, 0; 1, 0], views := ![4, 4], confidences := none } : BL ℚ 2 2) = .ok r :=
  ⟨C34_defined _ (by norm_num [sample]) sample_psd sample_variance (by intro c hc; cases hc), C34_defined _ (by norm_num [sample2]) sample_psd (by decide +kernel) (by intro c hc; cases hc)⟩

/-- Views that agree with the prior (`C134_agreeing_views`). -/
example (r : (Fin 2 → ℚ) × Matrix (Fin 2) (Fin 2) ℚ) (h : posterior { sample2 with views := ![1, -1] } = .ok r) : r.1 1 = 2 := by
  have := C134_agreeing_views { sample2 with views := ![1, -1] } (by decide +kernel) r h 1
  simpa [sample2] using this

end Skfolio.Prior
