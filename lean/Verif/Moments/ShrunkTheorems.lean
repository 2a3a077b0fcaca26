import Verif.Moments.ShrunkModel
import Verif.Prior.BlackLittermanSpec
import Mathlib.Tactic.FieldSimp
import Mathlib.Tactic.Ring
import Mathlib.Tactic.Linarith
import Mathlib.Tactic.Positivity
import Mathlib.Tactic.NormNum
import Mathlib.Tactic.SplitIfs
import Mathlib.Tactic.FinCases
import Mathlib.Tactic.LinearCombination
import Mathlib.LinearAlgebra.Matrix.Notation

/-! C42. -/
set_option autoImplicit false

namespace Skfolio.Moments

open Matrix Skfolio.Prior

variable {K : Type} [Field K] [LinearOrder K] [IsStrictOrderedRing K] {n T : Nat}

/-- The target of the shrinkage: the mean of the sample means, or the mean of the minimum-variance portfolio (the generalised least squares mean). -/
noncomputable def shrinkTarget (volWeighted : Bool) (x : Fin T → Fin (n + 1) → K) (cov : Matrix (Fin (n + 1)) (Fin (n + 1)) K) : K :=
  if volWeighted then (∑ i, ∑ j, cov⁻¹ i j * sampleMu x i) / (∑ i, ∑ j, cov⁻¹ i j) else (∑ i, sampleMu x i) / (n + 1 : Nat)

omit [LinearOrder K] [IsStrictOrderedRing K] in
theorem sum_rows_mul (a : Matrix (Fin n) (Fin n) K) (m : Fin n → K) : ∑ i, (∑ j, a i j) * m i = ∑ i, ∑ j, a i j * m i :=
  Finset.sum_congr rfl fun i _ => by rw [Finset.sum_mul]

omit [IsStrictOrderedRing K] in
/-- The inverse of a positive semidefinite matrix is positive semidefinite. -/
theorem inv_psd {c : Matrix (Fin n) (Fin n) K} (hc : SymPSD c) (hd : c.det ≠ 0) (x : Fin n → K) : 0 ≤ x ⬝ᵥ c⁻¹ *ᵥ x := by
  have h1 := hc.2 (c⁻¹ *ᵥ x)
  have : c *ᵥ (c⁻¹ *ᵥ x) = x := by rw [Matrix.mulVec_mulVec, Matrix.mul_nonsing_inv _ (isUnit_iff_ne_zero.2 hd), one_mulVec]
  rwa [this, dotProduct_comm] at h1

theorem shrunk_eq {method : ShrunkMethod} {vw : Bool} {x : Fin T → Fin (n + 1) → K} {cov : Matrix (Fin (n + 1)) (Fin (n + 1)) K} {eigs : Fin (n + 1) → K} {r : ShrunkFit K (n + 1)}
    (h : shrunkMu method vw x cov eigs = some r) :
    (∀ i, r.target i = shrinkTarget vw x cov) ∧ (∀ i, r.mu i = r.alpha * sampleMu x i + r.beta * shrinkTarget vw x cov) ∧
    (match method with
      | .jamesStein => r.alpha = 1 - r.beta ∧ r.beta = (∑ i, eigs i - 2 * Finset.univ.sup' ⟨0, Finset.mem_univ 0⟩ eigs) / (∑ i, (sampleMu x i - shrinkTarget vw x cov) ^ 2) / T
      | .bayesStein => cov.det ≠ 0 ∧ r.alpha = 1 - r.beta ∧ r.beta = ((n + 1 : Nat) + 2) / (T * ((fun i => sampleMu x i - shrinkTarget vw x cov) ⬝ᵥ cov⁻¹ *ᵥ (fun i => sampleMu x i - shrinkTarget vw x cov)) + ((n + 1 : Nat) + 2))
      | .bodnarOkhrin => cov.det ≠ 0 ∧ ∃ u v w, u = sampleMu x ⬝ᵥ cov⁻¹ *ᵥ sampleMu x ∧ v = sampleMu x ⬝ᵥ cov⁻¹ *ᵥ (fun _ => shrinkTarget vw x cov) ∧
          w = (fun _ => shrinkTarget vw x cov) ⬝ᵥ cov⁻¹ *ᵥ (fun _ => shrinkTarget vw x cov) ∧
          r.alpha = ((u - (n + 1 : Nat) / (T - (n + 1 : Nat))) * w - v ^ 2) / (u * w - v ^ 2) ∧ r.beta = (1 - r.alpha) * v / u) := by
  have hd : vw = true → cov.det ≠ 0 := by
    intro hv hd
    subst hv
    simp [shrunkMu, shrunkTarget, inv?, hd] at h
  have ht : shrunkTarget vw (sampleMu x) cov = some fun _ => shrinkTarget vw x cov := by
    cases vw with
    | true => simp [shrunkTarget, inv?, hd rfl, shrinkTarget, sum_rows_mul]
    | false => simp [shrunkTarget, shrinkTarget]
  unfold shrunkMu at h
  rw [ht, Option.bind_some] at h
  cases method with
  | jamesStein =>
    cases h
    exact ⟨fun i => rfl, fun i => rfl, rfl, rfl⟩
  | bayesStein =>
    by_cases hd : cov.det = 0
    · simp [shrunkCoefficients, inv?, hd] at h
    · simp only [shrunkCoefficients, inv?, hd, if_false, Option.map_some] at h
      cases h
      exact ⟨fun i => rfl, fun i => rfl, hd, rfl, rfl⟩
  | bodnarOkhrin =>
    by_cases hd : cov.det = 0
    · simp [shrunkCoefficients, inv?, hd] at h
    · simp only [shrunkCoefficients, inv?, hd, if_false, Option.map_some] at h
      cases h
      exact ⟨fun i => rfl, fun i => rfl, hd, _, _, _, rfl, rfl, rfl, rfl, rfl⟩

/-- **C42**, Bayes-Stein. The estimate is a convex combination of the sample means and the target: it lies between them for every asset. -/
theorem C42_bayes_stein (vw : Bool) (x : Fin T → Fin (n + 1) → K) (cov : Matrix (Fin (n + 1)) (Fin (n + 1)) K) (eigs : Fin (n + 1) → K) (hc : SymPSD cov) (r : ShrunkFit K (n + 1))
    (h : shrunkMu .bayesStein vw x cov eigs = some r) :
    (0 < r.beta ∧ r.beta ≤ 1 ∧ r.alpha + r.beta = 1) ∧
    ∀ i, r.mu i = (1 - r.beta) * sampleMu x i + r.beta * shrinkTarget vw x cov ∧
      min (sampleMu x i) (shrinkTarget vw x cov) ≤ r.mu i ∧ r.mu i ≤ max (sampleMu x i) (shrinkTarget vw x cov) := by
  obtain ⟨-, h2, hd, h3, h4⟩ := shrunk_eq h
  have hq := inv_psd hc hd (fun i => sampleMu x i - shrinkTarget vw x cov)
  have hT : (0 : K) ≤ T := Nat.cast_nonneg T
  have hN : (0 : K) < ((n + 1 : Nat) : K) + 2 := by positivity
  have hden : ((n + 1 : Nat) : K) + 2 ≤ T * ((fun i => sampleMu x i - shrinkTarget vw x cov) ⬝ᵥ cov⁻¹ *ᵥ (fun i => sampleMu x i - shrinkTarget vw x cov)) + ((n + 1 : Nat) + 2) := by
    nlinarith [mul_nonneg hT hq]
  have b0 : 0 < r.beta := by rw [h4]; exact div_pos hN (lt_of_lt_of_le hN hden)
  have b1 : r.beta ≤ 1 := by rw [h4]; exact (div_le_one (lt_of_lt_of_le hN hden)).2 hden
  refine ⟨⟨b0, b1, by rw [h3]; ring⟩, fun i => ?_⟩
  have e : r.mu i = (1 - r.beta) * sampleMu x i + r.beta * shrinkTarget vw x cov := by rw [h2, h3]
  refine ⟨e, ?_, ?_⟩
  · rw [e]
    have h1 := min_le_left (sampleMu x i) (shrinkTarget vw x cov)
    have h2 := min_le_right (sampleMu x i) (shrinkTarget vw x cov)
    nlinarith
  · rw [e]
    have h1 := le_max_left (sampleMu x i) (shrinkTarget vw x cov)
    have h2 := le_max_right (sampleMu x i) (shrinkTarget vw x cov)
    nlinarith

/-- **C42**, James-Stein, what holds: the coefficients add up to one; the combination is convex exactly if the trace of the covariance is at least twice its largest eigenvalue and the excess is at most
the number of observations times the squared distance of sample means and target. Missing: the coefficient is not confined to [0, 1] (`C42_james_stein_negative`, `C42_james_stein_overshoot`). -/
theorem C42_james_stein_partial (vw : Bool) (x : Fin T → Fin (n + 1) → K) (cov : Matrix (Fin (n + 1)) (Fin (n + 1)) K) (eigs : Fin (n + 1) → K) (hT : 0 < T) (r : ShrunkFit K (n + 1))
    (h : shrunkMu .jamesStein vw x cov eigs = some r) (hdist : 0 < ∑ i, (sampleMu x i - shrinkTarget vw x cov) ^ 2) (l : K) (hl : ∃ i, eigs i = l) (hmax : ∀ i, eigs i ≤ l) :
    (∀ i, r.mu i = (1 - r.beta) * sampleMu x i + r.beta * shrinkTarget vw x cov) ∧
    (0 ≤ r.beta ∧ r.beta ≤ 1 ↔ 2 * l ≤ ∑ i, eigs i ∧ ∑ i, eigs i - 2 * l ≤ T * ∑ i, (sampleMu x i - shrinkTarget vw x cov) ^ 2) := by
  obtain ⟨-, h2, h3, h4⟩ := shrunk_eq h
  refine ⟨fun i => by rw [h2, h3], ?_⟩
  have hs : Finset.univ.sup' ⟨0, Finset.mem_univ 0⟩ eigs = l := by
    obtain ⟨i, rfl⟩ := hl
    exact le_antisymm (Finset.sup'_le _ _ fun j _ => hmax j) (Finset.le_sup' eigs (Finset.mem_univ i))
  have hT' : (0 : K) < T := by exact_mod_cast hT
  rw [h4, hs, div_div, div_le_one (mul_pos hdist hT'), le_div_iff₀ (mul_pos hdist hT'), zero_mul, mul_comm (T : K)]
  constructor
  · rintro ⟨a, b⟩
    exact ⟨by linarith, b⟩
  · rintro ⟨a, b⟩
    exact ⟨by linarith, b⟩

/-- **C42.** The default target is the average of the sample means. -/
theorem C42_target (method : ShrunkMethod) (x : Fin T → Fin (n + 1) → K) (cov : Matrix (Fin (n + 1)) (Fin (n + 1)) K) (eigs : Fin (n + 1) → K) (r : ShrunkFit K (n + 1))
    (h : shrunkMu method false x cov eigs = some r) (i : Fin (n + 1)) :
    r.target i = (∑ j, (∑ t, x t j) / T) / (n + 1 : Nat) ∧ (∃ a b, sampleMu x a ≤ r.target i ∧ r.target i ≤ sampleMu x b) := by
  have e : r.target i = (∑ j, sampleMu x j) / (n + 1 : Nat) := by
    rw [(shrunk_eq h).1 i]
    simp [shrinkTarget]
  refine ⟨e, ?_⟩
  have hn : (0 : K) < ((n + 1 : Nat) : K) := by positivity
  obtain ⟨a, -, ha⟩ := Finset.exists_min_image Finset.univ (sampleMu x) ⟨0, Finset.mem_univ 0⟩
  obtain ⟨b, -, hb⟩ := Finset.exists_max_image Finset.univ (sampleMu x) ⟨0, Finset.mem_univ 0⟩
  refine ⟨a, b, ?_, ?_⟩
  · rw [e, le_div_iff₀ hn]
    have := Finset.card_nsmul_le_sum Finset.univ (sampleMu x) (sampleMu x a) fun j _ => ha j (Finset.mem_univ j)
    rw [Finset.card_univ, Fintype.card_fin, nsmul_eq_mul] at this
    linarith
  · rw [e, div_le_iff₀ hn]
    have := Finset.sum_le_card_nsmul Finset.univ (sampleMu x) (sampleMu x b) fun j _ => hb j (Finset.mem_univ j)
    rw [Finset.card_univ, Fintype.card_fin, nsmul_eq_mul] at this
    linarith

/-! ### Bodnar-Okhrin-Parolya -/

/-- The loss that the estimator of Bodnar, Okhrin and Parolya minimises over the two coefficients: the estimate, up to a constant, of the squared distance to the true means in the metric of
the inverse covariance, with `u = μ'S⁻¹μ`, `v = μ'S⁻¹b`, `w = b'S⁻¹b` and `k = n/(T-n)` the bias of `u`. -/
def bopLoss (u v w k a b : K) : K := a ^ 2 * u + 2 * a * b * v + b ^ 2 * w - 2 * a * (u - k) - 2 * b * v

/-- Finding: the coefficient `alpha_` of the code is the optimal one, but the optimal coefficient of the target is `(1-α)v/w` where the code has `(1-α)v/u`; the code's pair is strictly worse unless they agree. -/
theorem C42_bodnar_not_optimal (vw : Bool) (x : Fin T → Fin (n + 1) → K) (cov : Matrix (Fin (n + 1)) (Fin (n + 1)) K) (eigs : Fin (n + 1) → K) (r : ShrunkFit K (n + 1))
    (h : shrunkMu .bodnarOkhrin vw x cov eigs = some r) (u v w k : K) (hu : u = sampleMu x ⬝ᵥ cov⁻¹ *ᵥ sampleMu x) (hv : v = sampleMu x ⬝ᵥ cov⁻¹ *ᵥ (fun _ => shrinkTarget vw x cov))
    (hw : w = (fun _ => shrinkTarget vw x cov) ⬝ᵥ cov⁻¹ *ᵥ (fun _ => shrinkTarget vw x cov)) (hk : k = (n + 1 : Nat) / (T - (n + 1 : Nat))) (hu0 : 0 < u) (hw0 : 0 < w) (hcs : v ^ 2 < u * w) :
    (∀ a b, bopLoss u v w k r.alpha ((1 - r.alpha) * v / w) ≤ bopLoss u v w k a b) ∧
    (u ≠ w → v ≠ 0 → r.alpha ≠ 1 → bopLoss u v w k r.alpha ((1 - r.alpha) * v / w) < bopLoss u v w k r.alpha r.beta) := by
  obtain ⟨-, -, -, u', v', w', hu', hv', hw', ha, hb⟩ := shrunk_eq h
  rw [← hu] at hu'
  rw [← hv] at hv'
  rw [← hw] at hw'
  subst hu' hv' hw'
  rw [← hk] at ha
  have hD : 0 < u' * w' - v' ^ 2 := by linarith
  have ha' : r.alpha * (u' * w' - v' ^ 2) = (u' - k) * w' - v' ^ 2 := by
    rw [ha]
    field_simp
  obtain ⟨b0, hb0⟩ : ∃ b0, b0 = (1 - r.alpha) * v' / w' := ⟨_, rfl⟩
  have hbw : b0 * w' = (1 - r.alpha) * v' := by
    rw [hb0]
    field_simp
  rw [← hb0]
  -- first-order conditions
  have f2 : r.alpha * v' + b0 * w' - v' = 0 := by linarith
  have f1 : r.alpha * u' + b0 * v' - (u' - k) = 0 := by
    have : w' * (r.alpha * u' + b0 * v' - (u' - k)) = 0 := by linear_combination ha' + v' * hbw
    exact (mul_eq_zero.1 this).resolve_left hw0.ne'
  have quad : ∀ a b, bopLoss u' v' w' k a b - bopLoss u' v' w' k r.alpha b0 = (a - r.alpha) ^ 2 * u' + 2 * (a - r.alpha) * (b - b0) * v' + (b - b0) ^ 2 * w' := by
    intro a b
    unfold bopLoss
    linear_combination 2 * (a - r.alpha) * f1 + 2 * (b - b0) * f2
  refine ⟨fun a b => ?_, fun h1 h2 h3 => ?_⟩
  · have q := quad a b
    have : 0 ≤ w' * ((a - r.alpha) ^ 2 * u' + 2 * (a - r.alpha) * (b - b0) * v' + (b - b0) ^ 2 * w') := by
      have : w' * ((a - r.alpha) ^ 2 * u' + 2 * (a - r.alpha) * (b - b0) * v' + (b - b0) ^ 2 * w') = ((b - b0) * w' + (a - r.alpha) * v') ^ 2 + (a - r.alpha) ^ 2 * (u' * w' - v' ^ 2) := by ring
      rw [this]
      exact add_nonneg (sq_nonneg _) (mul_nonneg (sq_nonneg _) hD.le)
    have := nonneg_of_mul_nonneg_right this hw0
    linarith
  · have q := quad r.alpha r.beta
    have hne : r.beta - b0 ≠ 0 := by
      intro hc
      have e : r.beta = b0 := by linarith
      have hbu : r.beta * u' = (1 - r.alpha) * v' := by
        rw [hb]
        field_simp
      have : (1 - r.alpha) * v' * (w' - u') = 0 := by
        rw [e] at hbu
        linear_combination u' * hbw - w' * hbu
      rcases mul_eq_zero.1 this with h | h
      · rcases mul_eq_zero.1 h with h | h
        · exact h3 (by linarith)
        · exact h2 h
      · exact h1 (by linarith)
    have : 0 < (r.beta - b0) ^ 2 * w' := mul_pos (by positivity) hw0
    nlinarith

/-! ### Concrete samples -/

/-- Two assets with sample means 0 and 2 in four observations. -/
def sample2 : Fin 4 → Fin 2 → ℚ := ![![1, 2], ![-1, 2], ![0, 3], ![0, 1]]

theorem sample2_mu : sampleMu sample2 = ![0, 2] := by
  funext i
  fin_cases i <;> simp [sampleMu, sample2, Fin.sum_univ_four] <;> norm_num

theorem sample2_target : shrinkTarget false sample2 1 = 1 := by
  simp [shrinkTarget, sample2_mu, Fin.sum_univ_two]

/-- The hypotheses of `C42_bayes_stein` and `C42_target`. -/
example : SymPSD (1 : Matrix (Fin 2) (Fin 2) ℚ) ∧ ∃ r, shrunkMu .bayesStein false sample2 1 ![1, 1] = some r := by
  refine ⟨⟨Matrix.transpose_one, fun x => ?_⟩, ?_⟩
  · rw [one_mulVec, dotProduct]
    exact Finset.sum_nonneg fun i _ => mul_self_nonneg _
  · unfold shrunkMu shrunkTarget shrunkCoefficients
    simp [inv?]

/-- Finding: with James-Stein and one dominating eigenvalue the coefficient of the target is negative: the estimate moves away from the target. -/
theorem C42_james_stein_negative : ∃ r, shrunkMu .jamesStein false sample2 1 ![3, 1] = some r ∧ r.beta < 0 ∧ r.mu 1 > 2 ∧ r.target 1 = 1 ∧ sampleMu sample2 1 = 2 := by
  have hs : Finset.univ.sup' ⟨0, Finset.mem_univ 0⟩ (![3, 1] : Fin 2 → ℚ) = 3 := by decide +kernel
  have : ∃ r, shrunkMu .jamesStein false sample2 1 ![3, 1] = some r := by
    unfold shrunkMu shrunkTarget shrunkCoefficients
    simp
  obtain ⟨r, hr⟩ := this
  obtain ⟨h1, h2, h3, h4⟩ := shrunk_eq hr
  rw [hs, sample2_target] at h4
  have hb : r.beta = -1 / 4 := by
    rw [h4]
    simp [Fin.sum_univ_two, sample2_mu]
    norm_num
  refine ⟨r, hr, by rw [hb]; norm_num, ?_, by rw [h1, sample2_target], by rw [sample2_mu]; rfl⟩
  rw [h2, h3, hb, sample2_target, sample2_mu]
  norm_num

/-- Finding: with James-Stein and sample means close to each other the coefficient of the target exceeds one: the order of the sample means is reversed. Three assets, one observation. -/
theorem C42_james_stein_overshoot : ∃ r, shrunkMu .jamesStein false (![![0, 0, 1]] : Fin 1 → Fin 3 → ℚ) 1 ![1, 1, 1] = some r ∧ 1 < r.beta ∧ r.mu 2 < r.mu 0 := by
  have hs : Finset.univ.sup' ⟨0, Finset.mem_univ 0⟩ (![1, 1, 1] : Fin 3 → ℚ) = 1 := by decide +kernel
  have : ∃ r, shrunkMu .jamesStein false (![![0, 0, 1]] : Fin 1 → Fin 3 → ℚ) 1 ![1, 1, 1] = some r := by
    unfold shrunkMu shrunkTarget shrunkCoefficients
    simp
  obtain ⟨r, hr⟩ := this
  obtain ⟨h1, h2, h3, h4⟩ := shrunk_eq hr
  have hmu : sampleMu (![![0, 0, 1]] : Fin 1 → Fin 3 → ℚ) = ![0, 0, 1] := by
    funext i
    fin_cases i <;> simp [sampleMu]
  have ht : shrinkTarget false (![![0, 0, 1]] : Fin 1 → Fin 3 → ℚ) 1 = 1 / 3 := by
    simp [shrinkTarget, hmu, Fin.sum_univ_three]
  rw [hs, ht] at h4
  have hb : r.beta = 3 / 2 := by
    rw [h4]
    simp [Fin.sum_univ_three, hmu]
    norm_num
  refine ⟨r, hr, by rw [hb]; norm_num, ?_⟩
  rw [h2, h2, h3, hb, ht, hmu]
  simp
  norm_num

/-- Finding: with Bodnar-Okhrin-Parolya the coefficients of sample means and target need not add up to one: here 1/2 and 1/4, where the optimal ones are 1/2 and 1/2. The hypotheses of
`C42_bodnar_not_optimal` hold too. -/
theorem C42_bodnar_not_convex : ∃ r, shrunkMu .bodnarOkhrin false sample2 1 ![1, 1] = some r ∧ r.alpha = 1 / 2 ∧ r.beta = 1 / 4 ∧ r.mu = ![1 / 4, 5 / 4] ∧
    ∃ u v w : ℚ, u = sampleMu sample2 ⬝ᵥ (1 : Matrix (Fin 2) (Fin 2) ℚ)⁻¹ *ᵥ sampleMu sample2 ∧ v = sampleMu sample2 ⬝ᵥ (1 : Matrix (Fin 2) (Fin 2) ℚ)⁻¹ *ᵥ (fun _ => shrinkTarget false sample2 1) ∧
      w = (fun _ => shrinkTarget false sample2 1) ⬝ᵥ (1 : Matrix (Fin 2) (Fin 2) ℚ)⁻¹ *ᵥ (fun _ => shrinkTarget false sample2 1) ∧ 0 < u ∧ 0 < w ∧ v ^ 2 < u * w ∧ u ≠ w ∧ v ≠ 0 := by
  have : ∃ r, shrunkMu .bodnarOkhrin false sample2 1 ![1, 1] = some r := by
    unfold shrunkMu shrunkTarget shrunkCoefficients
    simp [inv?]
  obtain ⟨r, hr⟩ := this
  obtain ⟨h1, h2, -, u, v, w, hu, hv, hw, h3, h4⟩ := shrunk_eq hr
  rw [sample2_target] at hv hw
  have eu : u = 4 := by
    rw [hu, sample2_mu]
    simp
    norm_num
  have ev : v = 2 := by
    rw [hv, sample2_mu]
    simp [dotProduct, Fin.sum_univ_two]
  have ew : w = 2 := by
    rw [hw]
    simp [dotProduct]
  have ha : r.alpha = 1 / 2 := by
    rw [h3, eu, ev, ew]
    norm_num
  have hb : r.beta = 1 / 4 := by
    rw [h4, ha, eu, ev]
    norm_num
  refine ⟨r, hr, ha, hb, ?_, u, v, w, hu, by rw [sample2_target]; exact hv, by rw [sample2_target]; exact hw, by rw [eu]; norm_num, by rw [ew]; norm_num, by rw [eu, ev, ew]; norm_num, by rw [eu, ew]; norm_num, by rw [ev]; norm_num⟩
  funext i
  rw [h2, ha, hb, sample2_target, sample2_mu]
  fin_cases i <;> norm_num

/-- **C42**, equilibrium returns: the expected returns for which the given weights (equal weights by default) are the optimum of expected return minus half the risk aversion times the variance. -/
theorem C42_equilibrium (a : K) (w? : Option (Fin n → K)) (cov : Matrix (Fin n) (Fin n) K) (hc : SymPSD cov) (ha : 0 ≤ a) (w : Fin n → K) (hw : w = w?.getD fun _ => 1 / n) (y : Fin n → K) :
    y ⬝ᵥ equilibriumMu a w? cov - a / 2 * (y ⬝ᵥ cov *ᵥ y) ≤ w ⬝ᵥ equilibriumMu a w? cov - a / 2 * (w ⬝ᵥ cov *ᵥ w) := by
  have e : equilibriumMu a w? cov = a • (cov *ᵥ w) := by
    rw [hw]
    cases w? <;> simp [equilibriumMu, smul_mulVec]
  have hsym : w ⬝ᵥ cov *ᵥ y = y ⬝ᵥ cov *ᵥ w := by
    rw [dotProduct_mulVec, ← mulVec_transpose, hc.1, dotProduct_comm]
  have := hc.2 (y - w)
  rw [mulVec_sub, sub_dotProduct, dotProduct_sub, dotProduct_sub, hsym] at this
  rw [e, dotProduct_smul, dotProduct_smul, smul_eq_mul, smul_eq_mul]
  nlinarith

end Skfolio.Moments
