import Verif.Prior.LoadingModel
import Verif.Prior.FactorTheorems
import Mathlib.Algebra.BigOperators.Field
import Mathlib.Tactic.FieldSimp
import Mathlib.Tactic.LinearCombination
import Mathlib.Tactic.Linarith
import Mathlib.Data.List.GetD
import Mathlib.Data.Fin.VecNotation
import Mathlib.Tactic.FinCases

/-! Claim C94: the loadings are one regression per asset, and what the regression makes of the moments of the assets. -/
set_option autoImplicit false

namespace Skfolio.Prior

open Matrix Finset Skfolio.Moments

variable {n k T S : Nat}

/-! ### specification -/

/-- The mean. -/
noncomputable def mean (f : Fin T → ℝ) : ℝ := (∑ t, f t) / T

/-- The sample covariance. -/
noncomputable def cov (f g : Fin T → ℝ) : ℝ := (∑ t, (f t - mean f) * (g t - mean g)) / (T - 1)

/-- What the factors predict. -/
def predicted (y : Matrix (Fin T) (Fin k) ℝ) (e : Fitted k) (t : Fin T) : ℝ := ∑ a, e.coef a * y t a + e.intercept

/-- The residuals. -/
def residuals (y : Matrix (Fin T) (Fin k) ℝ) (z : Fin T → ℝ) (e : Fitted k) (t : Fin T) : ℝ := z t - predicted y e t

/-- The sum of the absolute loadings. -/
def absSum (e : Fitted k) : ℝ := ∑ a, |e.coef a|

/-- The regression with penalty `lam`: the fit, with intercept zero unless intercepts are fitted, minimises the sum of squared residuals over `2 T` plus `lam` times the sum of the absolute loadings.
This is the objective of scikit-learn's `Lasso`, and for `lam = 0` that of `LinearRegression`. -/
def IsRegression (intercept : Bool) (lam : ℝ) (y : Matrix (Fin T) (Fin k) ℝ) (z : Fin T → ℝ) (e : Fitted k) : Prop :=
  (intercept = false → e.intercept = 0) ∧
  ∀ e' : Fitted k, (intercept = false → e'.intercept = 0) →
    (∑ t, residuals y z e t ^ 2) / (2 * T) + lam * absSum e ≤ (∑ t, residuals y z e' t ^ 2) / (2 * T) + lam * absSum e'

/-! ### sample moments -/

theorem mean_add (f g : Fin T → ℝ) : mean (fun t => f t + g t) = mean f + mean g := by
  unfold mean; rw [sum_add_distrib, add_div]

theorem cov_add_left (f g h : Fin T → ℝ) : cov (fun t => f t + g t) h = cov f h + cov g h := by
  unfold cov
  rw [mean_add, ← add_div, ← sum_add_distrib]
  congr 1
  exact sum_congr rfl fun t _ => by ring

theorem cov_comm (f g : Fin T → ℝ) : cov f g = cov g f := by
  unfold cov
  congr 1
  exact sum_congr rfl fun t _ => by ring

theorem cov_add_right (f g h : Fin T → ℝ) : cov h (fun t => f t + g t) = cov h f + cov h g := by
  rw [cov_comm, cov_add_left, cov_comm f, cov_comm g]

theorem mean_const (hT : 0 < T) (c : ℝ) : mean (fun _ : Fin T => c) = c := by
  have : (T : ℝ) ≠ 0 := by exact_mod_cast hT.ne'
  unfold mean
  simp only [sum_const, card_univ, Fintype.card_fin, nsmul_eq_mul]
  field_simp

theorem mean_smul (c : ℝ) (f : Fin T → ℝ) : mean (fun t => c * f t) = c * mean f := by
  unfold mean; rw [← mul_sum, mul_div_assoc]

theorem mean_sum {ι : Type} (s : Finset ι) (f : ι → Fin T → ℝ) : mean (fun t => ∑ a ∈ s, f a t) = ∑ a ∈ s, mean (f a) := by
  unfold mean; rw [sum_comm, sum_div]

theorem cov_const (hT : 0 < T) (c : ℝ) (g : Fin T → ℝ) : cov (fun _ => c) g = 0 := by
  unfold cov
  rw [mean_const hT]
  simp

theorem cov_smul (c : ℝ) (f g : Fin T → ℝ) : cov (fun t => c * f t) g = c * cov f g := by
  unfold cov
  rw [mean_smul, ← mul_div_assoc, mul_sum]
  congr 1
  exact sum_congr rfl fun t _ => by ring

theorem cov_sum {ι : Type} (s : Finset ι) (f : ι → Fin T → ℝ) (g : Fin T → ℝ) : cov (fun t => ∑ a ∈ s, f a t) g = ∑ a ∈ s, cov (f a) g := by
  unfold cov
  rw [mean_sum, ← sum_div, sum_comm]
  congr 1
  refine sum_congr rfl fun t _ => ?_
  rw [← sum_sub_distrib, sum_mul]

/-- The covariance of the predictions with anything. -/
theorem cov_predicted (hT : 0 < T) (y : Matrix (Fin T) (Fin k) ℝ) (e : Fitted k) (g : Fin T → ℝ) : cov (predicted y e) g = ∑ a, e.coef a * cov (fun t => y t a) g := by
  have : predicted y e = fun t => (∑ a, e.coef a * y t a) + e.intercept := rfl
  rw [this, cov_add_left, cov_const hT, add_zero, cov_sum]
  exact sum_congr rfl fun a _ => cov_smul _ _ _

theorem cov_predicted_predicted (hT : 0 < T) (y : Matrix (Fin T) (Fin k) ℝ) (e e' : Fitted k) :
    cov (predicted y e) (predicted y e') = ∑ a, ∑ b, e.coef a * cov (fun t => y t a) (fun t => y t b) * e'.coef b := by
  rw [cov_predicted hT]
  refine sum_congr rfl fun a _ => ?_
  rw [cov_comm, cov_predicted hT, mul_sum]
  exact sum_congr rfl fun b _ => by rw [cov_comm]; ring

theorem split_asset (y : Matrix (Fin T) (Fin k) ℝ) (z : Fin T → ℝ) (e : Fitted k) : z = fun t => predicted y e t + residuals y z e t := by
  funext t; unfold residuals; ring

/-- The covariance of two assets is that of the predictions, that of the residuals, and the mixed terms. -/
theorem cov_split (y : Matrix (Fin T) (Fin k) ℝ) (z z' : Fin T → ℝ) (e e' : Fitted k) :
    cov z z' = cov (predicted y e) (predicted y e') + cov (residuals y z e) (residuals y z' e') + (cov (predicted y e) (residuals y z' e') + cov (predicted y e') (residuals y z e)) := by
  conv_lhs => rw [split_asset y z e, split_asset y z' e', cov_add_left, cov_add_right, cov_add_right]
  rw [cov_comm (residuals y z e) (predicted y e')]
  ring

/-! ### optimality -/

/-- A quadratic that is not negative around zero has no linear term. -/
theorem linear_zero (A B : ℝ) (h : ∀ s : ℝ, -1 < s → s < 1 → 0 ≤ A * s ^ 2 + B * s) : B = 0 := by
  by_contra hB
  rcases lt_trichotomy B 0 with hb | hb | hb
  · have hd : 0 < |A| + |B| + 1 := by positivity
    have h1 : |B| / (2 * (|A| + |B| + 1)) < 1 := by rw [div_lt_one (by positivity)]; linarith [abs_nonneg A, abs_nonneg B]
    have h0 : 0 < |B| / (2 * (|A| + |B| + 1)) := div_pos (abs_pos.2 hB) (by positivity)
    have := h _ (by linarith) h1
    have e : |A| * (|B| / (2 * (|A| + |B| + 1))) < |B| := by
      rw [← mul_div_assoc, div_lt_iff₀ (by positivity)]
      nlinarith [abs_nonneg A, abs_pos.2 hB]
    rw [abs_of_neg hb] at this e h0
    nlinarith [le_abs_self A, mul_pos h0 h0]
  · exact hB hb
  · have hd : 0 < |A| + |B| + 1 := by positivity
    have h1 : |B| / (2 * (|A| + |B| + 1)) < 1 := by rw [div_lt_one (by positivity)]; linarith [abs_nonneg A, abs_nonneg B]
    have h0 : 0 < |B| / (2 * (|A| + |B| + 1)) := div_pos (abs_pos.2 hB) (by positivity)
    have := h (-(|B| / (2 * (|A| + |B| + 1)))) (by linarith) (by linarith)
    have e : |A| * (|B| / (2 * (|A| + |B| + 1))) < |B| := by
      rw [← mul_div_assoc, div_lt_iff₀ (by positivity)]
      nlinarith [abs_nonneg A, abs_pos.2 hB]
    rw [abs_of_pos hb] at this e h0
    nlinarith [le_abs_self A, mul_pos h0 h0]

theorem sq_sum_sub (f g : Fin T → ℝ) (s : ℝ) : ∑ t, (f t - s * g t) ^ 2 = ∑ t, f t ^ 2 - 2 * s * ∑ t, f t * g t + s ^ 2 * ∑ t, g t ^ 2 := by
  rw [mul_sum, mul_sum, ← sum_sub_distrib, ← sum_add_distrib]
  exact sum_congr rfl fun t _ => by ring

/-- The direction `d` in which the penalty is linear with slope `p`: the residuals are orthogonal to the predictions in this direction up to the penalty. -/
theorem stationary (hT : 0 < T) {intercept : Bool} {lam : ℝ} {y : Matrix (Fin T) (Fin k) ℝ} {z : Fin T → ℝ} {e : Fitted k} (h : IsRegression intercept lam y z e)
    (d : Fitted k) (hd : intercept = false → d.intercept = 0) (p : ℝ)
    (hp : ∀ s : ℝ, -1 < s → s < 1 → absSum ⟨fun a => e.coef a + s * d.coef a, e.intercept + s * d.intercept⟩ = absSum e + s * p) :
    ∑ t, residuals y z e t * predicted y d t = T * (lam * p) := by
  have hT' : (0 : ℝ) < T := by exact_mod_cast hT
  have hr : ∀ s t, residuals y z ⟨fun a => e.coef a + s * d.coef a, e.intercept + s * d.intercept⟩ t = residuals y z e t - s * predicted y d t := by
    intro s t
    unfold residuals predicted
    simp only [add_mul, sum_add_distrib, mul_add, mul_sum, mul_assoc]
    ring
  have := linear_zero ((∑ t, predicted y d t ^ 2) / (2 * T)) (lam * p - (∑ t, residuals y z e t * predicted y d t) / T) fun s h1 h2 => by
    have := h.2 ⟨fun a => e.coef a + s * d.coef a, e.intercept + s * d.intercept⟩ (fun hi => by simp only; rw [h.1 hi, hd hi]; ring)
    simp only [hr, hp s h1 h2, sq_sum_sub] at this
    have e2 : (∑ t, residuals y z e t ^ 2 - 2 * s * ∑ t, residuals y z e t * predicted y d t + s ^ 2 * ∑ t, predicted y d t ^ 2) / (2 * T) =
        (∑ t, residuals y z e t ^ 2) / (2 * T) - s * ((∑ t, residuals y z e t * predicted y d t) / T) + s ^ 2 * ((∑ t, predicted y d t ^ 2) / (2 * T)) := by
      field_simp
    rw [e2] at this
    linarith
  have h3 : (∑ t, residuals y z e t * predicted y d t) / T = lam * p := by linarith
  rw [div_eq_iff hT'.ne'] at h3
  linarith

/-- With an intercept, the residuals have mean zero. -/
theorem residuals_mean (hT : 0 < T) {lam : ℝ} {y : Matrix (Fin T) (Fin k) ℝ} {z : Fin T → ℝ} {e : Fitted k} (h : IsRegression true lam y z e) : ∑ t, residuals y z e t = 0 := by
  have := stationary hT h ⟨0, 1⟩ (fun hi => by cases hi) 0 (fun s _ _ => by unfold absSum; simp)
  simpa [predicted] using this

/-- The residuals and the part of the predictions that is due to the factors. -/
theorem residuals_ray (hT : 0 < T) {intercept : Bool} {lam : ℝ} {y : Matrix (Fin T) (Fin k) ℝ} {z : Fin T → ℝ} {e : Fitted k} (h : IsRegression intercept lam y z e) :
    ∑ t, residuals y z e t * ∑ a, e.coef a * y t a = T * (lam * absSum e) := by
  have := stationary hT h ⟨e.coef, 0⟩ (fun _ => rfl) (absSum e) (fun s h1 _ => by
    unfold absSum
    simp only
    rw [mul_sum, ← sum_add_distrib]
    refine sum_congr rfl fun a _ => ?_
    rw [show e.coef a + s * e.coef a = (1 + s) * e.coef a by ring, abs_mul, abs_of_pos (by linarith)]
    ring)
  simpa [predicted] using this

/-- Without penalty, the residuals are orthogonal to every factor. -/
theorem residuals_factor (hT : 0 < T) {intercept : Bool} {y : Matrix (Fin T) (Fin k) ℝ} {z : Fin T → ℝ} {e : Fitted k} (h : IsRegression intercept 0 y z e) (b : Fin k) :
    ∑ t, residuals y z e t * y t b = 0 := by
  have h' : IsRegression intercept 0 y z e := h
  have hT' : (0 : ℝ) < T := by exact_mod_cast hT
  have hr : ∀ s t, residuals y z ⟨fun a => e.coef a + s * (if a = b then 1 else 0), e.intercept⟩ t = residuals y z e t - s * y t b := by
    intro s t
    unfold residuals predicted
    simp only [add_mul, sum_add_distrib]
    simp
    ring
  have := linear_zero ((∑ t, y t b ^ 2) / (2 * T)) (-((∑ t, residuals y z e t * y t b) / T)) fun s _ _ => by
    have := h'.2 ⟨fun a => e.coef a + s * (if a = b then 1 else 0), e.intercept⟩ h'.1
    simp only [hr, zero_mul, add_zero, sq_sum_sub] at this
    have e2 : (∑ t, residuals y z e t ^ 2 - 2 * s * ∑ t, residuals y z e t * y t b + s ^ 2 * ∑ t, y t b ^ 2) / (2 * T) =
        (∑ t, residuals y z e t ^ 2) / (2 * T) - s * ((∑ t, residuals y z e t * y t b) / T) + s ^ 2 * ((∑ t, y t b ^ 2) / (2 * T)) := by
      field_simp
    rw [e2] at this
    linarith
  have h3 : (∑ t, residuals y z e t * y t b) / T = 0 := by linarith
  rw [div_eq_iff hT'.ne'] at h3
  linarith

/-- The covariance of the predictions and the residuals. -/
theorem cov_predicted_residuals (hT : 0 < T) {intercept : Bool} {lam : ℝ} {y : Matrix (Fin T) (Fin k) ℝ} {z : Fin T → ℝ} {e : Fitted k} (h : IsRegression intercept lam y z e) :
    cov (predicted y e) (residuals y z e) = T * (lam * absSum e - mean (fun t => ∑ a, e.coef a * y t a) * mean (residuals y z e)) / (T - 1) := by
  have hT' : (T : ℝ) ≠ 0 := by exact_mod_cast hT.ne'
  have : predicted y e = fun t => (∑ a, e.coef a * y t a) + e.intercept := rfl
  rw [this, cov_add_left, cov_const hT, add_zero]
  unfold cov
  congr 1
  have h1 := residuals_ray hT h
  have h2 : ∑ t, residuals y z e t = T * mean (residuals y z e) := by unfold mean; field_simp
  have h3 : ∑ t, (∑ a, e.coef a * y t a) = T * mean (fun t => ∑ a, e.coef a * y t a) := by unfold mean; field_simp
  generalize mean (residuals y z e) = m at *
  generalize mean (fun t => ∑ a, e.coef a * y t a) = q at *
  calc ∑ t, ((∑ a, e.coef a * y t a) - q) * (residuals y z e t - m)
      = ∑ t, (residuals y z e t * (∑ a, e.coef a * y t a) - q * residuals y z e t - m * (∑ a, e.coef a * y t a) + q * m) := sum_congr rfl fun t _ => by ring
    _ = T * (lam * absSum e) - q * (T * m) - m * (T * q) + T * (q * m) := by
        rw [sum_add_distrib, sum_sub_distrib, sum_sub_distrib, ← mul_sum, ← mul_sum, h1, h2, h3]
        simp
    _ = _ := by ring

/-! ### the loadings -/

theorem estimators_getD (regress : Matrix (Fin T) (Fin k) ℝ → (Fin T → ℝ) → Fitted k) (x : Matrix (Fin T) (Fin n) ℝ) (y : Matrix (Fin T) (Fin k) ℝ) (i : Fin n) :
    (estimators regress y x).getD i ⟨0, 0⟩ = regress y fun t => x t i := by
  unfold estimators
  rw [List.getD_eq_getElem _ _ (by simp)]
  simp

/-- **C94.** Row `i` of the loadings and intercept `i` are those of the regression of asset `i` on the factors, whatever the other assets. -/
theorem C94_rows (regress : Matrix (Fin T) (Fin k) ℝ → (Fin T → ℝ) → Fitted k) (x : Matrix (Fin T) (Fin n) ℝ) (y : Matrix (Fin T) (Fin k) ℝ) (i : Fin n) :
    (loadingFit regress x y).1 i = (regress y fun t => x t i).coef ∧ (loadingFit regress x y).2 i = (regress y fun t => x t i).intercept := by
  unfold loadingFit
  simp only [estimators_getD, and_self]

/-- **C94.** Assets dropped, added or in another order do not change the loadings of an asset. -/
theorem C94_assets_alone {m : Nat} (regress : Matrix (Fin T) (Fin k) ℝ → (Fin T → ℝ) → Fitted k) (x : Matrix (Fin T) (Fin n) ℝ) (y : Matrix (Fin T) (Fin k) ℝ) (sel : Fin m → Fin n) (j : Fin m) :
    (loadingFit regress (fun t j => x t (sel j)) y).1 j = (loadingFit regress x y).1 (sel j) ∧ (loadingFit regress (fun t j => x t (sel j)) y).2 j = (loadingFit regress x y).2 (sel j) := by
  exact ⟨(C94_rows regress _ y j).1.trans (C94_rows regress x y (sel j)).1.symm, (C94_rows regress _ y j).2.trans (C94_rows regress x y (sel j)).2.symm⟩

/-! ### the moments of the factor model -/

/-- The prior of the factors has the sample moments, as the default `EmpiricalPrior` has when the sample covariance is positive definite. -/
def SampleMoments (prior : Matrix (Fin T) (Fin k) ℝ → FactorMoments k S) (y : Matrix (Fin T) (Fin k) ℝ) : Prop :=
  (∀ a, (prior y).mu a = mean fun t => y t a) ∧ ∀ a b, (prior y).covariance a b = cov (fun t => y t a) fun t => y t b

theorem explained_eq (hT : 0 < T) (regress : Matrix (Fin T) (Fin k) ℝ → (Fin T → ℝ) → Fitted k) (prior : Matrix (Fin T) (Fin k) ℝ → FactorMoments k S) (x : Matrix (Fin T) (Fin n) ℝ)
    (y : Matrix (Fin T) (Fin k) ℝ) (hm : SampleMoments prior y) (i j : Fin n) :
    explained true (factorInput regress prior x y) i j =
      cov (predicted y (regress y fun t => x t i)) (predicted y (regress y fun t => x t j)) +
        if i = j then cov (residuals y (fun t => x t i) (regress y fun t => x t i)) (residuals y (fun t => x t i) (regress y fun t => x t i)) else 0 := by
  unfold explained
  rw [cov_predicted_predicted hT]
  simp only [factorInput, (C94_rows regress x y _).1, (C94_rows regress x y _).2, hm.2, true_and]
  congr 1
  by_cases hij : i = j
  · rw [if_pos hij, if_pos hij]
    unfold cov
    congr 1
    exact sum_congr rfl fun t _ => by rw [sq]; rfl
  · rw [if_neg hij, if_neg hij]

theorem mu_eq (regress : Matrix (Fin T) (Fin k) ℝ → (Fin T → ℝ) → Fitted k) (prior : Matrix (Fin T) (Fin k) ℝ → FactorMoments k S) (x : Matrix (Fin T) (Fin n) ℝ) (y : Matrix (Fin T) (Fin k) ℝ)
    (hm : SampleMoments prior y) (hT : 0 < T) (i : Fin n) :
    ∑ a, (factorInput regress prior x y).loading i a * (factorInput regress prior x y).factorMu a + (factorInput regress prior x y).intercepts i =
      mean (fun t => x t i) - mean (residuals y (fun t => x t i) (regress y fun t => x t i)) := by
  have e : mean (fun t => x t i) = mean (predicted y (regress y fun t => x t i)) + mean (residuals y (fun t => x t i) (regress y fun t => x t i)) := by
    rw [← mean_add]
    exact congrArg mean (split_asset y _ _)
  have e2 : mean (predicted y (regress y fun t => x t i)) = ∑ a, (regress y fun t => x t i).coef a * mean (fun t => y t a) + (regress y fun t => x t i).intercept := by
    have : predicted y (regress y fun t => x t i) = fun t => (∑ a, (regress y fun t => x t i).coef a * y t a) + (regress y fun t => x t i).intercept := rfl
    rw [this, mean_add, mean_const hT, mean_sum]
    simp only [mean_smul]
  rw [e, e2]
  simp only [factorInput, (C94_rows regress x y _).1, (C94_rows regress x y _).2, hm.1]
  ring

section
variable {isPD : Matrix (Fin n) (Fin n) ℝ → Bool} {eigh : Matrix (Fin n) (Fin n) ℝ → (Fin n → ℝ) × Matrix (Fin n) (Fin n) ℝ}

/-- What `FactorModel.fit` reports, for any regression: the mean without the mean of the residuals, and the variance without twice the covariance of the predictions and the residuals. -/
theorem reported (hnum : Numerics isPD eigh) (higham : Bool) (maxIter : Nat) (chol : Matrix (Fin k) (Fin k) ℝ → Option (Matrix (Fin k) (Fin k) ℝ)) (hchol : ∀ s l, chol s = some l → l * lᵀ = s)
    (regress : Matrix (Fin T) (Fin k) ℝ → (Fin T → ℝ) → Fitted k) (prior : Matrix (Fin T) (Fin k) ℝ → FactorMoments k S) (x : Matrix (Fin T) (Fin n) ℝ) (y : Matrix (Fin T) (Fin k) ℝ)
    (hS : 0 < S) (hm : SampleMoments prior y) (hT : 2 ≤ T) (hpos : ∀ i, 0 < explained true (factorInput regress prior x y) i i) (p : FactorPrior n k S)
    (h : factorFit chol (covNearest isPD eigh higham maxIter) true (factorInput regress prior x y) = .ok p) (i : Fin n) :
    p.mu i = mean (fun t => x t i) - mean (residuals y (fun t => x t i) (regress y fun t => x t i)) ∧
    p.covariance i i = cov (fun t => x t i) (fun t => x t i) - 2 * cov (predicted y (regress y fun t => x t i)) (residuals y (fun t => x t i) (regress y fun t => x t i)) := by
  constructor
  · rw [(C36_mean chol _ true _ hS p h).1 i, mu_eq regress prior x y hm (by omega)]
  · rw [(C36_covariance hnum higham maxIter chol hchol true _ hT hpos p h).2.2.2 i, explained_eq (by omega) regress prior x y hm, if_pos rfl,
      cov_split y (fun t => x t i) (fun t => x t i) (regress y fun t => x t i) (regress y fun t => x t i)]
    ring

/-- **C94.** With `LinearRegression` and the empirical prior of the factors, the factor model reports the sample mean and the sample variance of every asset. -/
theorem C94_least_squares (hnum : Numerics isPD eigh) (higham : Bool) (maxIter : Nat) (chol : Matrix (Fin k) (Fin k) ℝ → Option (Matrix (Fin k) (Fin k) ℝ)) (hchol : ∀ s l, chol s = some l → l * lᵀ = s)
    (regress : Matrix (Fin T) (Fin k) ℝ → (Fin T → ℝ) → Fitted k) (prior : Matrix (Fin T) (Fin k) ℝ → FactorMoments k S) (x : Matrix (Fin T) (Fin n) ℝ) (y : Matrix (Fin T) (Fin k) ℝ)
    (hS : 0 < S) (hm : SampleMoments prior y) (hT : 2 ≤ T) (hreg : ∀ i, IsRegression true 0 y (fun t => x t i) (regress y fun t => x t i))
    (hpos : ∀ i, 0 < cov (fun t => x t i) (fun t => x t i)) (p : FactorPrior n k S)
    (h : factorFit chol (covNearest isPD eigh higham maxIter) true (factorInput regress prior x y) = .ok p) (i : Fin n) :
    p.mu i = mean (fun t => x t i) ∧ p.covariance i i = cov (fun t => x t i) (fun t => x t i) := by
  have hT0 : 0 < T := by omega
  have hc : ∀ i, cov (predicted y (regress y fun t => x t i)) (residuals y (fun t => x t i) (regress y fun t => x t i)) = 0 := fun i => by
    rw [cov_predicted_residuals hT0 (hreg i), show mean (residuals y (fun t => x t i) (regress y fun t => x t i)) = 0 by unfold mean; rw [residuals_mean hT0 (hreg i), zero_div]]
    simp
  have hpos' : ∀ i, 0 < explained true (factorInput regress prior x y) i i := fun i => by
    have := hpos i
    rw [cov_split y (fun t => x t i) (fun t => x t i) (regress y fun t => x t i) (regress y fun t => x t i), hc i] at this
    rw [explained_eq hT0 regress prior x y hm, if_pos rfl]
    linarith
  obtain ⟨h1, h2⟩ := reported hnum higham maxIter chol hchol regress prior x y hS hm hT hpos' p h i
  constructor
  · rw [h1]
    unfold mean
    rw [residuals_mean hT0 (hreg i)]
    simp
  · rw [h2, hc i]; ring

/-- **C94.** With `LinearRegression`, what is left out of the covariance of two assets is the covariance of their residuals. -/
theorem C94_least_squares_covariances (hnum : Numerics isPD eigh) (higham : Bool) (maxIter : Nat) (chol : Matrix (Fin k) (Fin k) ℝ → Option (Matrix (Fin k) (Fin k) ℝ))
    (hchol : ∀ s l, chol s = some l → l * lᵀ = s) (regress : Matrix (Fin T) (Fin k) ℝ → (Fin T → ℝ) → Fitted k) (prior : Matrix (Fin T) (Fin k) ℝ → FactorMoments k S) (x : Matrix (Fin T) (Fin n) ℝ)
    (y : Matrix (Fin T) (Fin k) ℝ) (hm : SampleMoments prior y) (hT : 2 ≤ T) (hreg : ∀ i, IsRegression true 0 y (fun t => x t i) (regress y fun t => x t i))
    (hpd : PD (explained true (factorInput regress prior x y))) (hpos : ∀ i, 0 < explained true (factorInput regress prior x y) i i) (p : FactorPrior n k S)
    (h : factorFit chol (covNearest isPD eigh higham maxIter) true (factorInput regress prior x y) = .ok p) (i j : Fin n) (hij : i ≠ j) :
    p.covariance i j = cov (fun t => x t i) (fun t => x t j) -
      cov (residuals y (fun t => x t i) (regress y fun t => x t i)) (residuals y (fun t => x t j) (regress y fun t => x t j)) := by
  have hT0 : 0 < T := by omega
  have hz : ∀ i j, cov (predicted y (regress y fun t => x t i)) (residuals y (fun t => x t j) (regress y fun t => x t j)) = 0 := fun i j => by
    rw [cov_predicted hT0]
    refine sum_eq_zero fun a _ => ?_
    have h0 : mean (residuals y (fun t => x t j) (regress y fun t => x t j)) = 0 := by unfold mean; rw [residuals_mean hT0 (hreg j), zero_div]
    unfold cov
    rw [h0]
    simp only [sub_zero, sub_mul, sum_sub_distrib, ← mul_sum, residuals_mean hT0 (hreg j), mul_zero]
    rw [sum_congr rfl fun t _ => mul_comm (y t a) _, residuals_factor hT0 (hreg j) a]
    simp
  rw [(C36_covariance hnum higham maxIter chol hchol true _ hT hpos p h).2.1 hpd, explained_eq hT0 regress prior x y hm, if_neg hij,
    cov_split y (fun t => x t i) (fun t => x t j) (regress y fun t => x t i) (regress y fun t => x t j), hz i j, hz j i]
  ring

/-- **C94** (negated for the lasso). With a lasso that fits intercepts the reported means are the sample means, but the reported variance is smaller than the sample variance, by `2 T / (T - 1)` times the penalty
times the sum of the absolute loadings. -/
theorem C94_lasso_understates (hnum : Numerics isPD eigh) (higham : Bool) (maxIter : Nat) (chol : Matrix (Fin k) (Fin k) ℝ → Option (Matrix (Fin k) (Fin k) ℝ)) (hchol : ∀ s l, chol s = some l → l * lᵀ = s)
    (regress : Matrix (Fin T) (Fin k) ℝ → (Fin T → ℝ) → Fitted k) (prior : Matrix (Fin T) (Fin k) ℝ → FactorMoments k S) (x : Matrix (Fin T) (Fin n) ℝ) (y : Matrix (Fin T) (Fin k) ℝ)
    (hS : 0 < S) (hm : SampleMoments prior y) (hT : 2 ≤ T) (lam : Fin n → ℝ) (hreg : ∀ i, IsRegression true (lam i) y (fun t => x t i) (regress y fun t => x t i))
    (hpos : ∀ i, 0 < explained true (factorInput regress prior x y) i i) (p : FactorPrior n k S)
    (h : factorFit chol (covNearest isPD eigh higham maxIter) true (factorInput regress prior x y) = .ok p) (i : Fin n) :
    p.mu i = mean (fun t => x t i) ∧
    p.covariance i i = cov (fun t => x t i) (fun t => x t i) - 2 * T / (T - 1) * (lam i * absSum (regress y fun t => x t i)) ∧
    (0 < lam i → (regress y fun t => x t i).coef ≠ 0 → p.covariance i i < cov (fun t => x t i) (fun t => x t i)) := by
  have hT0 : 0 < T := by omega
  obtain ⟨h1, h2⟩ := reported hnum higham maxIter chol hchol regress prior x y hS hm hT hpos p h i
  have h0 : mean (residuals y (fun t => x t i) (regress y fun t => x t i)) = 0 := by unfold mean; rw [residuals_mean hT0 (hreg i), zero_div]
  rw [h0, sub_zero] at h1
  rw [cov_predicted_residuals hT0 (hreg i), h0, mul_zero, sub_zero] at h2
  have e : p.covariance i i = cov (fun t => x t i) (fun t => x t i) - 2 * T / (T - 1) * (lam i * absSum (regress y fun t => x t i)) := by rw [h2]; ring
  refine ⟨h1, e, fun hl hne => ?_⟩
  have hT' : (2 : ℝ) ≤ T := by exact_mod_cast hT
  have hs : 0 < absSum (regress y fun t => x t i) := by
    obtain ⟨a, ha⟩ := Function.ne_iff.1 hne
    exact sum_pos' (fun _ _ => abs_nonneg _) ⟨a, mem_univ _, abs_pos.2 ha⟩
  rw [e]
  have : 0 < 2 * (T : ℝ) / (T - 1) * (lam i * absSum (regress y fun t => x t i)) := mul_pos (div_pos (by linarith) (by linarith)) (mul_pos hl hs)
  linarith

/-- **C94** (the default). `LassoCV(fit_intercept=False)`: the reported mean leaves out the mean of the residuals, and the variance is wrong by the penalty and by the means. -/
theorem C94_default_partial (hnum : Numerics isPD eigh) (higham : Bool) (maxIter : Nat) (chol : Matrix (Fin k) (Fin k) ℝ → Option (Matrix (Fin k) (Fin k) ℝ)) (hchol : ∀ s l, chol s = some l → l * lᵀ = s)
    (regress : Matrix (Fin T) (Fin k) ℝ → (Fin T → ℝ) → Fitted k) (prior : Matrix (Fin T) (Fin k) ℝ → FactorMoments k S) (x : Matrix (Fin T) (Fin n) ℝ) (y : Matrix (Fin T) (Fin k) ℝ)
    (hS : 0 < S) (hm : SampleMoments prior y) (hT : 2 ≤ T) (lam : Fin n → ℝ) (hreg : ∀ i, IsRegression false (lam i) y (fun t => x t i) (regress y fun t => x t i))
    (hpos : ∀ i, 0 < explained true (factorInput regress prior x y) i i) (p : FactorPrior n k S)
    (h : factorFit chol (covNearest isPD eigh higham maxIter) true (factorInput regress prior x y) = .ok p) (i : Fin n) :
    p.mu i = mean (fun t => x t i) - mean (residuals y (fun t => x t i) (regress y fun t => x t i)) ∧
    p.covariance i i = cov (fun t => x t i) (fun t => x t i) -
      2 * T / (T - 1) * (lam i * absSum (regress y fun t => x t i) - p.mu i * mean (residuals y (fun t => x t i) (regress y fun t => x t i))) ∧
    ((regress y fun t => x t i).coef = 0 → p.mu i = 0 ∧ p.covariance i i = cov (fun t => x t i) (fun t => x t i)) := by
  have hT0 : 0 < T := by omega
  obtain ⟨h1, h2⟩ := reported hnum higham maxIter chol hchol regress prior x y hS hm hT hpos p h i
  have hq : p.mu i = mean (fun t => ∑ a, (regress y fun t => x t i).coef a * y t a) := by
    rw [(C36_mean chol _ true _ hS p h).1 i, mean_sum]
    simp only [mean_smul]
    have := (hreg i).1 rfl
    simp only [factorInput, (C94_rows regress x y _).1, (C94_rows regress x y _).2, hm.1, this, add_zero]
  have e : p.covariance i i = cov (fun t => x t i) (fun t => x t i) -
      2 * T / (T - 1) * (lam i * absSum (regress y fun t => x t i) - p.mu i * mean (residuals y (fun t => x t i) (regress y fun t => x t i))) := by
    rw [h2, cov_predicted_residuals hT0 (hreg i), ← hq]; ring
  refine ⟨h1, e, fun hz => ?_⟩
  have hmu : p.mu i = 0 := by
    rw [hq, hz]
    simp [mean]
  refine ⟨hmu, ?_⟩
  rw [e, hmu, show absSum (regress y fun t => x t i) = 0 by unfold absSum; rw [hz]; simp]
  simp

end

/-! ### examples -/

/-- The factor moments are the sample moments. -/
noncomputable def samplePrior (y : Matrix (Fin 2) (Fin 1) ℝ) : FactorMoments 1 2 := ⟨fun a => mean fun t => y t a, fun a b => cov (fun t => y t a) fun t => y t b, y⟩

/-- One asset, one factor, two observations: `x = 3 y`. -/
def xEx : Matrix (Fin 2) (Fin 1) ℝ := fun t _ => if t = 0 then 3 else -3
def yEx : Matrix (Fin 2) (Fin 1) ℝ := fun t _ => if t = 0 then 1 else -1

theorem example_residuals (e : Fitted 1) : residuals yEx (fun t => xEx t 0) e 0 = 3 - e.coef 0 - e.intercept ∧ residuals yEx (fun t => xEx t 0) e 1 = -3 + e.coef 0 - e.intercept := by
  simp [residuals, predicted, xEx, yEx]
  constructor <;> ring

/-- The lasso with penalty `1` has the loading 2, with or without an intercept; without penalty the loading is 3. -/
theorem example_regression (intercept : Bool) : IsRegression intercept 1 yEx (fun t => xEx t 0) ⟨fun _ => 2, 0⟩ ∧ IsRegression intercept 0 yEx (fun t => xEx t 0) ⟨fun _ => 3, 0⟩ := by
  refine ⟨⟨fun _ => rfl, fun e' _ => ?_⟩, ⟨fun _ => rfl, fun e' _ => ?_⟩⟩
  · rw [Fin.sum_univ_two, Fin.sum_univ_two, (example_residuals _).1, (example_residuals _).2, (example_residuals e').1, (example_residuals e').2]
    unfold absSum
    simp only [Fin.sum_univ_one]
    have := le_abs_self (e'.coef 0)
    norm_num
    nlinarith [sq_nonneg (e'.coef 0 - 2), sq_nonneg e'.intercept]
  · rw [Fin.sum_univ_two, Fin.sum_univ_two, (example_residuals _).1, (example_residuals _).2, (example_residuals e').1, (example_residuals e').2]
    norm_num
    positivity

theorem example_explained (c : ℝ) (hc : c ≠ 0) (i : Fin 1) : 0 < explained true (factorInput (fun _ _ => ⟨fun _ => c, 0⟩) samplePrior xEx yEx) i i := by
  rw [explained_eq (by norm_num) _ samplePrior xEx yEx ⟨fun _ => rfl, fun _ _ => rfl⟩, if_pos rfl]
  have : 0 < c ^ 2 := by positivity
  simp [cov, mean, residuals, predicted, yEx, xEx, Fin.sum_univ_two]
  norm_num
  nlinarith [sq_nonneg (3 - c), sq_nonneg (-3 + c)]

/-- `np.linalg.cholesky` of a matrix with one entry. -/
noncomputable def cholOne (s : Matrix (Fin 1) (Fin 1) ℝ) : Option (Matrix (Fin 1) (Fin 1) ℝ) :=
  open Classical in if 0 < s 0 0 then some (Matrix.of fun _ _ => Real.sqrt (s 0 0)) else none

theorem cholOne_spec (s l : Matrix (Fin 1) (Fin 1) ℝ) (h : cholOne s = some l) : l * lᵀ = s := by
  classical
  unfold cholOne at h
  split at h
  · rename_i hp
    cases h
    ext i j
    rw [Subsingleton.elim i 0, Subsingleton.elim j 0, Matrix.mul_apply, Fin.sum_univ_one]
    exact Real.mul_self_sqrt hp.le
  · cases h

theorem example_fits (c : ℝ) (hc : c ≠ 0) : ∃ isPD eigh p, Numerics (n := 1) isPD eigh ∧
    factorFit cholOne (covNearest isPD eigh false 100) true (factorInput (fun _ _ => ⟨fun _ => c, 0⟩) samplePrior xEx yEx) = .ok p := by
  classical
  obtain ⟨isPD, eigh, hnum⟩ := numerics_exist (n := 1)
  obtain ⟨r, hr⟩ := (C50_nearest hnum false 100 (rawCovariance true (factorInput (fun _ _ => ⟨fun _ => c, 0⟩) samplePrior xEx yEx)) (fun i => by rw [rawCovariance_eq]; exact example_explained c hc i)).2.2.2
    (fun i j => by rw [Subsingleton.elim i j]) rfl
  have hch : 0 < (factorInput (n := 1) (fun _ _ => ⟨fun _ => c, 0⟩) samplePrior xEx yEx).factorCov 0 0 := by
    simp [factorInput, samplePrior, cov, mean, yEx, Fin.sum_univ_two]
  refine ⟨isPD, eigh, ?_⟩
  unfold factorFit cholOne
  rw [if_pos hch]
  simp only [hr]
  exact ⟨_, hnum, rfl⟩

/-- The hypotheses of `C94_least_squares` are met: mean 0 and variance 18. -/
example : ∃ isPD eigh p, Numerics (n := 1) isPD eigh ∧ factorFit cholOne (covNearest isPD eigh false 100) true (factorInput (fun _ _ => ⟨fun _ => 3, 0⟩) samplePrior xEx yEx) = .ok p ∧
    p.mu 0 = 0 ∧ p.covariance 0 0 = 18 := by
  obtain ⟨isPD, eigh, p, hnum, h⟩ := example_fits 3 (by norm_num)
  have hv : cov (fun t => xEx t 0) (fun t => xEx t 0) = 18 := by simp [cov, mean, xEx, Fin.sum_univ_two]; norm_num
  obtain ⟨h1, h2⟩ := C94_least_squares hnum false 100 cholOne cholOne_spec _ samplePrior xEx yEx (by norm_num) ⟨fun _ => rfl, fun _ _ => rfl⟩ (le_refl 2)
    (fun i => by rw [Subsingleton.elim i 0]; exact (example_regression true).2) (fun i => by rw [Subsingleton.elim i 0, hv]; norm_num) p h 0
  exact ⟨isPD, eigh, p, hnum, h, by rw [h1]; simp [mean, xEx, Fin.sum_univ_two], by rw [h2, hv]⟩

/-- The hypotheses of `C94_lasso_understates` are met: the variance of the asset is 18, the factor model reports 10. -/
example : ∃ isPD eigh p, Numerics (n := 1) isPD eigh ∧ factorFit cholOne (covNearest isPD eigh false 100) true (factorInput (fun _ _ => ⟨fun _ => 2, 0⟩) samplePrior xEx yEx) = .ok p ∧
    cov (fun t => xEx t 0) (fun t => xEx t 0) = 18 ∧ p.covariance 0 0 = 10 := by
  obtain ⟨isPD, eigh, p, hnum, h⟩ := example_fits 2 (by norm_num)
  have hv : cov (fun t => xEx t 0) (fun t => xEx t 0) = 18 := by simp [cov, mean, xEx, Fin.sum_univ_two]; norm_num
  obtain ⟨-, h2, -⟩ := C94_lasso_understates hnum false 100 cholOne cholOne_spec _ samplePrior xEx yEx (by norm_num) ⟨fun _ => rfl, fun _ _ => rfl⟩ (le_refl 2) (fun _ => 1)
    (fun i => by rw [Subsingleton.elim i 0]; exact (example_regression true).1) (example_explained 2 (by norm_num)) p h 0
  exact ⟨isPD, eigh, p, hnum, h, hv, by rw [h2, hv]; simp [absSum]; norm_num⟩

/-- And those of `C94_default_partial`. -/
example : ∃ isPD eigh p, Numerics (n := 1) isPD eigh ∧ factorFit cholOne (covNearest isPD eigh false 100) true (factorInput (fun _ _ => ⟨fun _ => 2, 0⟩) samplePrior xEx yEx) = .ok p ∧
    IsRegression false 1 yEx (fun t => xEx t 0) ⟨fun _ => 2, 0⟩ := by
  obtain ⟨isPD, eigh, p, hnum, h⟩ := example_fits 2 (by norm_num)
  exact ⟨isPD, eigh, p, hnum, h, (example_regression false).1⟩

/-- An asset with mean return 2 for which the lasso without intercept selects no factor: its reported mean is 0. -/
example : IsRegression false 3 yEx ![5, -1] ⟨fun _ => 0, 0⟩ ∧ mean ![(5 : ℝ), -1] = 2 := by
  constructor
  · refine ⟨fun _ => rfl, fun e' h => ?_⟩
    have h0 := h rfl
    have := le_abs_self (e'.coef 0)
    simp [residuals, predicted, yEx, absSum, Fin.sum_univ_two, h0]
    nlinarith [sq_nonneg (e'.coef 0)]
  · simp [mean, Fin.sum_univ_two]; norm_num

end Skfolio.Prior
