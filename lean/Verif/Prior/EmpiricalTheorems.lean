import Verif.Prior.EmpiricalModel
import Mathlib.Probability.Distributions.Gaussian.Real
import Mathlib.Analysis.SpecialFunctions.Log.Basic

/-! C43. -/
set_option autoImplicit false

namespace Skfolio.Prior

open MeasureTheory ProbabilityTheory

variable {n : Nat}

/-- Specification: `z i` are the logarithmic returns of the assets over the horizon, jointly normal with means `h·m i` and covariances `h·c i j`: each of them and each sum of two is normal. -/
structure LogNormalReturns {Ω : Type} [MeasurableSpace Ω] (P : Measure Ω) (h : ℝ) (m : Fin n → ℝ) (c : Matrix (Fin n) (Fin n) ℝ) (z : Fin n → Ω → ℝ) : Prop where
  measurable : ∀ i, AEMeasurable (z i) P
  one : ∀ i, ∃ v : NNReal, (v : ℝ) = h * c i i ∧ P.map (z i) = gaussianReal (h * m i) v
  two : ∀ i j, ∃ v : NNReal, (v : ℝ) = h * c i i + h * c j j + 2 * (h * c i j) ∧ P.map (fun ω => z i ω + z j ω) = gaussianReal (h * m i + h * m j) v

theorem integral_exp {Ω : Type} [MeasurableSpace Ω] {P : Measure Ω} {X : Ω → ℝ} {a : ℝ} {v : NNReal} (h : P.map X = gaussianReal a v) :
    ∫ ω, Real.exp (X ω) ∂P = Real.exp (a + v / 2) := by
  have := mgf_gaussianReal h 1
  simpa [mgf] using this

theorem integrable_exp {Ω : Type} [MeasurableSpace Ω] {P : Measure Ω} {X : Ω → ℝ} {a : ℝ} {v : NNReal} (hm : AEMeasurable X P) (h : P.map X = gaussianReal a v) :
    Integrable (fun ω => Real.exp (X ω)) P := by
  have := integrable_exp_mul_gaussianReal (μ := a) (v := v) 1
  rw [← h] at this
  have h2 := this.comp_aemeasurable hm
  simpa [Function.comp_def] using h2

/-- The linear return over the horizon. -/
noncomputable def linear {Ω : Type} (z : Ω → ℝ) (ω : Ω) : ℝ := Real.exp (z ω) - 1

/-- **C43**, what holds. With `is_log_normal` the reported covariance is that of the linear returns over the horizon, when the logarithmic returns are normal with the estimated moments;
the reported expected return is that of the gross return: it exceeds the expected linear return by exactly one. Missing: the expected linear return itself (`C43_mean_is_gross`). -/
theorem C43_log_normal_partial {Ω : Type} [MeasurableSpace Ω] (P : Measure Ω) [IsProbabilityMeasure P] {T : Nat} (muOf : (Fin T → Fin n → ℝ) → Fin n → ℝ)
    (covOf : (Fin T → Fin n → ℝ) → Matrix (Fin n) (Fin n) ℝ) (h : ℝ) (x : Fin T → Fin n → ℝ) (z : Fin n → Ω → ℝ)
    (hz : LogNormalReturns P h (muOf fun t i => Real.log (1 + x t i)) (covOf fun t i => Real.log (1 + x t i)) z) :
    ∃ r, empiricalFit muOf covOf (fun y => Real.log (1 + y)) true (some h) x = .ok r ∧
      (∀ i, r.mu i = 1 + ∫ ω, linear (z i) ω ∂P) ∧
      ∀ i j, r.covariance i j = ∫ ω, (linear (z i) ω - ∫ ω, linear (z i) ω ∂P) * (linear (z j) ω - ∫ ω, linear (z j) ω ∂P) ∂P := by
  obtain ⟨m, hm⟩ : ∃ m, m = muOf fun t i => Real.log (1 + x t i) := ⟨_, rfl⟩
  obtain ⟨c, hc⟩ : ∃ c, c = covOf fun t i => Real.log (1 + x t i) := ⟨_, rfl⟩
  rw [← hm, ← hc] at hz
  have hI : ∀ i, Integrable (fun ω => Real.exp (z i ω)) P := fun i => by
    obtain ⟨v, -, e⟩ := hz.one i
    exact integrable_exp (hz.measurable i) e
  have hI2 : ∀ i j, Integrable (fun ω => Real.exp (z i ω + z j ω)) P := fun i j => by
    obtain ⟨v, -, e⟩ := hz.two i j
    exact integrable_exp ((hz.measurable i).add (hz.measurable j)) e
  have hE : ∀ i, ∫ ω, Real.exp (z i ω) ∂P = Real.exp (m i * h + 0.5 * (c i i * h)) := fun i => by
    obtain ⟨v, hv, e⟩ := hz.one i
    rw [integral_exp e, hv]
    congr 1
    ring
  have hE2 : ∀ i j, ∫ ω, Real.exp (z i ω + z j ω) ∂P = Real.exp (m i * h + 0.5 * (c i i * h)) * Real.exp (m j * h + 0.5 * (c j j * h)) * Real.exp (c i j * h) := fun i j => by
    obtain ⟨v, hv, e⟩ := hz.two i j
    rw [integral_exp e, hv, ← Real.exp_add, ← Real.exp_add]
    congr 1
    ring
  have hL : ∀ i, ∫ ω, linear (z i) ω ∂P = Real.exp (m i * h + 0.5 * (c i i * h)) - 1 := fun i => by
    unfold linear
    rw [integral_sub (hI i) (integrable_const 1), hE i]
    simp
  refine ⟨⟨fun i => Real.exp (m i * h + 0.5 * (c i i * h)), fun i j => Real.exp (m i * h + 0.5 * (c i i * h)) * Real.exp (m j * h + 0.5 * (c j j * h)) * (Real.exp (c i j * h) - 1),
    fun i => m i * h, fun i j => c i j * h⟩, ?_, fun i => ?_, fun i j => ?_⟩
  · rw [hm, hc]
    rfl
  · rw [hL]
    ring
  · rw [hL, hL]
    obtain ⟨a, ha⟩ : ∃ a, a = Real.exp (m i * h + 0.5 * (c i i * h)) := ⟨_, rfl⟩
    obtain ⟨b, hb⟩ : ∃ b, b = Real.exp (m j * h + 0.5 * (c j j * h)) := ⟨_, rfl⟩
    have hEi := hE i
    have hEj := hE j
    have hEij := hE2 i j
    rw [← ha, ← hb] at hEij ⊢
    rw [← ha] at hEi
    rw [← hb] at hEj
    have e : ∀ ω, (linear (z i) ω - (a - 1)) * (linear (z j) ω - (b - 1)) = Real.exp (z i ω + z j ω) - b * Real.exp (z i ω) - a * Real.exp (z j ω) + a * b := by
      intro ω
      unfold linear
      rw [Real.exp_add]
      ring
    simp only [e]
    have i1 : Integrable (fun ω => Real.exp (z i ω + z j ω) - b * Real.exp (z i ω)) P := (hI2 i j).sub ((hI i).const_mul b)
    have i2 : Integrable (fun ω => Real.exp (z i ω + z j ω) - b * Real.exp (z i ω) - a * Real.exp (z j ω)) P := i1.sub ((hI j).const_mul a)
    rw [integral_add i2 (integrable_const _), integral_sub i1 ((hI j).const_mul a), integral_sub (hI2 i j) ((hI i).const_mul b), integral_const_mul, integral_const_mul, hEi, hEj, hEij]
    simp only [integral_const, probReal_univ, one_smul]
    rw [ha, hb]
    ring

/-- Finding: the reported expected returns are never those of the linear returns. -/
theorem C43_mean_is_gross {Ω : Type} [MeasurableSpace Ω] (P : Measure Ω) [IsProbabilityMeasure P] {T : Nat} (muOf : (Fin T → Fin n → ℝ) → Fin n → ℝ)
    (covOf : (Fin T → Fin n → ℝ) → Matrix (Fin n) (Fin n) ℝ) (h : ℝ) (x : Fin T → Fin n → ℝ) (z : Fin n → Ω → ℝ)
    (hz : LogNormalReturns P h (muOf fun t i => Real.log (1 + x t i)) (covOf fun t i => Real.log (1 + x t i)) z) (r : EmpiricalFit n)
    (hr : empiricalFit muOf covOf (fun y => Real.log (1 + y)) true (some h) x = .ok r) (i : Fin n) : r.mu i ≠ ∫ ω, linear (z i) ω ∂P := by
  obtain ⟨r', h1, h2, -⟩ := C43_log_normal_partial P muOf covOf h x z hz
  rw [hr] at h1
  cases h1
  rw [h2]
  intro hc
  linarith

/-- **C43.** Without `is_log_normal` the moments are those of the estimators, which are left unchanged; contradictory settings are rejected. -/
theorem C43_settings {T : Nat} (muOf : (Fin T → Fin n → ℝ) → Fin n → ℝ) (covOf : (Fin T → Fin n → ℝ) → Matrix (Fin n) (Fin n) ℝ) (g : ℝ → ℝ) (x : Fin T → Fin n → ℝ) (h : ℝ) :
    empiricalFit muOf covOf g false none x = .ok ⟨muOf x, covOf x, muOf x, covOf x⟩ ∧
    empiricalFit muOf covOf g false (some h) x = .error .horizonGiven ∧ empiricalFit muOf covOf g true none x = .error .horizonMissing := ⟨rfl, rfl, rfl⟩

/-- Finding: with `is_log_normal` the fitted `mu_estimator_` no longer holds its estimate but the estimate times the horizon. -/
theorem C43_estimator_overwritten {T : Nat} (muOf : (Fin T → Fin n → ℝ) → Fin n → ℝ) (covOf : (Fin T → Fin n → ℝ) → Matrix (Fin n) (Fin n) ℝ) (g : ℝ → ℝ) (x : Fin T → Fin n → ℝ) (h : ℝ) :
    ∃ r, empiricalFit muOf covOf g true (some h) x = .ok r ∧ (∀ i, r.estimatorMu i = muOf (fun t i => g (x t i)) i * h) ∧
      ∀ i, h ≠ 1 → muOf (fun t i => g (x t i)) i ≠ 0 → r.estimatorMu i ≠ muOf (fun t i => g (x t i)) i := by
  refine ⟨_, rfl, fun i => rfl, fun i h1 h2 hc => ?_⟩
  simp only at hc
  exact h1 (mul_left_cancel₀ h2 (hc.trans (mul_one _).symm))

/-- The hypothesis of `C43_log_normal_partial` is met: one asset whose logarithmic return over the horizon is standard normal. -/
example : LogNormalReturns (n := 1) (gaussianReal 0 1) 1 (fun _ => 0) (fun _ _ => 1) (fun _ ω => ω) := by
  refine ⟨fun _ => aemeasurable_id', fun _ => ⟨1, by simp, by simp⟩, fun _ _ => ⟨4, by push_cast; norm_num, ?_⟩⟩
  have := gaussianReal_map_const_mul (μ := 0) (v := 1) 2
  have e : (fun ω : ℝ => ω + ω) = fun ω => 2 * ω := by funext ω; ring
  rw [e, this]
  congr 1
  · ring
  · ext
    push_cast
    norm_num

end Skfolio.Prior
