import Verif.Uncertainty.RatioModel
import Verif.Uncertainty.CovTheorems
import Verif.Convex.RatioFindings

/-!
**C64**, continued: maximising the ratio with an uncertainty set of covariances.
-/
set_option autoImplicit false

namespace Skfolio.Uncertainty

open Skfolio.Convex

section
variable {n T : Nat}

/-- `v` is the worst variance of the portfolio `w` over the uncertainty set. -/
def IsWorstVariance (u : CovSet n) (w : Fin n → ℝ) (v : ℝ) : Prop := IsLUB {y | ∃ C, PlausibleCov u.cov u.kappa u.R C ∧ y = varianceUnder C w} v

/-- The portfolios the user allows: within all limits; `max_variance` is a limit on the worst variance. -/
structure WorstAllowed (m : MeanRisk n T) (u : CovSet n) (w : Fin n → ℝ) : Prop where
  limits : RespectsLimits m.weights w
  cardinality : RespectsCardinality m.weights w
  returns : RespectsReturnLimits m w
  risks : ∀ r x, r ≠ .variance → m.riskLimits r = some x → ∃ a, (riskProgram m r w 1).feasible a ∧ (riskProgram m r w 1).risk a ≤ x
  variance : ∀ x v, m.riskLimits .variance = some x → IsWorstVariance u w v → v ≤ x

/-- The rest of the problem: the variance is not limited. -/
noncomputable def withoutVariance (m : MeanRisk n T) : MeanRisk n T := { m with riskMeasure := .variance, riskLimits := fun r => if r = .variance then none else m.riskLimits r }

theorem withoutVariance_limit (m : MeanRisk n T) (r : RiskMeasure) (x : ℝ) (h : (withoutVariance m).riskLimits r = some x) : r ≠ .variance ∧ m.riskLimits r = some x := by
  unfold withoutVariance at h
  simp only at h
  split_ifs at h with h1
  exact ⟨h1, h⟩

theorem withoutVariance_limit' (m : MeanRisk n T) (r : RiskMeasure) (x : ℝ) (h1 : r ≠ .variance) (h : m.riskLimits r = some x) : (withoutVariance m).riskLimits r = some x := by
  unfold withoutVariance
  simp only [if_neg h1, h]

/-- The program of the worst case is met by scaling: a portfolio with worst variance `v`, scaled by `l`, has a point of value at most `l * v`. -/
theorem worst_scaled (m : MeanRisk n T) (hs : 0 < m.scale) (u : CovSet n) (hcov : ∀ x, x ≠ 0 → 0 < varianceUnder u.cov x) (hkappa : 0 ≤ u.kappa) (hR : u.R.transpose = u.R) (w : Fin n → ℝ) (v : ℝ) (hv : IsWorstVariance u w v)
    (l : ℝ) (hl : 0 < l) : ∃ a, (worstProgram m u (scaled l w) l).feasible a ∧ (worstProgram m u (scaled l w) l).risk a ≤ l * v := by
  refine dual_attained u.cov hcov u.kappa hkappa u.R hR (scaled l w) l m.scale hl hs (l * v) fun C hC => ?_
  have e : (fun i => scaled l w i / l) = w := by
    funext i
    simp only [scaled]
    rw [mul_div_cancel_left₀ _ hl.ne']
  rw [e]
  exact mul_le_mul_of_nonneg_left (hv.1 ⟨C, hC, rfl⟩) hl.le

theorem worst_returned (m : MeanRisk n T) (hs : 0 < m.scale) (u : CovSet n) (hkappa : 0 ≤ u.kappa) (hR : u.R.transpose = u.R) (w : Fin n → ℝ) (k : ℝ) (hk : 0 < k) (v : ℝ) (hv : IsWorstVariance u (returnedWeights w k) v)
    (a : (worstProgram m u w k).Aux) (ha : (worstProgram m u w k).feasible a) : k * v ≤ (worstProgram m u w k).risk a := by
  have : v ≤ (worstProgram m u w k).risk a / k := by
    refine hv.2 ?_
    rintro _ ⟨C, hC, rfl⟩
    rw [le_div_iff₀ hk, mul_comm]
    exact C64_bound u.cov u.kappa hkappa u.R hR w k m.scale hk hs a ha C hC
  rw [le_div_iff₀ hk] at this
  linarith

section
variable (m : MeanRisk n T) (hs : 0 < m.scale) (hso : 0 < m.scaleObjective) (cs : List (Constraint ℝ n)) (hr : m.objective = .maximizeRatio)
  (hcs : getWeightConstraints m.weights (factorIsVariable m) true m.scale = .ok cs) (u : CovSet n) (hkappa : 0 ≤ u.kappa) (hR : u.R.transpose = u.R)
  (w : Fin n → ℝ) (k : ℝ) (hk : 0 < k) (a : (worstProgram m u w k).Aux) (h : WorstRatioOptimum m u cs w k a)
include hs hkappa hR hk h

/-- **C64.** With an uncertainty set, `max_variance` holds for the returned weights also when the ratio is maximised: their worst variance is within the limit. -/
theorem C64_ratio_limit (v : ℝ) (hv : IsWorstVariance u (returnedWeights w k) v) (x : ℝ) (hx : m.riskLimits .variance = some x) : v ≤ x := by
  have h1 := h.1.risks.2 x hx
  rw [mul_le_mul_iff_left₀ hs] at h1
  have h2 := (worst_returned m hs u hkappa hR w k hk v hv a h.1.aux).trans h1
  rw [mul_comm x k] at h2
  exact (mul_le_mul_iff_right₀ hk).1 h2

include hso hr hcs in
/-- **C64.** Maximising the ratio with an uncertainty set of covariances: the returned portfolio has the largest ratio of excess return to the worst *variance* (plus the l1 penalty), cross-multiplied. -/
theorem C64_ratio (hcov : ∀ x, x ≠ 0 → 0 < varianceUnder u.cov x) (hte : m.maxTrackingError = none) (hsv : m.riskLimits .semiVariance = none) (h2 : m.l2Coef = 0)
    (v : ℝ) (hv : IsWorstVariance u (returnedWeights w k) v)
    (w' : Fin n → ℝ) (hw' : WorstAllowed m u w') (he : 0 < excessReturn m w') (v' : ℝ) (hv' : IsWorstVariance u w' v')
    (hM : isMip m.weights = true → homogenizationFactor m.data.mu / excessReturn m w' ≤ 1000 ∧ ∀ i, |homogenizationFactor m.data.mu / excessReturn m w' * w' i| ≤ 1000)
    (hpos : isAffine m ∨ 0 ≤ v' + m.l1Coef * ∑ i, |w' i|) :
    0 < excessReturn m (returnedWeights w k) ∧
      excessReturn m w' * (v + m.l1Coef * ∑ i, |returnedWeights w k i|) ≤ excessReturn m (returnedWeights w k) * (v' + m.l1Coef * ∑ i, |w' i|) := by
  obtain ⟨c, hc⟩ : ∃ c, c = homogenizationFactor m.data.mu := ⟨_, rfl⟩
  have hc0 : 0 < c := hc ▸ homogenization_pos _
  rw [← hc] at hM
  obtain ⟨l, hl⟩ : ∃ l, l = c / excessReturn m w' := ⟨_, rfl⟩
  rw [← hl] at hM
  have hl0 : 0 < l := hl ▸ div_pos hc0 he
  -- the competitor is a point of the problem
  obtain ⟨b0, hb0⟩ : ∃ b, (riskProgram (withoutVariance m) .variance w' 1).feasible b := by
    obtain ⟨⟨b, hb, -⟩, -⟩ := C17_variance m.cholesky (covarianceOf m) (fun _ _ => rfl) w' m.scale hs
    exact ⟨b, hb⟩
  have e1 : (withoutVariance m).riskLimits .variance = none := by simp [withoutVariance]
  have e2 : (withoutVariance m).riskLimits .semiVariance = none := by simp [withoutVariance, hsv]
  obtain ⟨q, hq, -⟩ := allowed_feasible (withoutVariance m) hs cs hr hcs hte e1 e2 w'
    ⟨hw'.limits, hw'.cardinality, ⟨hw'.returns.turnover, hw'.returns.minReturn⟩, fun r x hx => hw'.risks r x (withoutVariance_limit m r x hx).1 (withoutVariance_limit m r x hx).2⟩ he l (hc ▸ hl) hM b0 hb0
  obtain ⟨a', ha', hle'⟩ := worst_scaled m hs u hcov hkappa hR w' v' hv' l hl0
  have hfeas : WorstFeasible m u cs (scaled l w') l a' := by
    refine ⟨hq.factor, hq.tracking, hq.turnover, hq.weight, hq.return', ⟨fun r x hne hx => hq.risks r x (withoutVariance_limit' m r x hne hx), fun x hx => ?_⟩, ha', hq.ratio⟩
    rw [mul_le_mul_iff_left₀ hs, mul_comm x l]
    exact hle'.trans (mul_le_mul_of_nonneg_left (hw'.variance x v' hx hv') hl0.le)
  have hopt := h.2 _ _ a' hfeas
  rw [← add_mul, ← add_mul, mul_le_mul_iff_left₀ hso] at hopt
  have hreg : ∀ (t : ℝ) (y : Fin n → ℝ), 0 < t → regularization m (scaled t y) = t * (m.l1Coef * ∑ i, |y i|) := by
    intro t y ht
    have e1 : ∑ i, |scaled t y i| = t * ∑ i, |y i| := by
      rw [Finset.mul_sum]
      exact Finset.sum_congr rfl fun i _ => by simp only [scaled]; rw [abs_mul, abs_of_pos ht]
    unfold regularization
    rw [e1, h2]
    ring
  have hreg1 : regularization m w = k * (m.l1Coef * ∑ i, |returnedWeights w k i|) := by
    conv_lhs => rw [← scaled_returned w k hk]
    exact hreg k _ hk
  rw [hreg1, hreg l w' hl0] at hopt
  have hlow := worst_returned m hs u hkappa hR w k hk v hv a h.1.aux
  have hexc : expectedReturn m w k * m.scale - m.data.riskFreeRate * k * m.scale = k * excessReturn m (returnedWeights w k) * m.scale := by
    rw [expected_returned m w k hk]
    unfold excessReturn
    ring
  have hE : (isAffine m → k * excessReturn m (returnedWeights w k) = c) ∧ c ≤ k * excessReturn m (returnedWeights w k) := by
    obtain ⟨r1, r2⟩ := h.1.ratio hr
    rw [hexc, ← hc] at r1 r2
    by_cases ha : isAffine m
    · have := mul_right_cancel₀ hs.ne' (r1 ha)
      exact ⟨fun _ => this, this.ge⟩
    · exact ⟨fun h => absurd h ha, (mul_le_mul_iff_left₀ hs).1 (r2 ha)⟩
  have hlE : l * excessReturn m w' = c := by rw [hl]; exact div_mul_cancel₀ _ he.ne'
  generalize excessReturn m (returnedWeights w k) = E at hE ⊢
  generalize excessReturn m w' = E' at hlE he ⊢
  generalize m.l1Coef * ∑ i, |returnedWeights w k i| = q1 at hopt ⊢
  generalize m.l1Coef * ∑ i, |w' i| = q2 at hopt hpos ⊢
  have hE0 : 0 < E := by
    by_contra hneg
    have := mul_nonpos_of_nonneg_of_nonpos hk.le (not_lt.1 hneg)
    linarith [hE.2]
  refine ⟨hE0, ?_⟩
  have key : k * (v + q1) ≤ l * (v' + q2) := by linarith
  have key1 : E' * (k * (v + q1)) ≤ c * (v' + q2) := by
    have := mul_le_mul_of_nonneg_left key he.le
    rwa [← mul_assoc E' l, mul_comm E' l, hlE] at this
  have key2 : c * (v' + q2) ≤ k * E * (v' + q2) := by
    rcases hpos with ha | hp
    · rw [hE.1 ha]
    · exact mul_le_mul_of_nonneg_right hE.2 hp
  refine (mul_le_mul_iff_right₀ hk).1 ?_
  calc k * (E' * (v + q1)) = E' * (k * (v + q1)) := by ring
    _ ≤ k * E * (v' + q2) := key1.trans key2
    _ = k * (E * (v' + q2)) := by ring

end

end

/-! ### Finding: not the Sharpe ratio -/

/-- Two uncorrelated assets of variance 1 with expected returns 7 % and 1 %, long-only, variance as risk measure. -/
noncomputable def sevenToOne : MeanRisk 2 2 := { twoAssets (7 / 100) (1 / 100) longOnly with riskMeasure := .variance }

/-- The uncertainty set of radius zero around the covariance: no uncertainty. -/
noncomputable def noUncertainty : CovSet 2 := ⟨covarianceOf sevenToOne, 0, 0⟩

theorem noUncertainty_plausible (C : Fin 2 → Fin 2 → ℝ) (h : PlausibleCov noUncertainty.cov noUncertainty.kappa noUncertainty.R C) : C = covarianceOf sevenToOne := by
  obtain ⟨⟨z, -, hC⟩, -⟩ := h
  have h2 : ∀ p, columns C p = columns (covarianceOf sevenToOne) p := by
    intro p
    have h1 := hC p
    change columns C p = columns (covarianceOf sevenToOne) p + ∑ j, (0 : Matrix (Fin (2 * 2)) (Fin (2 * 2)) ℝ) p j * z j at h1
    simpa using h1
  funext i j
  have h3 := h2 (finProdFinEquiv (j, i))
  have e1 : (finProdFinEquiv (j, i)).modNat = i := congrArg Prod.snd (finProdFinEquiv.symm_apply_apply (j, i))
  have e2 : (finProdFinEquiv (j, i)).divNat = j := congrArg Prod.fst (finProdFinEquiv.symm_apply_apply (j, i))
  unfold columns at h3
  rwa [e1, e2] at h3

theorem sevenToOne_variance (w : Fin 2 → ℝ) : varianceUnder (covarianceOf sevenToOne) w = w 0 ^ 2 + w 1 ^ 2 := by
  simp [varianceUnder, covarianceOf, sevenToOne, twoAssets, Fin.sum_univ_two]
  ring

theorem noUncertainty_center : PlausibleCov noUncertainty.cov noUncertainty.kappa noUncertainty.R (covarianceOf sevenToOne) := by
  refine ⟨⟨fun _ => 0, ?_, fun p => ?_⟩, fun x => ?_⟩
  · simp [noUncertainty]
  · simp [noUncertainty]
  · rw [sevenToOne_variance]
    positivity

theorem noUncertainty_worst (w : Fin 2 → ℝ) : IsWorstVariance noUncertainty w (w 0 ^ 2 + w 1 ^ 2) := by
  constructor
  · rintro _ ⟨C, hC, rfl⟩
    rw [noUncertainty_plausible C hC, sevenToOne_variance]
  · intro b hb
    have := hb ⟨_, noUncertainty_center, rfl⟩
    rwa [sevenToOne_variance] at this

theorem sevenToOne_factor : homogenizationFactor sevenToOne.data.mu = 4 / 100 := by
  change homogenizationFactor (twoAssets (7 / 100) (1 / 100) longOnly).data.mu = 4 / 100
  rw [twoAssets_factor] <;> norm_num

theorem sevenToOne_ratio (w : Fin 2 → ℝ) (k : ℝ) : ratioConstraint sevenToOne w k ↔ 7 * w 0 + w 1 = 4 := by
  have he := twoAssets_expected (7 / 100) (1 / 100) longOnly w k
  change expectedReturn sevenToOne w k = _ at he
  unfold ratioConstraint
  rw [sevenToOne_factor, he]
  have ha : isAffine sevenToOne := twoAssets_affine (7 / 100) (1 / 100) longOnly
  have hr : sevenToOne.data.riskFreeRate = 0 := rfl
  have hsc : sevenToOne.scale = 1 := rfl
  rw [hr, hsc]
  constructor
  · intro h
    have := (h rfl).1 ha
    linarith
  · intro h _
    refine ⟨fun _ => by linarith, fun h => absurd ha h⟩

theorem sevenToOne_weights (cs : List (Constraint ℝ 2)) (hcs : getWeightConstraints longOnly true true (1 : ℝ) = .ok cs) (w : Fin 2 → ℝ) (k : ℝ) (hk : 0 < k) (h0 : 0 ≤ w 0) (h1 : 0 ≤ w 1) (hs : w 0 + w 1 = k) : ∀ c ∈ cs, c w k := by
  refine (C19_weight_limits longOnly true true 1 k one_pos hk w cs hcs rfl).2 (longOnly_limits _ (div_nonneg h0 hk.le) (div_nonneg h1 hk.le) ?_)
  rw [← add_div, hs, div_self hk.ne']

theorem noUncertainty_definite (x : Fin 2 → ℝ) (hx : x ≠ 0) : 0 < varianceUnder noUncertainty.cov x := by
  change 0 < varianceUnder (covarianceOf sevenToOne) x
  rw [sevenToOne_variance]
  rcases (add_nonneg (sq_nonneg (x 0)) (sq_nonneg (x 1))).eq_or_lt with h | h
  · exfalso
    apply hx
    have h0 : x 0 = 0 := by nlinarith [sq_nonneg (x 0), sq_nonneg (x 1)]
    have h1 : x 1 = 0 := by nlinarith [sq_nonneg (x 0), sq_nonneg (x 1)]
    funext i
    fin_cases i
    · exact h0
    · exact h1
  · exact h

theorem noUncertainty_symm : noUncertainty.R.transpose = noUncertainty.R := by simp [noUncertainty]

theorem worst_bound (cs : List (Constraint ℝ 2)) (hcs : getWeightConstraints longOnly true true (1 : ℝ) = .ok cs) (w' : Fin 2 → ℝ) (k' : ℝ) (a' : (worstProgram sevenToOne noUncertainty w' k').Aux)
    (h' : WorstFeasible sevenToOne noUncertainty cs w' k' a') : 4 / 9 ≤ (worstProgram sevenToOne noUncertainty w' k').risk a' := by
  have hrat := (sevenToOne_ratio _ _).1 h'.ratio
  obtain ⟨b, hb⟩ : ∃ b, (riskProgram sevenToOne .variance w' k').feasible b := by
    obtain ⟨⟨b, hb, -⟩, -⟩ := C17_variance sevenToOne.cholesky (covarianceOf sevenToOne) (fun _ _ => rfl) w' sevenToOne.scale one_pos
    exact ⟨b, hb⟩
  have hk' : 0 < k' := C18_scale_positive sevenToOne one_pos cs rfl hcs (fun _ => 0) (fun _ => 1) rfl rfl 0 one_pos w' k' b
    ⟨h'.factor, h'.tracking, h'.turnover, h'.weight, h'.return', fun r x hx => (by cases hx), hb, h'.ratio⟩
  have hlim := (C19_weight_limits longOnly true true 1 k' one_pos hk' w' cs hcs rfl).1 h'.weight
  have hsum := hlim.budget 1 rfl
  rw [Fin.sum_univ_two] at hsum
  have hlow := worst_returned sevenToOne one_pos noUncertainty (le_refl _) noUncertainty_symm w' k' hk' _ (noUncertainty_worst _) a' h'.aux
  obtain ⟨x, hx⟩ : ∃ x, x = w' 0 / k' := ⟨_, rfl⟩
  have hx1 : w' 1 / k' = 1 - x := by rw [hx]; linarith
  have hw0 : w' 0 = k' * x := by rw [hx, mul_div_cancel₀ _ hk'.ne']
  have hw1 : w' 1 = k' * (1 - x) := by rw [← hx1, mul_div_cancel₀ _ hk'.ne']
  unfold returnedWeights at hlow
  rw [← hx, hx1] at hlow
  rw [hw0, hw1] at hrat
  have : k' * (9 * (x ^ 2 + (1 - x) ^ 2) - (7 * x + (1 - x))) = k' * (2 * (3 * x - 2) ^ 2) := by ring
  have h0 : 0 ≤ k' * (2 * (3 * x - 2) ^ 2) := by positivity
  linarith

theorem sevenToOne_regularization (w : Fin 2 → ℝ) : regularization sevenToOne w = 0 := by
  simp [regularization, sevenToOne, twoAssets]

theorem worst_optimum (cs : List (Constraint ℝ 2)) (hcs : getWeightConstraints longOnly true true (1 : ℝ) = .ok cs) :
    ∃ a, WorstRatioOptimum sevenToOne noUncertainty cs (scaled (4 / 5) ![2 / 3, 1 / 3]) (4 / 5) a := by
  obtain ⟨a, ha, hle⟩ := worst_scaled sevenToOne one_pos noUncertainty noUncertainty_definite (le_refl _) noUncertainty_symm ![2 / 3, 1 / 3] _ (noUncertainty_worst _) (4 / 5) (by norm_num)
  have e0 : scaled (4 / 5) (![2 / 3, 1 / 3] : Fin 2 → ℝ) 0 = 8 / 15 := by norm_num [scaled]
  have e1 : scaled (4 / 5) (![2 / 3, 1 / 3] : Fin 2 → ℝ) 1 = 4 / 15 := by norm_num [scaled]
  refine ⟨a, ⟨fun h => absurd rfl h, fun x hx => (by cases hx), fun x hx => (by cases hx),
    sevenToOne_weights cs hcs _ _ (by norm_num) (by rw [e0]; norm_num) (by rw [e1]; norm_num) (by rw [e0, e1]; norm_num), fun x hx => absurd hx (List.not_mem_nil), ⟨fun r x _ hx => (by cases hx), fun x hx => (by cases hx)⟩, ha,
    (sevenToOne_ratio _ _).2 (by rw [e0, e1]; norm_num)⟩, fun w' k' a' h' => ?_⟩
  have h1 := worst_bound cs hcs w' k' a' h'
  rw [sevenToOne_regularization, sevenToOne_regularization, show sevenToOne.scaleObjective = 1 from rfl]
  have h2 : (4 / 5 : ℝ) * ((![2 / 3, 1 / 3] : Fin 2 → ℝ) 0 ^ 2 + (![2 / 3, 1 / 3] : Fin 2 → ℝ) 1 ^ 2) = 4 / 9 := by norm_num
  rw [h2] at hle
  linarith

theorem sharpe_optimum (cs : List (Constraint ℝ 2)) (hcs : getWeightConstraints longOnly true true (1 : ℝ) = .ok cs) :
    IsOptimum sevenToOne cs ![56 / 100, 8 / 100] (64 / 100) (Real.sqrt (32 / 100) : ℝ) := by
  refine ⟨⟨fun h => absurd rfl h, fun x hx => (by cases hx), fun x hx => (by cases hx), sevenToOne_weights cs hcs _ _ (by norm_num) (by norm_num) (by norm_num) (by norm_num), fun x hx => absurd hx (List.not_mem_nil),
    fun r x hx => (by cases hx), ?_, (sevenToOne_ratio _ _).2 (by norm_num)⟩, ?_⟩
  · refine (twoAssets_std (7 / 100) (1 / 100) longOnly _ (64 / 100) _).2 ⟨Real.sqrt_nonneg _, Real.sqrt_le_sqrt ?_⟩
    norm_num
  · intro w' k' (v : ℝ) h'
    have hrat := (sevenToOne_ratio _ _).1 h'.ratio
    have h2 := (twoAssets_std (7 / 100) (1 / 100) longOnly _ k' _).1 h'.aux
    have h3 : w' 0 ^ 2 + w' 1 ^ 2 ≤ v ^ 2 := (Real.sqrt_le_left h2.1).1 h2.2
    change Real.sqrt (32 / 100) ^ 2 * 1 + (0 * _ + 0 * _) * 1 ≤ v ^ 2 * 1 + (0 * _ + 0 * _) * 1
    rw [Real.sq_sqrt (by norm_num)]
    nlinarith [sq_nonneg (w' 0 - 7 * w' 1)]

/-- **C64, finding.** With an uncertainty set the ratio that is maximised is another one. Without it, and the variance as risk measure, the Sharpe ratio is maximised (the variance is quadratic in the scale): the weights are
7/8 and 1/8. The worst-case variance is linear in the scale, so that excess return over variance is maximised: with an uncertainty set of radius zero, i.e. without uncertainty, the weights are 2/3 and 1/3. -/
theorem C64_ratio_not_sharpe : ∃ (cs : List (Constraint ℝ 2)) (w : Fin 2 → ℝ) (k : ℝ) (a : (worstProgram sevenToOne noUncertainty w k).Aux) (w0 : Fin 2 → ℝ) (k0 : ℝ) (a0 : (riskProgram sevenToOne .variance w0 k0).Aux),
    getWeightConstraints sevenToOne.weights (factorIsVariable sevenToOne) true sevenToOne.scale = .ok cs ∧
    (∀ C, PlausibleCov noUncertainty.cov noUncertainty.kappa noUncertainty.R C → C = covarianceOf sevenToOne) ∧
    0 < k ∧ WorstRatioOptimum sevenToOne noUncertainty cs w k a ∧ returnedWeights w k = ![2 / 3, 1 / 3] ∧
    0 < k0 ∧ IsOptimum sevenToOne cs w0 k0 a0 ∧ returnedWeights w0 k0 = ![7 / 8, 1 / 8] := by
  obtain ⟨cs, hcs⟩ := longOnly_ok
  obtain ⟨a, ha⟩ := worst_optimum cs hcs
  refine ⟨cs, scaled (4 / 5) ![2 / 3, 1 / 3], 4 / 5, a, ![56 / 100, 8 / 100], 64 / 100, (Real.sqrt (32 / 100) : ℝ), hcs, noUncertainty_plausible, by norm_num, ha, ?_, by norm_num, sharpe_optimum cs hcs, ?_⟩
  · funext i
    fin_cases i <;> norm_num [returnedWeights, scaled]
  · funext i
    fin_cases i <;> norm_num [returnedWeights]

end Skfolio.Uncertainty
