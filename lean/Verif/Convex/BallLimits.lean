import Verif.Convex.StabilityRobust

/-!
**C149.** A Wasserstein ball that reaches a total loss: `DistributionallyRobustCVaR` no longer distinguishes portfolios.
-/
set_option autoImplicit false

namespace Skfolio.Convex

section
variable {n T : Nat}

/-! ### Specification -/

/-- The mean distance of the sample from a total loss of all assets. -/
noncomputable def distanceToRuin (r : Fin T → Fin n → ℝ) : ℝ := meanDistance r fun _ _ => -1

/-! ### The program -/

theorem ruin_eq (r : Fin T → Fin n → ℝ) (hret : ∀ i j, -1 ≤ r i j) : distanceToRuin r = 1 / (T : ℝ) * ∑ i, ∑ j, (1 + r i j) := by
  unfold distanceToRuin meanDistance
  congr 1
  refine Finset.sum_congr rfl fun i _ => Finset.sum_congr rfl fun j _ => ?_
  rw [abs_sub_comm, abs_of_nonneg (by linarith [hret i j])]
  ring

/-- Whatever the radius: the value of the program is at least a total loss, less the part that the ball does not reach. -/
theorem robust_lower (m : Robust n T) (hs : 0 < m.scale) (hT : 0 < T) (hb0 : 0 ≤ m.cvarBeta) (hb : m.cvarBeta < 1) (hret : ∀ i j, -1 ≤ m.returns i j) (w : Fin n → ℝ) (p : RobustAux n T) (h : RobustFeasible m w p) :
    (1 + m.riskAversion) * ∑ j, w j ≤ distanceToRuin m.returns * p.lb + 1 / (T : ℝ) * ∑ i, p.s i := by
  have hb1 : 0 < 1 - m.cvarBeta := by linarith
  have hT0 : (0 : ℝ) < T := by exact_mod_cast hT
  have each : ∀ i, (1 + m.riskAversion) * ∑ j, w j ≤ (∑ j, (1 + m.returns i j)) * p.lb + p.s i := by
    intro i
    have f1 := h.first i
    have f2 := h.second i
    rw [← add_mul, ← add_mul] at f1 f2
    have f1 := mul_le_mul_of_nonneg_left (le_of_mul_le_mul_right f1 hs) hb0
    have f2 := mul_le_mul_of_nonneg_left (le_of_mul_le_mul_right f2 hs) hb1.le
    have n1 := le_of_mul_le_mul_right (h.norm1 i) hs
    have n2 := le_of_mul_le_mul_right (h.norm2 i) hs
    have e1 : m.cvarBeta * (offset1 m * p.tau) + (1 - m.cvarBeta) * (offset2 m * p.tau) = 0 := by
      unfold offset1 offset2
      field_simp
      ring
    have e2 : m.cvarBeta * slope1 m + (1 - m.cvarBeta) * slope2 m = -(1 + m.riskAversion) := by
      unfold slope1 slope2
      field_simp
      ring
    have key : ∀ j, (1 + m.riskAversion) * w j - p.lb ≤ m.cvarBeta * p.u i j + (1 - m.cvarBeta) * p.v i j := fun j => by
      have a1 : |-p.u i j - slope1 m * w j| ≤ p.lb := (norm_le_pi_norm (fun j => -p.u i j - slope1 m * w j) j).trans n1
      have a2 : |-p.v i j - slope2 m * w j| ≤ p.lb := (norm_le_pi_norm (fun j => -p.v i j - slope2 m * w j) j).trans n2
      have a1 := mul_le_mul_of_nonneg_left (abs_le.1 a1).2 hb0
      have a2 := mul_le_mul_of_nonneg_left (abs_le.1 a2).2 hb1.le
      have e3 : (m.cvarBeta * slope1 m + (1 - m.cvarBeta) * slope2 m) * w j = -(1 + m.riskAversion) * w j := by rw [e2]
      linarith
    have sum := Finset.sum_le_sum fun j (_ : j ∈ Finset.univ) => mul_le_mul_of_nonneg_right (key j) (by linarith [hret i j] : 0 ≤ 1 + m.returns i j)
    have s1 : ∑ j, ((1 + m.riskAversion) * w j - p.lb) * (1 + m.returns i j) = (1 + m.riskAversion) * (∑ j, w j) + (1 + m.riskAversion) * (∑ j, m.returns i j * w j) - (∑ j, (1 + m.returns i j)) * p.lb := by
      rw [Finset.mul_sum, Finset.mul_sum, Finset.sum_mul, ← Finset.sum_add_distrib, ← Finset.sum_sub_distrib]
      exact Finset.sum_congr rfl fun j _ => by ring
    have s2 : ∑ j, (m.cvarBeta * p.u i j + (1 - m.cvarBeta) * p.v i j) * (1 + m.returns i j) = m.cvarBeta * (∑ j, p.u i j * (1 + m.returns i j) * 1) + (1 - m.cvarBeta) * ∑ j, p.v i j * (1 + m.returns i j) * 1 := by
      rw [Finset.mul_sum, Finset.mul_sum, ← Finset.sum_add_distrib]
      exact Finset.sum_congr rfl fun j _ => by ring
    rw [s1, s2] at sum
    have e4 : (m.cvarBeta * slope1 m + (1 - m.cvarBeta) * slope2 m) * (∑ j, m.returns i j * w j) = -(1 + m.riskAversion) * ∑ j, m.returns i j * w j := by rw [e2]
    linarith
  have total := Finset.sum_le_sum fun i (_ : i ∈ Finset.univ) => each i
  rw [Finset.sum_const, Finset.card_univ, Fintype.card_fin, nsmul_eq_mul, Finset.sum_add_distrib, ← Finset.sum_mul] at total
  rw [ruin_eq m.returns hret]
  have := mul_le_mul_of_nonneg_left total (by positivity : 0 ≤ 1 / (T : ℝ))
  rw [← mul_assoc, one_div_mul_cancel hT0.ne', one_mul] at this
  linarith

/-- The variables of a total loss. -/
noncomputable def ruinAux (m : Robust n T) (w : Fin n → ℝ) : RobustAux n T where
  u := fun _ j => w j
  v := fun _ j => (1 + m.riskAversion / (1 - m.cvarBeta)) * w j
  lb := 0
  tau := ∑ j, w j
  s := fun _ => (1 + m.riskAversion) * ∑ j, w j

theorem ruin_feasible (m : Robust n T) (hs : 0 < m.scale) (hb : m.cvarBeta < 1) (hr : 0 ≤ m.riskAversion) (w : Fin n → ℝ) (hw : ∀ j, 0 ≤ w j) : RobustFeasible m w (ruinAux m w) := by
  have hb1 : 0 < 1 - m.cvarBeta := by linarith
  have sum : ∀ (i : Fin T) (c : ℝ), ∑ j, c * w j * (1 + m.returns i j) * 1 = c * (∑ j, w j) + c * ∑ j, m.returns i j * w j := fun i c => by
    rw [Finset.mul_sum, Finset.mul_sum, ← Finset.sum_add_distrib]
    exact Finset.sum_congr rfl fun j _ => by ring
  refine ⟨fun i j => mul_nonneg (hw j) hs.le, fun i j => mul_nonneg (mul_nonneg (by positivity) (hw j)) hs.le, fun i => le_of_eq ?_, fun i => le_of_eq ?_, fun i => le_of_eq ?_, fun i => le_of_eq ?_⟩
  · have := sum i 1
    simp only [one_mul] at this
    simp only [ruinAux, this, offset1, slope1]
    ring
  · simp only [ruinAux, sum, offset2, slope2]
    field_simp
    ring
  · have : (fun j => -(ruinAux m w).u i j - slope1 m * w j) = 0 := funext fun j => by simp [ruinAux, slope1]
    rw [this, norm_zero]
    rfl
  · have : (fun j => -(ruinAux m w).v i j - slope2 m * w j) = 0 := funext fun j => by simp only [ruinAux, slope2, Pi.zero_apply]; ring
    rw [this, norm_zero]
    rfl

/-! ### The claim -/

/-- **C149.** If the radius is at least the distance to ruin, every long-only portfolio within limits that fix the budget is an optimum of `DistributionallyRobustCVaR`, with a total loss as the worst disutility: the data no longer matter. -/
theorem C149_any_portfolio (m : Robust n T) (hs : 0 < m.scale) (hso : 0 < m.scaleObjective) (hT : 0 < T) (hb0 : 0 ≤ m.cvarBeta) (hb : m.cvarBeta < 1) (hr : 0 ≤ m.riskAversion) (hret : ∀ i j, -1 ≤ m.returns i j)
    (hrad : distanceToRuin m.returns ≤ m.radius) (cs : List (Constraint ℝ n)) (hcs : getWeightConstraints m.weights false true m.scale = .ok cs) (hm : isMip m.weights = false) (B : ℝ) (hB : m.weights.budget = some B) (w : Fin n → ℝ)
    (hw : ∀ j, 0 ≤ w j) (hl : RespectsLimits m.weights w) : ∃ p, RobustOptimum m cs w p ∧ robustObjective m p / m.scaleObjective = (1 + m.riskAversion) * B := by
  have hlim : ∀ w', (∀ c ∈ cs, c w' 1) ↔ RespectsLimits m.weights w' := fun w' => by
    have := C19_weight_limits m.weights false true m.scale 1 hs one_pos w' cs hcs hm
    simpa [Holds] using this
  have hT0 : (0 : ℝ) < T := by exact_mod_cast hT
  have value : robustObjective m (ruinAux m w) / m.scaleObjective = (1 + m.riskAversion) * B := by
    rw [objective_value m hso]
    simp only [ruinAux, Finset.sum_const, Finset.card_univ, Fintype.card_fin, nsmul_eq_mul]
    rw [hl.budget B hB]
    field_simp
    ring
  refine ⟨ruinAux m w, ⟨⟨(hlim w).2 hl, ruin_feasible m hs hb hr w hw⟩, fun w' p' hw' hp' => ?_⟩, value⟩
  rw [← div_le_div_iff_of_pos_right hso, value, objective_value m hso, ← ((hlim w').1 hw').budget B hB]
  have hlb : 0 ≤ p'.lb := (norm_nonneg _).trans (le_of_mul_le_mul_right (hp'.norm1 ⟨0, hT⟩) hs)
  exact (robust_lower m hs hT hb0 hb hret w' p' hp').trans (by linarith [mul_le_mul_of_nonneg_right hrad hlb])

/-- **C149.** Below that radius the worst disutility of a fit is at least a total loss less what the ball does not reach: `(1 + risk aversion)` times the budget, less `lb` times the missing distance, where `lb` is the sensitivity of the optimum to the radius. -/
theorem C149_bound (m : Robust n T) (hs : 0 < m.scale) (hso : 0 < m.scaleObjective) (hT : 0 < T) (hb0 : 0 ≤ m.cvarBeta) (hb : m.cvarBeta < 1) (hret : ∀ i j, -1 ≤ m.returns i j) (w : Fin n → ℝ) (p : RobustAux n T) (h : RobustFeasible m w p) :
    (1 + m.riskAversion) * (∑ j, w j) - (distanceToRuin m.returns - m.radius) * p.lb ≤ robustObjective m p / m.scaleObjective := by
  rw [objective_value m hso]
  linarith [robust_lower m hs hT hb0 hb hret w p h]

/-! ### A concrete case -/

/-- Two assets with returns 0 are at a distance of 2 from ruin. With that radius, all in one asset and half in each are both optimal, with a worst disutility of 2. -/
example (w : Fin 2 → ℝ) (hw : w = ![1, 0] ∨ w = ![1 / 2, 1 / 2]) : ∃ cs p, RobustOptimum (withRadius (pair (1 / 2)) 2) cs w p ∧ robustObjective (withRadius (pair (1 / 2)) 2) p / 1 = 2 := by
  obtain ⟨cs, hcs, -⟩ := pair_optimum (1 / 2) (by norm_num) le_rfl
  have hret : ∀ i j, -1 ≤ (pair (1 / 2)).returns i j := by norm_num [pair]
  obtain ⟨p, h1, h2⟩ := C149_any_portfolio (withRadius (pair (1 / 2)) 2) (by norm_num [withRadius, pair]) (by norm_num [withRadius, pair]) (by norm_num) (by norm_num [withRadius, pair]) (by norm_num [withRadius, pair]) (by norm_num [withRadius, pair]) hret
    (by refine (ruin_eq (pair (1 / 2)).returns hret).le.trans ?_; norm_num [withRadius, pair]) cs hcs (by simp [isMip, withRadius, pair, robustExample]) 1 rfl w (by rcases hw with rfl | rfl <;> simp [Fin.forall_fin_two])
    (by rcases hw with rfl | rfl <;> constructor <;> simp [withRadius, pair, robustExample, Fin.forall_fin_two, Fin.sum_univ_two] <;> norm_num)
  refine ⟨cs, p, h1, h2.trans ?_⟩
  norm_num [withRadius, pair]

end

end Skfolio.Convex
