import Verif.Convex.RelabelRobust
import Verif.Convex.UniverseTheorems
import Verif.Convex.RobustnessTheorems
import Verif.Convex.RobustnessExamples
import Mathlib.Tactic.Positivity

/-!
`DistributionallyRobustCVaR`: C109 (a mixture of portfolios), C120 (more assets) and C113 (the unit of the returns).
-/
set_option autoImplicit false

namespace Skfolio.Convex

section
variable {n n' T : Nat}

/-! ### Mixtures -/

theorem robust_mix (m : Robust n T) (hs : 0 < m.scale) (w₁ w₂ : Fin n → ℝ) (p₁ p₂ : RobustAux n T) (h₁ : RobustFeasible m w₁ p₁) (h₂ : RobustFeasible m w₂ p₂) (a b : ℝ) (ha : 0 ≤ a) (hb : 0 ≤ b) :
    RobustFeasible m (fun j => a * w₁ j + b * w₂ j)
      { u := fun i j => a * p₁.u i j + b * p₂.u i j, v := fun i j => a * p₁.v i j + b * p₂.v i j, lb := a * p₁.lb + b * p₂.lb, tau := a * p₁.tau + b * p₂.tau, s := fun i => a * p₁.s i + b * p₂.s i } := by
  have e1 : ∀ i, ∑ j, m.returns i j * (a * w₁ j + b * w₂ j) = a * (∑ j, m.returns i j * w₁ j) + b * ∑ j, m.returns i j * w₂ j := fun i => by
    rw [Finset.mul_sum, Finset.mul_sum, ← Finset.sum_add_distrib]
    exact Finset.sum_congr rfl fun j _ => by ring
  have e2 : ∀ i (x y : Fin n → ℝ), ∑ j, (a * x j + b * y j) * (1 + m.returns i j) * 1 = a * (∑ j, x j * (1 + m.returns i j) * 1) + b * ∑ j, y j * (1 + m.returns i j) * 1 := fun i x y => by
    rw [Finset.mul_sum, Finset.mul_sum, ← Finset.sum_add_distrib]
    exact Finset.sum_congr rfl fun j _ => by ring
  have nn : ∀ (x y : Fin n → ℝ) (c : ℝ), ‖fun j => -x j - c * w₁ j‖ * m.scale ≤ p₁.lb * m.scale → ‖fun j => -y j - c * w₂ j‖ * m.scale ≤ p₂.lb * m.scale →
      ‖fun j => -(a * x j + b * y j) - c * (a * w₁ j + b * w₂ j)‖ * m.scale ≤ (a * p₁.lb + b * p₂.lb) * m.scale := fun x y c hx hy => by
    have hx := le_of_mul_le_mul_right hx hs
    have hy := le_of_mul_le_mul_right hy hs
    refine mul_le_mul_of_nonneg_right ?_ hs.le
    have e : (fun j => -(a * x j + b * y j) - c * (a * w₁ j + b * w₂ j)) = a • (fun j => -x j - c * w₁ j) + b • fun j => -y j - c * w₂ j := by
      funext j
      simp only [Pi.add_apply, Pi.smul_apply, smul_eq_mul]
      ring
    rw [e]
    refine (norm_add_le _ _).trans ?_
    rw [norm_smul, norm_smul, Real.norm_of_nonneg ha, Real.norm_of_nonneg hb]
    exact add_le_add (mul_le_mul_of_nonneg_left hx ha) (mul_le_mul_of_nonneg_left hy hb)
  refine ⟨fun i j => ?_, fun i j => ?_, fun i => ?_, fun i => ?_, fun i => nn _ _ _ (h₁.norm1 i) (h₂.norm1 i), fun i => nn _ _ _ (h₁.norm2 i) (h₂.norm2 i)⟩
  · have := add_nonneg (mul_nonneg ha (h₁.u i j)) (mul_nonneg hb (h₂.u i j))
    dsimp only
    linarith
  · have := add_nonneg (mul_nonneg ha (h₁.v i j)) (mul_nonneg hb (h₂.v i j))
    dsimp only
    linarith
  · have := add_le_add (mul_le_mul_of_nonneg_left (h₁.first i) ha) (mul_le_mul_of_nonneg_left (h₂.first i) hb)
    dsimp only
    rw [e1, e2]
    linarith
  · have := add_le_add (mul_le_mul_of_nonneg_left (h₁.second i) ha) (mul_le_mul_of_nonneg_left (h₂.second i) hb)
    dsimp only
    rw [e1, e2]
    linarith

/-- The program comes as close as wanted to the worst disutility of a portfolio. -/
theorem robust_close (m : Robust n T) (hs : 0 < m.scale) (hso : 0 < m.scaleObjective) (hT : 0 < T) (hb0 : 0 ≤ m.cvarBeta) (hb : m.cvarBeta < 1) (hr : 0 ≤ m.riskAversion) (hret : ∀ i j, -1 ≤ m.returns i j) (w : Fin n → ℝ) (V : ℝ)
    (hV : IsWorst m m.radius w V) (ε : ℝ) (hε : 0 < ε) : ∃ p, RobustFeasible m w p ∧ robustObjective m p / m.scaleObjective ≤ V + ε := by
  by_contra hno
  push Not at hno
  obtain ⟨P, hP, h⟩ := C62_approached m hs hso hT hb0 hb hr hret w (V + ε) (fun p hp => (hno p hp).le) (ε / 2) (by linarith)
  have := hV.1 ⟨P, hP, rfl⟩
  linarith

/-- **C109.** The worst disutility over the Wasserstein ball, which `DistributionallyRobustCVaR` minimises: that of a mixture of two portfolios is at most the mixture of theirs. -/
theorem C109_distributionally_robust (m : Robust n T) (hs : 0 < m.scale) (hso : 0 < m.scaleObjective) (hT : 0 < T) (hb0 : 0 ≤ m.cvarBeta) (hb : m.cvarBeta < 1) (hr : 0 ≤ m.riskAversion) (hret : ∀ i j, -1 ≤ m.returns i j)
    (w₁ w₂ : Fin n → ℝ) (V₁ V₂ V : ℝ) (t : ℝ) (h0 : 0 ≤ t) (h1 : t ≤ 1) (h₁ : IsWorst m m.radius w₁ V₁) (h₂ : IsWorst m m.radius w₂ V₂) (h : IsWorst m m.radius (fun j => (1 - t) * w₁ j + t * w₂ j) V) :
    V ≤ (1 - t) * V₁ + t * V₂ := by
  refine le_of_forall_pos_le_add fun ε hε => ?_
  obtain ⟨p₁, f₁, g₁⟩ := robust_close m hs hso hT hb0 hb hr hret w₁ V₁ h₁ ε hε
  obtain ⟨p₂, f₂, g₂⟩ := robust_close m hs hso hT hb0 hb hr hret w₂ V₂ h₂ ε hε
  have f := robust_mix m hs w₁ w₂ p₁ p₂ f₁ f₂ (1 - t) t (by linarith) h0
  have hle : V ≤ _ := h.2 (by
    rintro _ ⟨P, hP, rfl⟩
    exact C62_bound m hs hso hT hb0 hb hr hret _ _ f P hP)
  refine hle.trans ?_
  rw [objective_value m hso] at g₁ g₂ ⊢
  dsimp only
  rw [Finset.sum_add_distrib, ← Finset.mul_sum, ← Finset.mul_sum]
  have := add_le_add (mul_le_mul_of_nonneg_left g₁ (by linarith : 0 ≤ 1 - t)) (mul_le_mul_of_nonneg_left g₂ h0)
  linarith

/-! ### More assets -/

/-- `m` is the problem `m'` on a selection of its assets. -/
structure IsRobustPart (e : Fin n ↪ Fin n') (m : Robust n T) (m' : Robust n' T) : Prop where
  returns : ∀ t i, m'.returns t (e i) = m.returns t i
  weights : IsLooser e m.weights m'.weights
  level : m'.cvarBeta = m.cvarBeta
  aversion : m'.riskAversion = m.riskAversion
  radius : m'.radius = m.radius

theorem robust_enlarge (e : Fin n ↪ Fin n') (m : Robust n T) (m' : Robust n' T) (h : IsRobustPart e m m') (hs : 0 < m.scale) (hs' : 0 < m'.scale) (hT : 0 < T) (w : Fin n → ℝ) (p : RobustAux n T) (hp : RobustFeasible m w p) :
    RobustFeasible m' (enlarge e w) { p with u := fun i => enlarge e (p.u i), v := fun i => enlarge e (p.v i) } := by
  have s1 : slope1 m' = slope1 m := rfl
  have s2 : slope2 m' = slope2 m := by unfold slope2; rw [h.aversion, h.level]
  have o1 : offset1 m' = offset1 m := h.aversion
  have o2 : offset2 m' = offset2 m := by unfold offset2; rw [h.aversion, h.level]
  have hlb : 0 ≤ p.lb := (norm_nonneg _).trans (le_of_mul_le_mul_right (hp.norm1 ⟨0, hT⟩) hs)
  have e1 : ∀ t, ∑ j, m'.returns t j * enlarge e w j = ∑ i, m.returns t i * w i := fun t =>
    sum_enlarge e w (fun j x => m'.returns t j * x) (fun i x => m.returns t i * x) (fun _ _ => mul_zero _) fun i x => by simp only [h.returns]
  have e2 : ∀ t (x : Fin n → ℝ), ∑ j, enlarge e x j * (1 + m'.returns t j) * 1 = ∑ i, x i * (1 + m.returns t i) * 1 := fun t x =>
    sum_enlarge e x (fun j x => x * (1 + m'.returns t j) * 1) (fun i x => x * (1 + m.returns t i) * 1) (fun _ _ => by ring) fun i x => by simp only [h.returns]
  have pos : ∀ x : Fin n → ℝ, (∀ i, x i * m.scale ≥ 0) → ∀ j, enlarge e x j * m'.scale ≥ 0 := fun x hx j => by
    by_cases hj : j ∈ Set.range e
    · obtain ⟨i, rfl⟩ := hj
      rw [enlarge_apply]
      exact mul_nonneg (nonneg_of_mul_nonneg_left (hx i) hs) hs'.le
    · rw [enlarge_other e x j hj, zero_mul]
  have nn : ∀ (x : Fin n → ℝ) (c : ℝ), ‖fun i => -x i - c * w i‖ * m.scale ≤ p.lb * m.scale → ‖fun j => -enlarge e x j - c * enlarge e w j‖ * m'.scale ≤ p.lb * m'.scale := fun x c hx => by
    have hx := le_of_mul_le_mul_right hx hs
    refine mul_le_mul_of_nonneg_right ((pi_norm_le_iff_of_nonneg hlb).2 fun j => ?_) hs'.le
    by_cases hj : j ∈ Set.range e
    · obtain ⟨i, rfl⟩ := hj
      rw [enlarge_apply, enlarge_apply]
      exact (norm_le_pi_norm (fun i => -x i - c * w i) i).trans hx
    · rw [enlarge_other e x j hj, enlarge_other e w j hj]
      simpa using hlb
  refine ⟨fun i => pos _ (hp.u i), fun i => pos _ (hp.v i), fun i => ?_, fun i => ?_, fun i => nn _ _ (hp.norm1 i), fun i => by rw [s2]; exact nn _ _ (hp.norm2 i)⟩
  · have := hp.first i
    rw [← add_mul, ← add_mul] at this ⊢
    dsimp only
    rw [e1, e2, o1, s1]
    exact mul_le_mul_of_nonneg_right (le_of_mul_le_mul_right this hs) hs'.le
  · have := hp.second i
    rw [← add_mul, ← add_mul] at this ⊢
    dsimp only
    rw [e1, e2, o2, s2]
    exact mul_le_mul_of_nonneg_right (le_of_mul_le_mul_right this hs) hs'.le

/-- **C120.** A fit of `DistributionallyRobustCVaR` on more assets: its worst disutility is at most that of any portfolio within the limits of the fit on a selection. -/
theorem C120_distributionally_robust (e : Fin n ↪ Fin n') (m : Robust n T) (m' : Robust n' T) (h : IsRobustPart e m m') (hs : 0 < m.scale) (hs' : 0 < m'.scale) (hso : 0 < m.scaleObjective) (hso' : 0 < m'.scaleObjective) (hT : 0 < T)
    (hb0 : 0 ≤ m.cvarBeta) (hb : m.cvarBeta < 1) (hr : 0 ≤ m.riskAversion) (hret : ∀ i j, -1 ≤ m'.returns i j) (cs' : List (Constraint ℝ n')) (hcs' : getWeightConstraints m'.weights false true m'.scale = .ok cs') (hm' : isMip m'.weights = false)
    (w' : Fin n' → ℝ) (p' : RobustAux n' T) (ho : RobustOptimum m' cs' w' p') (w : Fin n → ℝ) (hw : RespectsLimits m.weights w) (V V' : ℝ) (hV : IsWorst m m.radius w V) (hV' : IsWorst m' m'.radius w' V') : V' ≤ V := by
  refine le_of_forall_pos_le_add fun ε hε => ?_
  obtain ⟨p, f, g⟩ := robust_close m hs hso hT hb0 hb hr (fun i j => by rw [← h.returns]; exact hret i _) w V hV ε hε
  have hl : ∀ c ∈ cs', c (enlarge e w) 1 := by
    have := C19_weight_limits m'.weights false true m'.scale 1 hs' one_pos (enlarge e w) cs' hcs' hm'
    refine this.2 ?_
    simpa using limits_enlarge h.weights w hw
  have hbest := div_le_div_of_nonneg_right (ho.2 _ _ hl (robust_enlarge e m m' h hs hs' hT w p f)) hso'.le
  have hval := (C62_optimal m' hs' hso' hT (h.level ▸ hb0) (h.level ▸ hb) (h.aversion ▸ hr) hret cs' hcs' hm' w' p' ho).2.1
  rw [hV'.unique hval]
  refine hbest.trans (le_trans (le_of_eq ?_) g)
  rw [objective_value m' hso', objective_value m hso, h.radius]

/-! ### The unit of the returns -/

/-- **C113.** `DistributionallyRobustCVaR` takes `-1` for a total loss, whatever the unit of the returns. If the returns are in a unit in which the losses below `-1` add up (on average over the observations, of one asset for each observation) to more than the radius, the program
is unbounded for every portfolio, and no fit has an optimum. -/
theorem C113_robust_total_loss (m : Robust n T) (hs : 0 < m.scale) (hso : 0 < m.scaleObjective) (hT : 0 < T) (j : Fin T → Fin n) (hloss : m.radius < 1 / (T : ℝ) * ∑ i, max 0 (-1 - m.returns i (j i))) :
    (∀ w B, ∃ p, RobustFeasible m w p ∧ robustObjective m p ≤ B) ∧ ∀ cs w p, ¬RobustOptimum m cs w p := by
  classical
  have key : ∀ w B, ∃ p, RobustFeasible m w p ∧ robustObjective m p ≤ B := by
    intro w B
    set D := 1 / (T : ℝ) * (∑ i, max 0 (-1 - m.returns i (j i))) - m.radius with hD
    have hD0 : 0 < D := by rw [hD]; linarith
    set c := |slope1 m| + |slope2 m| with hc
    have c1 : |slope1 m| ≤ c := by rw [hc]; linarith [abs_nonneg (slope2 m)]
    have c2 : |slope2 m| ≤ c := by rw [hc]; linarith [abs_nonneg (slope1 m)]
    have hc0 : 0 ≤ c := (abs_nonneg _).trans c1
    set K := m.radius * (c * ‖w‖) + 1 / (T : ℝ) * ∑ i, c * |∑ l, m.returns i l * w l| with hK
    set a := max 0 ((K - B / m.scaleObjective) / D) with ha
    have ha0 : 0 ≤ a := le_max_left _ _
    let x : Fin T → Fin n → ℝ := fun i l => if l = j i ∧ m.returns i l < -1 then a else 0
    have hx0 : ∀ i l, 0 ≤ x i l := fun i l => by dsimp only [x]; split_ifs <;> simp [ha0]
    have hxa : ∀ i l, x i l ≤ a := fun i l => by dsimp only [x]; split_ifs <;> simp [ha0]
    have hxs : ∀ i, ∑ l, x i l * (1 + m.returns i l) * 1 = -(a * max 0 (-1 - m.returns i (j i))) := fun i => by
      rw [Finset.sum_eq_single (j i)]
      · dsimp only [x]
        by_cases hj : m.returns i (j i) < -1
        · rw [if_pos ⟨rfl, hj⟩, max_eq_right (by linarith)]; ring
        · rw [if_neg fun q => hj q.2, max_eq_left (by linarith)]; ring
      · intro l _ hl
        dsimp only [x]
        rw [if_neg fun q => hl q.1]; ring
      · intro q; exact absurd (Finset.mem_univ _) q
    have nn : ∀ (i : Fin T) (b : ℝ), |b| ≤ c → ‖fun l => -x i l - b * w l‖ * m.scale ≤ (a + c * ‖w‖) * m.scale := fun i b hb => by
      refine mul_le_mul_of_nonneg_right ((pi_norm_le_iff_of_nonneg (by positivity)).2 fun l => ?_) hs.le
      have h1 : ‖-x i l - b * w l‖ ≤ ‖-x i l‖ + ‖b * w l‖ := norm_sub_le _ _
      have h2 : ‖-x i l‖ = x i l := by rw [norm_neg, Real.norm_of_nonneg (hx0 i l)]
      have h3 : ‖b * w l‖ ≤ c * ‖w‖ := by
        rw [norm_mul]
        exact mul_le_mul hb (norm_le_pi_norm w l) (norm_nonneg _) hc0
      linarith [hxa i l]
    have ss : ∀ (i : Fin T) (b : ℝ), |b| ≤ c → b * (∑ l, m.returns i l * w l) ≤ c * |∑ l, m.returns i l * w l| := fun i b hb => by
      refine (le_abs_self _).trans ?_
      rw [abs_mul]
      exact mul_le_mul_of_nonneg_right hb (abs_nonneg _)
    refine ⟨{ u := x, v := x, lb := a + c * ‖w‖, tau := 0, s := fun i => c * |∑ l, m.returns i l * w l| - a * max 0 (-1 - m.returns i (j i)) }, ⟨fun i l => mul_nonneg (hx0 i l) hs.le, fun i l => mul_nonneg (hx0 i l) hs.le, fun i => ?_, fun i => ?_, fun i => nn i _ c1, fun i => nn i _ c2⟩, ?_⟩
    · dsimp only
      rw [hxs, ← add_mul, ← add_mul]
      refine mul_le_mul_of_nonneg_right ?_ hs.le
      linarith [ss i _ c1]
    · dsimp only
      rw [hxs, ← add_mul, ← add_mul]
      refine mul_le_mul_of_nonneg_right ?_ hs.le
      linarith [ss i _ c2]
    · rw [← div_le_div_iff_of_pos_right hso, objective_value m hso]
      dsimp only
      rw [Finset.sum_sub_distrib, ← Finset.mul_sum Finset.univ _ a]
      have h1 : (K - B / m.scaleObjective) / D ≤ a := le_max_right _ _
      rw [div_le_iff₀ hD0] at h1
      have h2 : a * D = a * (1 / (T : ℝ) * ∑ i, max 0 (-1 - m.returns i (j i))) - a * m.radius := by rw [hD]; ring
      rw [mul_sub]
      linarith
  refine ⟨key, fun cs w p ho => ?_⟩
  obtain ⟨p', f, g⟩ := key w (robustObjective m p - 1)
  have := ho.2 w p' ho.1.1 f
  linarith

/-! ### Concrete cases -/

/-- The worst disutility of two portfolios of `pair`, one of which is more even. -/
theorem pair_worst (a b : ℝ) (h0 : 0 ≤ a) (h1 : a ≤ 1 / 2) : IsWorst (pair b) (pair b).radius ![1 - a, a] (3 / 10 * (1 - a)) := by
  obtain ⟨cs, hcs, h⟩ := pair_optimum a h0 h1
  have := (C62_optimal (pair a) (by norm_num [pair]) (by norm_num [pair]) (by norm_num) (by norm_num [pair]) (by norm_num [pair]) (by norm_num [pair]) (by norm_num [pair]) cs hcs (by simp [isMip, pair, robustExample]) _ _ h).2.1
  have e : robustObjective (pair a) (pairAux a) / (pair a).scaleObjective = 3 / 10 * (1 - a) := by
    simp [robustObjective, pair, pairAux]
    ring
  rw [e] at this
  exact this

/-- All in one asset: 30 %; evenly: 15 %; half of each portfolio: 22.5 %. -/
example : (9 : ℝ) / 40 ≤ (1 - 1 / 2) * (3 / 10) + 1 / 2 * (3 / 20) := by
  have h₁ := pair_worst 0 (1 / 2) le_rfl (by norm_num)
  have h₂ := pair_worst (1 / 2) (1 / 2) (by norm_num) le_rfl
  have h := pair_worst (1 / 4) (1 / 2) (by norm_num) (by norm_num)
  have e : (![1 - 1 / 4, 1 / 4] : Fin 2 → ℝ) = fun j => (1 - 1 / 2) * (![1 - 0, 0] : Fin 2 → ℝ) j + 1 / 2 * (![1 - 1 / 2, 1 / 2] : Fin 2 → ℝ) j := by
    funext j
    fin_cases j <;> norm_num
  rw [e] at h
  have := C109_distributionally_robust (pair (1 / 2)) (by norm_num [pair]) (by norm_num [pair]) (by norm_num) (by norm_num [pair]) (by norm_num [pair]) (by norm_num [pair]) (by norm_num [pair]) _ _ _ _ _ (1 / 2) (by norm_num) (by norm_num) h₁ h₂ h
  norm_num at this ⊢

/-- One asset: 30 %; with a second one: 15 %. -/
example : (3 : ℝ) / 10 * (1 - 1 / 2) ≤ 3 * (1 / 10) := by
  obtain ⟨cs, hcs, h⟩ := pair_optimum (1 / 2) (by norm_num) le_rfl
  obtain ⟨-, -, -, hV⟩ := robustExample_radius (1 / 10) (by norm_num) (by norm_num)
  let e : Fin 1 ↪ Fin 2 := ⟨fun _ => 0, fun a b _ => Subsingleton.elim a b⟩
  have hp : IsRobustPart e robustExample (pair (1 / 2)) := by
    refine ⟨fun _ _ => rfl, ?_, rfl, rfl, rfl⟩
    constructor <;> simp [pair, robustExample, e, Fin.forall_fin_two]
    exact le_refl (1 : ℝ)
  refine C120_distributionally_robust e robustExample (pair (1 / 2)) hp (by norm_num [robustExample]) (by norm_num [pair]) (by norm_num [robustExample]) (by norm_num [pair]) (by norm_num) (by norm_num [robustExample]) (by norm_num [robustExample])
    (by norm_num [robustExample]) (by norm_num [pair]) cs hcs (by simp [isMip, pair, robustExample]) _ _ h (fun _ => 1) ?_ _ _ hV (pair_worst (1 / 2) (1 / 2) (by norm_num) le_rfl)
  constructor <;> simp [robustExample]

/-- Returns of one asset in percent, a loss of 2 %: no optimum. -/
example (cs : List (Constraint ℝ 1)) (w : Fin 1 → ℝ) (p : RobustAux 1 1) : ¬RobustOptimum { robustExample with returns := fun _ _ => -2 } cs w p :=
  (C113_robust_total_loss (T := 1) { robustExample with returns := fun _ _ => -2 } (by norm_num [robustExample]) (by norm_num [robustExample]) (by norm_num) (fun _ => 0) (by norm_num [robustExample])).2 cs w p

end

end Skfolio.Convex
