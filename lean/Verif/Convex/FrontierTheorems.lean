import Verif.Convex.FrontierModel
import Verif.Convex.Convexity
import Mathlib.Data.List.GetD

/-! **C68**: the efficient frontier. -/
set_option autoImplicit false

namespace Skfolio.Convex

open Skfolio.Measures

section
variable {n T : Nat}

/-! ### Targets -/

theorem linspace_get (a b : ℝ) (N : Nat) (hN : 2 ≤ N) (i : Nat) (h : i < (linspace a b N).length) : (linspace a b N)[i] = a + i * ((b - a) / ((N : ℝ) - 1)) := by
  have hN' : (2 : ℝ) ≤ N := by exact_mod_cast hN
  simp only [linspace, List.getElem_map, List.getElem_range]
  split_ifs with hi
  · rw [hi, Nat.cast_sub (by omega), Nat.cast_one, mul_div_cancel₀ _ (by linarith)]
    ring
  · ring

/-- **C68.** The fit raises `ValueError` exactly for a size below 2, an objective other than minimising the risk, or when no portfolio has a positive return. Otherwise the targets are `size` equally spaced
returns, from 1 % above the return of the minimum risk portfolio (or above 1e-10) to the greatest return. -/
theorem C68_targets (o : Objective) (lo hi : ℝ) (size : Int) :
    ((∃ e, frontierTargets o lo hi size = .error e) ↔ size ≤ 1 ∨ o ≠ .minimizeRisk ∨ hi ≤ 0) ∧
    ∀ targets, frontierTargets o lo hi size = .ok targets →
      (targets.length : Int) = size ∧ targets.head? = some (max lo (1 / 10 ^ 10) * (101 / 100)) ∧ targets.getLast? = some hi ∧
      ∃ d : ℝ, ∀ i, (h : i + 1 < targets.length) → targets[i + 1] - targets[i] = d := by
  constructor
  · unfold frontierTargets
    split_ifs with h1 h2 h3
    · simp [h1]
    · simp [h2]
    · simp [h3]
    · constructor
      · rintro ⟨e, he⟩
        cases he
      · rintro (h | h | h)
        · exact absurd h h1
        · exact absurd h h2
        · exact absurd h h3
  · intro targets h
    unfold frontierTargets at h
    split_ifs at h with h1 h2 h3
    cases h
    obtain ⟨N, hN⟩ : ∃ N, N = size.toNat := ⟨_, rfl⟩
    rw [← hN]
    have h2N : 2 ≤ N := by omega
    have hlen : (linspace (max lo (1 / 10 ^ 10) * (101 / 100)) hi N).length = N := by simp [linspace]
    have hN' : (2 : ℝ) ≤ N := by exact_mod_cast h2N
    refine ⟨by rw [hlen]; omega, ?_, ?_, ?_⟩
    · rw [List.head?_eq_getElem?, List.getElem?_eq_getElem (by omega), linspace_get _ _ _ h2N]
      simp
    · rw [List.getLast?_eq_getElem?, List.getElem?_eq_getElem (by omega), linspace_get _ _ _ h2N, hlen, Nat.cast_sub (by omega), Nat.cast_one, mul_div_cancel₀ _ (by linarith)]
      simp
    · refine ⟨(hi - max lo (1 / 10 ^ 10) * (101 / 100)) / ((N : ℝ) - 1), fun i hi => ?_⟩
      rw [linspace_get _ _ _ h2N, linspace_get _ _ _ h2N]
      push_cast
      ring

theorem target_bounds (o : Objective) (lo hi : ℝ) (size : Int) (targets : List ℝ) (h : frontierTargets o lo hi size = .ok targets) (hle : max lo (1 / 10 ^ 10) * (101 / 100) ≤ hi) :
    ∀ i, (hi' : i < targets.length) → max lo (1 / 10 ^ 10) * (101 / 100) ≤ targets[i] ∧ targets[i] ≤ hi := by
  unfold frontierTargets at h
  split_ifs at h with h1 h2 h3
  cases h
  obtain ⟨N, hN⟩ : ∃ N, N = size.toNat := ⟨_, rfl⟩
  rw [← hN]
  have h2N : 2 ≤ N := by omega
  have hN' : (2 : ℝ) ≤ N := by exact_mod_cast h2N
  intro i hi'
  have hiN : i < N := by simpa [linspace] using hi'
  have hiN' : (i : ℝ) ≤ (N : ℝ) - 1 := by
    have : (i : ℝ) + 1 ≤ N := by exact_mod_cast hiN
    linarith
  rw [linspace_get _ _ _ h2N]
  have hd : 0 ≤ hi - max lo (1 / 10 ^ 10) * (101 / 100) := by linarith
  have hstep := div_nonneg hd (by linarith : (0 : ℝ) ≤ (N : ℝ) - 1)
  constructor
  · nlinarith [mul_nonneg (Nat.cast_nonneg (α := ℝ) i) hstep]
  · have := mul_le_mul_of_nonneg_right hiN' hstep
    rw [mul_div_cancel₀ _ (by linarith : (N : ℝ) - 1 ≠ 0)] at this
    linarith

theorem first_above (lo : ℝ) : lo < max lo (1 / 10 ^ 10) * (101 / 100) := by
  have h1 := le_max_left lo (1 / 10 ^ 10)
  have h2 : (1 / 10 ^ 10 : ℝ) ≤ max lo (1 / 10 ^ 10) := le_max_right _ _
  have h3 : (0 : ℝ) < 1 / 10 ^ 10 := by norm_num
  nlinarith

/-! ### One target -/

section
variable (P : Partition ℝ) (m : MeanRisk n T) (x : ℝ)

theorem within_target (w : Fin n → ℝ) : Within P (withTarget m x) w ↔ Within P m w ∧ x ≤ netExpectedReturn m w := by
  constructor
  · rintro ⟨h1, h2, ⟨h3, h4⟩, h5, h6⟩
    exact ⟨⟨h1, h2, ⟨h3, fun y hy => h4 y (List.mem_cons_of_mem _ hy)⟩, h5, h6⟩, h4 x List.mem_cons_self⟩
  · rintro ⟨⟨h1, h2, ⟨h3, h4⟩, h5, h6⟩, hx⟩
    refine ⟨h1, h2, ⟨h3, fun y hy => ?_⟩, h5, h6⟩
    rcases List.mem_cons.1 hy with rfl | hy
    · exact hx
    · exact h4 y hy

theorem comparable_target (w : Fin n → ℝ) (h : Comparable P m w) (hx : x ≤ netExpectedReturn m w) : Comparable P (withTarget m x) w :=
  ⟨(within_target P m x w).2 ⟨h.within, hx⟩, h.entropic, h.bigM⟩

theorem feasible_target (hs : 0 < m.scale) (cs : List (Constraint ℝ n)) (w : Fin n → ℝ) (a : (riskProgram m m.riskMeasure w 1).Aux) :
    Feasible (withTarget m x) cs w 1 a ↔ Feasible m cs w 1 a ∧ x ≤ netExpectedReturn m w := by
  constructor
  · rintro ⟨h1, h2, h3, h4, h5, h6, h7, h8⟩
    refine ⟨⟨h1, h2, h3, h4, fun y hy => h5 y (List.mem_cons_of_mem _ hy), h6, h7, h8⟩, ?_⟩
    have : expectedReturn m w 1 * m.scale ≥ x * 1 * m.scale := h5 x List.mem_cons_self
    rwa [ge_iff_le, mul_le_mul_iff_left₀ hs, mul_one, expected_one] at this
  · rintro ⟨⟨h1, h2, h3, h4, h5, h6, h7, h8⟩, hx⟩
    refine ⟨h1, h2, h3, h4, fun y hy => ?_, h6, h7, h8⟩
    rcases List.mem_cons.1 hy with rfl | hy
    · change expectedReturn m w 1 * m.scale ≥ y * 1 * m.scale
      rwa [ge_iff_le, mul_le_mul_iff_left₀ hs, mul_one, expected_one]
    · exact h5 y hy

end

section
variable (P : Partition ℝ) (m : MeanRisk n T) (hs : 0 < m.scale) (hso : 0 < m.scaleObjective) (hT : 2 ≤ T) (hb : BetasOk m) (ho : m.objective = .minimizeRisk) (cs : List (Constraint ℝ n))
  (hcs : getWeightConstraints m.weights (factorIsVariable m) true m.scale = .ok cs) (R : (Fin n → ℝ) → ℝ) (hR : IsRiskOf P m m.riskMeasure R)
include hs hso hT hb ho hcs hR

omit hT hb hcs hR in
theorem optimum_le (x : ℝ) (w : Fin n → ℝ) (a : (riskProgram m m.riskMeasure w 1).Aux) (h : IsOptimum (withTarget m x) cs w 1 a) (w' : Fin n → ℝ) (a' : (riskProgram m m.riskMeasure w' 1).Aux)
    (h' : Feasible m cs w' 1 a') (hx : x ≤ netExpectedReturn m w') :
    (riskProgram m m.riskMeasure w 1).risk a + penalty m w ≤ (riskProgram m m.riskMeasure w' 1).risk a' + penalty m w' := by
  have := h.2 w' 1 a' ((feasible_target m x hs cs w' a').2 ⟨h', hx⟩)
  unfold objectiveValue at this
  have ho' : (withTarget m x).objective = .minimizeRisk := ho
  simp only [ho'] at this
  change (riskProgram m m.riskMeasure w 1).risk a * m.scaleObjective + penalty m w * m.scaleObjective ≤ (riskProgram m m.riskMeasure w' 1).risk a' * m.scaleObjective + penalty m w' * m.scaleObjective at this
  rwa [← add_mul, ← add_mul, mul_le_mul_iff_left₀ hso] at this

omit hcs in
/-- At an optimum the auxiliary variables give the risk itself. -/
theorem optimum_risk (x : ℝ) (w : Fin n → ℝ) (a : (riskProgram m m.riskMeasure w 1).Aux) (h : IsOptimum (withTarget m x) cs w 1 a) : (riskProgram m m.riskMeasure w 1).risk a = R w := by
  have hf := (feasible_target m x hs cs w a).1 h.1
  refine le_antisymm ((risk_glb P m hs hT hb _ R hR w).2 _ fun a' ha' => ?_) ((risk_glb P m hs hT hb _ R hR w).1 a hf.1.aux)
  have := optimum_le m hs hso ho cs x w a h w a' ⟨hf.1.factor, hf.1.tracking, hf.1.turnover, hf.1.weight, hf.1.return', hf.1.risks, ha', hf.1.ratio⟩ hf.2
  linarith

/-- **C68.** The portfolio for a target is within the limits, reaches the target, and has the least risk (plus penalty) of all portfolios within the limits that reach it. -/
theorem C68_points (size : Int) (w0 w1 : Fin n → ℝ) (targets : List ℝ) (ws : List (Fin n → ℝ)) (h : FrontierRun m cs size w0 w1 targets ws) :
    ws.length = targets.length ∧ ∀ i, (hi : i < ws.length) → (hi' : i < targets.length) → Within P m ws[i] ∧ targets[i] ≤ netExpectedReturn m ws[i] ∧
      ∀ w', Comparable P m w' → targets[i] ≤ netExpectedReturn m w' → R ws[i] + penalty m ws[i] ≤ R w' + penalty m w' := by
  refine ⟨h.points.length_eq.symm, fun i hi hi' => ?_⟩
  obtain ⟨a, ha⟩ := h.points.get hi' hi
  obtain ⟨h1, h2⟩ := C67_minimize_risk P (withTarget m targets[i]) hs hso hT hb cs hcs R hR ho ws[i] 1 a ha
  rw [returned_one] at h1 h2
  obtain ⟨h3, h4⟩ := (within_target P m _ _).1 h1
  exact ⟨h3, h4, fun w' hw' hx => h2 w' (comparable_target P m _ w' hw' hx)⟩

omit hcs in
/-- **C68.** A greater target costs at least as much risk (plus penalty). -/
theorem C68_monotone (size : Int) (w0 w1 : Fin n → ℝ) (targets : List ℝ) (ws : List (Fin n → ℝ)) (h : FrontierRun m cs size w0 w1 targets ws)
    (hle : max (netExpectedReturn m w0) (1 / 10 ^ 10) * (101 / 100) ≤ netExpectedReturn m w1) (i j : Nat) (hij : i ≤ j) (hj : j < ws.length) :
    R w0 + penalty m w0 ≤ R ws[i] + penalty m ws[i] ∧ R ws[i] + penalty m ws[i] ≤ R ws[j] + penalty m ws[j] := by
  have hlen := h.points.length_eq
  have hi' : i < targets.length := by omega
  have hj' : j < targets.length := by omega
  have hi : i < ws.length := by omega
  obtain ⟨a, ha⟩ : ∃ a : (riskProgram m m.riskMeasure ws[i] 1).Aux, IsOptimum (withTarget m targets[i]) cs ws[i] 1 a := h.points.get hi' hi
  obtain ⟨b, hb'⟩ : ∃ b : (riskProgram m m.riskMeasure ws[j] 1).Aux, IsOptimum (withTarget m targets[j]) cs ws[j] 1 b := h.points.get hj' hj
  have ha1 := (feasible_target m _ hs cs _ a).1 ha.1
  have hb1 := (feasible_target m _ hs cs _ b).1 hb'.1
  have hmono : targets[i] ≤ targets[j] := by
    have := h.targets_eq
    unfold frontierTargets at this
    split_ifs at this with h1 h2 h3
    cases this
    have h2N : 2 ≤ size.toNat := by omega
    have hN' : (2 : ℝ) ≤ (size.toNat : ℝ) := by exact_mod_cast h2N
    rw [linspace_get _ _ _ h2N, linspace_get _ _ _ h2N, expected_one, expected_one]
    have hstep : 0 ≤ (netExpectedReturn m w1 - max (netExpectedReturn m w0) (1 / 10 ^ 10) * (101 / 100)) / ((size.toNat : ℝ) - 1) := div_nonneg (by linarith) (by linarith)
    have hc : (i : ℝ) ≤ j := by exact_mod_cast hij
    have := mul_le_mul_of_nonneg_right hc hstep
    linarith
  have e1 := optimum_risk P m hs hso hT hb ho cs R hR _ _ a ha
  have e2 := optimum_risk P m hs hso hT hb ho cs R hR _ _ b hb'
  constructor
  · obtain ⟨a0, ha0⟩ := h.minimum
    have hm : ({ m with objective := .minimizeRisk } : MeanRisk n T) = m := by rw [← ho]
    have hopt := ha0.2 ws[i] 1 a ⟨fun _ => rfl, ha1.1.tracking, ha1.1.turnover, ha1.1.weight, ha1.1.return', ha1.1.risks, ha1.1.aux, fun h => by cases h⟩
    unfold objectiveValue at hopt
    change (riskProgram m m.riskMeasure w0 1).risk a0 * m.scaleObjective + penalty m w0 * m.scaleObjective ≤ (riskProgram m m.riskMeasure ws[i] 1).risk a * m.scaleObjective + penalty m ws[i] * m.scaleObjective at hopt
    rw [← add_mul, ← add_mul, mul_le_mul_iff_left₀ hso] at hopt
    have := (risk_glb P m hs hT hb _ R hR w0).1 a0 ha0.1.aux
    linarith
  · have := optimum_le m hs hso ho cs _ _ a ha _ b hb1.1 (hmono.trans hb1.2)
    linarith

/-- **C68.** Every portfolio of the frontier is efficient: a portfolio within the limits with a greater return has a greater risk (plus penalty) — unless the risk is already the least of all. With
convex limits; the targets are attainable. -/
theorem C68_efficient (hmip : isMip m.weights = false) (hu : ∀ kappa S, m.uncertainty = some (kappa, S) → 0 ≤ kappa) (hl1 : 0 ≤ m.l1Coef) (hl2 : 0 ≤ m.l2Coef)
    (size : Int) (w0 w1 : Fin n → ℝ) (targets : List ℝ) (ws : List (Fin n → ℝ)) (h : FrontierRun m cs size w0 w1 targets ws)
    (hle : max (netExpectedReturn m w0) (1 / 10 ^ 10) * (101 / 100) ≤ netExpectedReturn m w1) (i : Nat) (hi : i < ws.length) :
    (∀ w', Comparable P m w' → netExpectedReturn m ws[i] < netExpectedReturn m w' → R ws[i] + penalty m ws[i] < R w' + penalty m w') ∨
    ∀ w', Comparable P m w' → R ws[i] + penalty m ws[i] ≤ R w' + penalty m w' := by
  have hlen := h.points.length_eq
  have hi' : i < targets.length := by omega
  obtain ⟨a, ha⟩ : ∃ a : (riskProgram m m.riskMeasure ws[i] 1).Aux, IsOptimum (withTarget m targets[i]) cs ws[i] 1 a := h.points.get hi' hi
  have ha1 := (feasible_target m _ hs cs _ a).1 ha.1
  have ea := optimum_risk P m hs hso hT hb ho cs R hR _ _ a ha
  obtain ⟨a0, ha0⟩ := h.minimum
  have hm : ({ m with objective := .minimizeRisk } : MeanRisk n T) = m := by rw [← ho]
  have hmin : Within P m w0 ∧ ∀ w', Comparable P m w' → R w0 + penalty m w0 ≤ R w' + penalty m w' := by
    have := C67_minimize_risk P { m with objective := .minimizeRisk } hs hso hT hb cs (by rw [← hcs, factorIsVariable, factorIsVariable, ho]) R hR rfl w0 1 a0 ha0
    rw [returned_one] at this
    rw [hm] at this
    exact this
  have hf0 : Feasible m cs w0 1 a0 := ⟨fun _ => rfl, ha0.1.tracking, ha0.1.turnover, ha0.1.weight, ha0.1.return', ha0.1.risks, ha0.1.aux, fun h => by rw [ho] at h; cases h⟩
  have hr : m.objective ≠ .maximizeRatio := by rw [ho]; decide
  have ht := (target_bounds _ _ _ _ _ h.targets_eq (by rwa [expected_one, expected_one]) i hi').1
  rw [expected_one] at ht
  have hx0 : netExpectedReturn m w0 < targets[i] := (first_above _).trans_le ht
  have e0 : (riskProgram m m.riskMeasure w0 1).risk a0 = R w0 := by
    refine le_antisymm ((risk_glb P m hs hT hb _ R hR w0).2 _ fun a' ha' => ?_) ((risk_glb P m hs hT hb _ R hR w0).1 a0 hf0.aux)
    have hopt := ha0.2 w0 1 a' ⟨fun _ => rfl, hf0.tracking, hf0.turnover, hf0.weight, hf0.return', hf0.risks, ha', fun h => by cases h⟩
    unfold objectiveValue at hopt
    change (riskProgram m m.riskMeasure w0 1).risk a0 * m.scaleObjective + penalty m w0 * m.scaleObjective ≤ (riskProgram m m.riskMeasure w0 1).risk a' * m.scaleObjective + penalty m w0 * m.scaleObjective at hopt
    rw [← add_mul, ← add_mul, mul_le_mul_iff_left₀ hso] at hopt
    linarith
  by_cases hleast : R ws[i] + penalty m ws[i] ≤ R w0 + penalty m w0
  · exact Or.inr fun w' hw' => hleast.trans (hmin.2 w' hw')
  refine Or.inl fun w' hw' hgt => ?_
  rw [not_le] at hleast
  by_contra hcon
  rw [not_lt] at hcon
  obtain ⟨x, hx⟩ : ∃ x, x = targets[i] := ⟨_, rfl⟩
  rw [← hx] at hx0 ha1 ha
  have hgx : x < netExpectedReturn m w' := ha1.2.trans_lt hgt
  obtain ⟨t, htdef⟩ : ∃ t, t = (x - netExpectedReturn m w0) / (netExpectedReturn m w' - netExpectedReturn m w0) := ⟨_, rfl⟩
  have hden : 0 < netExpectedReturn m w' - netExpectedReturn m w0 := by linarith
  have ht0 : 0 < t := by rw [htdef]; exact div_pos (by linarith) hden
  have ht1 : t < 1 := by rw [htdef, div_lt_one hden]; linarith
  have htx : t * (netExpectedReturn m w' - netExpectedReturn m w0) = x - netExpectedReturn m w0 := by rw [htdef, div_mul_cancel₀ _ hden.ne']
  have key : ∀ b, (riskProgram m m.riskMeasure w' 1).feasible b → R ws[i] + penalty m ws[i] ≤ (1 - t) * (R w0 + penalty m w0) + t * ((riskProgram m m.riskMeasure w' 1).risk b + penalty m w') := by
    intro b hb'
    obtain ⟨c, hc, hcle⟩ := feasible_mix m hs hT hr hmip cs hcs hu t ht0 ht1 w0 w' a0 hf0 b (comparable_feasible P m hs hT hb hr cs hcs w' hw' b hb')
    have hret := return_mix m hu t ht0.le ht1.le w0 w'
    have h1 := optimum_le m hs hso ho cs x _ a ha _ c hc (by linarith)
    have h2 := penalty_mix m hl1 hl2 t ht0.le ht1.le w0 w'
    rw [ea] at h1
    rw [e0] at hcle
    linarith
  have hR' : ((R ws[i] + penalty m ws[i] - (1 - t) * (R w0 + penalty m w0)) / t - penalty m w') ≤ R w' := by
    refine (risk_glb P m hs hT hb _ R hR w').2 _ fun b hb' => ?_
    rw [sub_le_iff_le_add, div_le_iff₀ ht0]
    linarith [key b hb']
  rw [sub_le_iff_le_add, div_le_iff₀ ht0] at hR'
  nlinarith [mul_le_mul_of_nonneg_left hcon ht0.le, mul_lt_mul_of_pos_left hleast (by linarith : 0 < 1 - t)]

/-- **C68.** Without penalties the last portfolio has the greatest return within the limits, and the least risk among those of this return. -/
theorem C68_last (hl1 : m.l1Coef = 0) (hl2 : m.l2Coef = 0) (size : Int) (w0 w1 : Fin n → ℝ) (targets : List ℝ) (ws : List (Fin n → ℝ)) (h : FrontierRun m cs size w0 w1 targets ws) :
    ∃ w, ws.getLast? = some w ∧ (∀ w', Comparable P m w' → netExpectedReturn m w' ≤ netExpectedReturn m w) ∧
      ∀ w', Comparable P m w' → netExpectedReturn m w ≤ netExpectedReturn m w' → R w ≤ R w' := by
  have hlen := h.points.length_eq
  obtain ⟨hsz, -, hlast, -⟩ := (C68_targets _ _ _ _).2 targets h.targets_eq
  have hsize : 1 < size := by
    by_contra hcon
    obtain ⟨e, he⟩ := (C68_targets m.objective (expectedReturn m w0 1) (expectedReturn m w1 1) size).1.2 (Or.inl (by omega))
    rw [h.targets_eq] at he
    cases he
  have hpos : 0 < ws.length := by omega
  obtain ⟨-, hp⟩ := C68_points P m hs hso hT hb ho cs hcs R hR size w0 w1 targets ws h
  obtain ⟨h1, h2, h3⟩ := hp (ws.length - 1) (by omega) (by omega)
  have hpen : ∀ w, penalty m w = 0 := fun w => by simp [penalty, hl1, hl2]
  have htx : targets[ws.length - 1]'(by omega) = netExpectedReturn m w1 := by
    rw [List.getLast?_eq_getElem?, List.getElem?_eq_getElem (by omega)] at hlast
    have := Option.some.inj hlast
    rw [expected_one] at this
    simpa [hlen] using this
  rw [htx] at h2 h3
  obtain ⟨a1, ha1⟩ := h.maximum
  have hmax := C67_maximize_return P { m with objective := .maximizeReturn } hs hso hT hb cs (by rw [← hcs, factorIsVariable, factorIsVariable, ho]; rfl) R hR rfl w1 1 a1 ha1
  rw [returned_one] at hmax
  have hmax' : ∀ w', Comparable P m w' → netExpectedReturn m w' ≤ netExpectedReturn m w1 := by
    intro w' hw'
    have := hmax.2 w' ⟨⟨hw'.within.limits, hw'.within.cardinality, ⟨hw'.within.returns.turnover, hw'.within.returns.minReturn⟩, hw'.within.tracking, hw'.within.risks⟩, hw'.entropic, hw'.bigM⟩
    change netExpectedReturn m w' - penalty m w' ≤ netExpectedReturn m w1 - penalty m w1 at this
    rwa [hpen, hpen, sub_zero, sub_zero] at this
  refine ⟨ws[ws.length - 1], ?_, fun w' hw' => (hmax' w' hw').trans h2, fun w' hw' hw1 => ?_⟩
  · rw [List.getLast?_eq_getElem?, List.getElem?_eq_getElem (by omega)]
  · have := h3 w' hw' (h2.trans hw1)
    rwa [hpen, hpen, add_zero, add_zero] at this

omit hT hb hcs hR hso in
/-- **C68.** When the first target does not exceed the greatest return, the problem of every target has a solution candidate: the maximum return portfolio reaches all targets. The minimum risk portfolio
reaches none. -/
theorem C68_attainable (size : Int) (w0 w1 : Fin n → ℝ) (targets : List ℝ) (h1 : ∃ a, IsOptimum { m with objective := .maximizeReturn } cs w1 1 a)
    (ht : frontierTargets m.objective (expectedReturn m w0 1) (expectedReturn m w1 1) size = .ok targets)
    (hle : max (netExpectedReturn m w0) (1 / 10 ^ 10) * (101 / 100) ≤ netExpectedReturn m w1) (i : Nat) (hi : i < targets.length) :
    (∃ a : (riskProgram m m.riskMeasure w1 1).Aux, Feasible (withTarget m targets[i]) cs w1 1 a) ∧ ∀ a : (riskProgram m m.riskMeasure w0 1).Aux, ¬ Feasible (withTarget m targets[i]) cs w0 1 a := by
  obtain ⟨h2, h3⟩ := target_bounds _ _ _ _ _ ht (by rwa [expected_one, expected_one]) i hi
  rw [expected_one] at h2 h3
  obtain ⟨a, ha⟩ := h1
  refine ⟨⟨a, (feasible_target m _ hs cs w1 a).2 ⟨⟨fun _ => rfl, ha.1.tracking, ha.1.turnover, ha.1.weight, ha.1.return', ha.1.risks, ha.1.aux, fun h => by rw [ho] at h; cases h⟩, h3⟩⟩, fun b hb => ?_⟩
  have := ((feasible_target m _ hs cs w0 b).1 hb).2
  linarith [first_above (netExpectedReturn m w0)]

omit hT hb hcs hR in
/-- **C68.** Finding: when the return of the minimum risk portfolio is less than 1 % below the greatest return, no portfolio reaches the first target: the fit fails. -/
theorem C68_unattainable (hl1 : m.l1Coef = 0) (hl2 : m.l2Coef = 0) (size : Int) (w0 w1 : Fin n → ℝ) (targets : List ℝ) (h1 : ∃ a, IsOptimum { m with objective := .maximizeReturn } cs w1 1 a)
    (ht : frontierTargets m.objective (expectedReturn m w0 1) (expectedReturn m w1 1) size = .ok targets)
    (hgt : netExpectedReturn m w1 < max (netExpectedReturn m w0) (1 / 10 ^ 10) * (101 / 100)) :
    ∃ x, targets.head? = some x ∧ ∀ w k a, ¬ Feasible (withTarget m x) cs w k a := by
  obtain ⟨-, hhead, -, -⟩ := (C68_targets _ _ _ _).2 targets ht
  rw [expected_one] at hhead
  refine ⟨_, hhead, fun w k a hf => ?_⟩
  have hk : k = 1 := hf.factor (by change m.objective ≠ _; rw [ho]; decide)
  subst hk
  obtain ⟨hf1, hx⟩ := (feasible_target m _ hs cs w a).1 hf
  obtain ⟨b, hb⟩ := h1
  have hopt := hb.2 w 1 a ⟨fun _ => rfl, hf1.tracking, hf1.turnover, hf1.weight, hf1.return', hf1.risks, hf1.aux, fun h => by cases h⟩
  have hpen : ∀ w, regularization m w = 0 := fun w => by simp [regularization, hl1, hl2]
  unfold objectiveValue at hopt
  change -(expectedReturn m w1 1 * m.scaleObjective - regularization m w1 * m.scaleObjective) ≤ -(expectedReturn m w 1 * m.scaleObjective - regularization m w * m.scaleObjective) at hopt
  rw [hpen, hpen, neg_le_neg_iff, zero_mul, sub_zero, sub_zero, mul_le_mul_iff_left₀ hso, expected_one, expected_one] at hopt
  linarith

end

end

end Skfolio.Convex
