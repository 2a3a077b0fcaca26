import Verif.Convex.RiskBudgetingModel
import Verif.Convex.Additive
import Mathlib.Analysis.SpecialFunctions.Log.Deriv
import Mathlib.Analysis.SpecialFunctions.ExpDeriv
import Mathlib.Analysis.Calculus.LocalExtr.Basic
import Mathlib.Analysis.Calculus.Deriv.Slope

/-!
**C60**: the weights of `RiskBudgeting` have risk contributions in the proportion of the risk budget.
-/
set_option autoImplicit false

namespace Skfolio.Convex

open Skfolio.Measures

section
variable {n T : Nat}

/-! ### Specification -/

/-- `R` gives the risk of portfolios by the measure's own definition (Verif.Measures; EVaR and EDaR are infima). -/
def IsRiskOf (P : Partition ℝ) (m : MeanRisk n T) (r : RiskMeasure) (R : (Fin n → ℝ) → ℝ) : Prop := ∀ w x, RiskAtMost P m r w x ↔ R w ≤ x

/-- The limits on the weights exclude no fully invested portfolio with positive weights; the default limits (between 0 and 1) are such. -/
def NoLimits (p : Params ℝ n) : Prop := p.budget = some 1 ∧ isMip p = false ∧ ∀ w : Fin n → ℝ, (∀ i, 0 < w i) → ∑ i, w i = 1 → RespectsLimits p w

/-- The risk does not change with the size of the previous position: no previous weights where there are transaction costs; and no risk-free rate in the first lower partial moment. -/
def ScaleFree (m : MeanRisk n T) : Prop := (∀ i, m.data.transactionCosts i * m.data.previousWeights i = 0) ∧ (m.riskMeasure = .firstLowerPartialMoment → m.data.riskFreeRate = 0)

/-- The share of an asset in the risk budget. -/
noncomputable def share (b : Fin n → ℝ) (i : Fin n) : ℝ := b i / ∑ j, b j

/-! ### The argument for a subadditive, homogeneous risk -/

theorem log_scaled (b w : Fin n → ℝ) (hw : ∀ i, 0 < w i) (l : ℝ) (hl : 0 < l) : ∑ i, b i * Real.log (scaled l w i) = (∑ i, b i) * Real.log l + ∑ i, b i * Real.log (w i) := by
  rw [Finset.sum_mul, ← Finset.sum_add_distrib]
  refine Finset.sum_congr rfl fun i _ => ?_
  rw [scaled, Real.log_mul hl.ne' (hw i).ne']
  ring

/-- A minimiser of the risk among the positive vectors with `∑ b log w ≥ 0`: its risk is not negative, and `v ↦ ρ(w) ∑ (b_i / B) (v_i / w_i)` is below the risk everywhere, that is, `ρ(w) b_i / (B w_i)` is a subgradient of the risk at `w`. -/
theorem budget_core (rho : (Fin n → ℝ) → ℝ) (hsub : ∀ v v', rho (v + v') ≤ rho v + rho v') (hpos : ∀ l v, 0 < l → rho (scaled l v) = l * rho v) (b : Fin n → ℝ) (hb : ∀ i, 0 < b i) (hn : 0 < n) (w : Fin n → ℝ) (hw : ∀ i, 0 < w i)
    (hlog : 0 ≤ ∑ i, b i * Real.log (w i)) (hmin : ∀ v : Fin n → ℝ, (∀ i, 0 < v i) → 0 ≤ ∑ i, b i * Real.log (v i) → rho w ≤ rho v) :
    0 ≤ rho w ∧ (0 < rho w → ∑ i, b i * Real.log (w i) = 0) ∧ ∀ v : Fin n → ℝ, rho w * ∑ i, share b i * (v i / w i) ≤ rho v := by
  have hne : Nonempty (Fin n) := ⟨⟨0, hn⟩⟩
  have hB : 0 < ∑ i, b i := Finset.sum_pos (fun i _ => hb i) Finset.univ_nonempty
  obtain ⟨B, hBe⟩ : ∃ B, B = ∑ i, b i := ⟨_, rfl⟩
  rw [← hBe] at hB
  -- every positive vector, scaled, is a competitor
  have hcomp : ∀ v : Fin n → ℝ, (∀ i, 0 < v i) → rho w * Real.exp ((∑ i, b i * Real.log (v i)) / B) ≤ rho v := by
    intro v hv
    obtain ⟨h, hh⟩ : ∃ h, h = ∑ i, b i * Real.log (v i) := ⟨_, rfl⟩
    rw [← hh]
    have he : 0 < Real.exp (-(h / B)) := Real.exp_pos _
    have h1 := hmin (scaled (Real.exp (-(h / B))) v) (fun i => mul_pos he (hv i)) (by
      rw [log_scaled b v hv _ he, Real.log_exp, ← hBe, ← hh]
      have : B * (-(h / B)) + h = 0 := by field_simp; ring
      rw [this])
    rw [hpos _ _ he] at h1
    have h2 := mul_le_mul_of_nonneg_right h1 (Real.exp_pos (h / B)).le
    have h3 : Real.exp (-(h / B)) * rho v * Real.exp (h / B) = rho v := by
      rw [mul_right_comm, ← Real.exp_add, neg_add_cancel, Real.exp_zero, one_mul]
    linarith
  have h0 : 0 ≤ rho w := by
    have h2 := hmin (scaled 2 w) (fun i => mul_pos (by norm_num) (hw i)) (by
      rw [log_scaled b w hw 2 (by norm_num), ← hBe]
      have : 0 < Real.log 2 := Real.log_pos (by norm_num)
      positivity)
    rw [hpos _ _ (by norm_num)] at h2
    linarith
  have hbind : 0 < rho w → ∑ i, b i * Real.log (w i) = 0 := by
    intro hp
    by_contra hne
    have hlt : 0 < ∑ i, b i * Real.log (w i) := lt_of_le_of_ne hlog (Ne.symm hne)
    have := hcomp w hw
    have h1 : 1 < Real.exp ((∑ i, b i * Real.log (w i)) / B) := Real.one_lt_exp_iff.2 (div_pos hlt hB)
    nlinarith
  refine ⟨h0, hbind, fun v => ?_⟩
  rcases h0.eq_or_lt with hz | hp
  · rw [← hz, zero_mul]
    -- a small step in the direction of v
    obtain ⟨e, he, hev⟩ : ∃ e : ℝ, 0 < e ∧ ∀ i, 0 < w i + e * v i := by
      have : ∀ᶠ e in nhdsWithin (0 : ℝ) (Set.Ioi 0), ∀ i, 0 < w i + e * v i := by
        rw [Filter.eventually_all]
        intro i
        have hc : Filter.Tendsto (fun e : ℝ => w i + e * v i) (nhds 0) (nhds (w i + 0 * v i)) := by
          apply Continuous.tendsto
          fun_prop
        rw [zero_mul, add_zero] at hc
        exact (hc.eventually (lt_mem_nhds (hw i))).filter_mono nhdsWithin_le_nhds
      obtain ⟨e, h1, h2⟩ := (this.and self_mem_nhdsWithin).exists
      exact ⟨e, h2, h1⟩
    have h1 := hcomp (w + scaled e v) hev
    rw [← hz, zero_mul] at h1
    have h2 := hsub w (scaled e v)
    rw [hpos _ _ he, ← hz, zero_add] at h2
    exact nonneg_of_mul_nonneg_right (h1.trans h2) he
  · -- the derivative of exp(h(t) / B) at 0
    have hsum := hbind hp
    obtain ⟨s, hs⟩ : ∃ s, s = ∑ i, share b i * (v i / w i) := ⟨_, rfl⟩
    have hd : HasDerivAt (fun t : ℝ => Real.exp ((∑ i, b i * Real.log (w i + t * v i)) / B)) s 0 := by
      have hl : ∀ i, HasDerivAt (fun t : ℝ => b i * Real.log (w i + t * v i)) (b i * (v i / w i)) 0 := by
        intro i
        have h1 : HasDerivAt (fun t : ℝ => w i + t * v i) (v i) 0 := by
          simpa using ((hasDerivAt_id (0 : ℝ)).mul_const (v i)).const_add (w i)
        have h2 := (h1.log (by simpa using (hw i).ne')).const_mul (b i)
        simpa using h2
      have h3 := ((HasDerivAt.fun_sum (u := Finset.univ) fun i _ => hl i).div_const B).exp
      have e0 : (∑ i, b i * Real.log (w i + 0 * v i)) / B = 0 := by simp [hsum]
      rw [e0, Real.exp_zero, one_mul] at h3
      have e1 : (∑ i, b i * (v i / w i)) / B = s := by
        rw [hs, Finset.sum_div]
        refine Finset.sum_congr rfl fun i _ => ?_
        rw [share, ← hBe]
        ring
      rw [e1] at h3
      exact h3
    have hlim := (hasDerivAt_iff_tendsto_slope.1 hd).mono_left (nhdsWithin_mono (0 : ℝ) (s := Set.Ioi 0) (by intro x hx; exact ne_of_gt hx))
    have hev : ∀ᶠ e in nhdsWithin (0 : ℝ) (Set.Ioi 0), ∀ i, 0 < w i + e * v i := by
      rw [Filter.eventually_all]
      intro i
      have hc : Filter.Tendsto (fun e : ℝ => w i + e * v i) (nhds 0) (nhds (w i + 0 * v i)) := by
        apply Continuous.tendsto
        fun_prop
      rw [zero_mul, add_zero] at hc
      exact (hc.eventually (lt_mem_nhds (hw i))).filter_mono nhdsWithin_le_nhds
    rw [← hs]
    have hle : ∀ᶠ e in nhdsWithin (0 : ℝ) (Set.Ioi 0), slope (fun t : ℝ => Real.exp ((∑ i, b i * Real.log (w i + t * v i)) / B)) 0 e ≤ rho v / rho w := by
      filter_upwards [hev, self_mem_nhdsWithin] with e h1 h2
      have h2 : 0 < e := h2
      have h3 := hcomp (w + scaled e v) h1
      have h4 := hsub w (scaled e v)
      rw [hpos _ _ h2] at h4
      rw [slope_def_field]
      have e0 : (∑ i, b i * Real.log (w i + 0 * v i)) / B = 0 := by simp [hsum]
      rw [e0, Real.exp_zero, sub_zero, div_le_div_iff₀ h2 hp]
      have h5 : rho w * Real.exp ((∑ i, b i * Real.log (w i + e * v i)) / B) ≤ rho w + e * rho v := h3.trans h4
      linarith
    have := le_of_tendsto hlim hle
    rw [le_div_iff₀ hp] at this
    linarith

/-- Conversely such a vector is a minimiser. -/
theorem budget_core_converse (rho : (Fin n → ℝ) → ℝ) (b : Fin n → ℝ) (hb : ∀ i, 0 < b i) (hn : 0 < n) (w : Fin n → ℝ) (hw : ∀ i, 0 < w i) (hlog : ∑ i, b i * Real.log (w i) = 0) (h0 : 0 ≤ rho w)
    (h : ∀ v : Fin n → ℝ, (∀ i, 0 < v i) → rho w * ∑ i, share b i * (v i / w i) ≤ rho v) (v : Fin n → ℝ) (hv : ∀ i, 0 < v i) (hvl : 0 ≤ ∑ i, b i * Real.log (v i)) : rho w ≤ rho v := by
  have hne : Nonempty (Fin n) := ⟨⟨0, hn⟩⟩
  have hB : 0 < ∑ i, b i := Finset.sum_pos (fun i _ => hb i) Finset.univ_nonempty
  have h1 : (1 : ℝ) ≤ ∑ i, share b i * (v i / w i) := by
    have : ∑ i, share b i * (1 + (Real.log (v i) - Real.log (w i))) ≤ ∑ i, share b i * (v i / w i) := by
      refine Finset.sum_le_sum fun i _ => mul_le_mul_of_nonneg_left ?_ (div_nonneg (hb i).le hB.le)
      have := Real.log_le_sub_one_of_pos (div_pos (hv i) (hw i))
      rw [Real.log_div (hv i).ne' (hw i).ne'] at this
      linarith
    refine le_trans ?_ this
    have e : ∑ i, share b i * (1 + (Real.log (v i) - Real.log (w i))) = ((∑ i, b i) + ((∑ i, b i * Real.log (v i)) - ∑ i, b i * Real.log (w i))) / ∑ i, b i := by
      rw [← Finset.sum_sub_distrib, ← Finset.sum_add_distrib, Finset.sum_div]
      refine Finset.sum_congr rfl fun i _ => ?_
      rw [share]
      ring
    rw [e, hlog, sub_zero, le_div_iff₀ hB]
    linarith
  calc rho w = rho w * 1 := (mul_one _).symm
    _ ≤ rho w * ∑ i, share b i * (v i / w i) := mul_le_mul_of_nonneg_left h1 h0
    _ ≤ rho v := h v hv

/-! ### The measures -/

theorem cost_scaleFree (m : MeanRisk n T) (h : ScaleFree m) (w : Fin n → ℝ) (k : ℝ) : transactionCost m.data w k = transactionCost m.data w 1 := by
  unfold transactionCost
  refine Finset.sum_congr rfl fun i _ => ?_
  rw [mul_sub, mul_sub, ← mul_assoc, ← mul_assoc, h.1 i, zero_mul, zero_mul]

theorem program_scaleFree (m : MeanRisk n T) (h : ScaleFree m) (w : Fin n → ℝ) (k : ℝ) : riskProgram m m.riskMeasure w k = riskProgram m m.riskMeasure w 1 := by
  have hc := cost_scaleFree m h w k
  have hr := h.2
  have hdd : drawdownFeasible m.data w k m.scale = drawdownFeasible m.data w 1 m.scale := by
    funext v
    simp only [drawdownFeasible, hc]
  cases hm : m.riskMeasure with
  | firstLowerPartialMoment => simp only [riskProgram, flpmRisk, hr hm, zero_mul]
  | worstRealization => simp only [riskProgram, worstRealizationRisk, hc]
  | cvar => simp only [riskProgram, cvarRisk, hc]
  | maxDrawdown => simp only [riskProgram, maxDrawdownRisk, hdd]
  | averageDrawdown => simp only [riskProgram, averageDrawdownRisk, hdd]
  | cdar => simp only [riskProgram, cdarRisk, hdd]
  | edar => simp only [riskProgram, edarRisk, hdd]
  | ulcerIndex => simp only [riskProgram, ulcerIndexRisk, hdd]
  | giniMeanDifference => simp only [riskProgram, giniRisk, hc]
  | _ => simp only [riskProgram]

/-- The measure is the greatest lower bound of the program. -/
theorem risk_glb (P : Partition ℝ) (m : MeanRisk n T) (hs : 0 < m.scale) (hT : 2 ≤ T) (hb : BetasOk m) (r : RiskMeasure) (R : (Fin n → ℝ) → ℝ) (hR : IsRiskOf P m r R) (w : Fin n → ℝ) :
    (∀ a, (riskProgram m r w 1).feasible a → R w ≤ (riskProgram m r w 1).risk a) ∧ ∀ b, (∀ a, (riskProgram m r w 1).feasible a → b ≤ (riskProgram m r w 1).risk a) → b ≤ R w := by
  refine ⟨fun a ha => (hR w _).1 ((program_atMost P m hs hT hb r w _).1 ⟨a, ha, le_refl _⟩), fun b hbd => ?_⟩
  have hself : RiskAtMost P m r w (R w) := (hR w _).2 (le_refl _)
  obtain ⟨-, ⟨e0, e1⟩, -, f0, f1⟩ := id hb
  by_cases h1 : r = .evar
  · subst h1
    exact hself b ((C17_evar { m.data with transactionCosts := fun _ => 0 } w 1 m.scale hs (by omega) m.evarBeta e0 e1 (fun _ => rfl) b).1 hbd)
  · by_cases h2 : r = .edar
    · subst h2
      exact hself b ((C17_edar m.data w 1 m.scale hs (by omega) m.edarBeta f0 f1 b).1 hbd)
    · obtain ⟨a, ha, hx⟩ := (program_atMost P m hs hT hb r w _).2 h1 h2 hself
      exact (hbd a ha).trans hx

theorem root_mono (r : RiskMeasure) {x y : ℝ} (h : x ≤ y) : root r x ≤ root r y := by
  unfold root
  split_ifs
  · exact Real.sqrt_le_sqrt h
  · exact h

theorem degree_cases (r : RiskMeasure) : degree r = 1 ∨ degree r = 2 := by cases r <;> simp [degree]

section
variable (P : Partition ℝ) (m : MeanRisk n T) (hs : 0 < m.scale) (hT : 2 ≤ T) (hb : BetasOk m) (R : (Fin n → ℝ) → ℝ) (hR : IsRiskOf P m m.riskMeasure R) (hf : ScaleFree m)
include hs hT hb hR hf

theorem risk_scaled_le (l : ℝ) (hl : 0 < l) (v : Fin n → ℝ) : R (scaled l v) ≤ l ^ degree m.riskMeasure * R v := by
  have hld : 0 < l ^ degree m.riskMeasure := pow_pos hl _
  rw [mul_comm, ← div_le_iff₀ hld]
  refine (risk_glb P m hs hT hb _ R hR v).2 _ fun a ha => ?_
  rw [div_le_iff₀ hld]
  obtain ⟨a', ha', he⟩ := program_scaled m m.riskMeasure v 1 l hl a ha
  have : ∃ a', (riskProgram m m.riskMeasure (scaled l v) (l * 1)).feasible a' ∧ (riskProgram m m.riskMeasure (scaled l v) (l * 1)).risk a' = l ^ degree m.riskMeasure * (riskProgram m m.riskMeasure v 1).risk a := ⟨a', ha', he⟩
  rw [program_scaleFree m hf] at this
  obtain ⟨c, hc, hce⟩ := this
  rw [mul_comm, ← hce]
  exact (risk_glb P m hs hT hb _ R hR _).1 c hc

theorem risk_scaled (l : ℝ) (hl : 0 < l) (v : Fin n → ℝ) : R (scaled l v) = l ^ degree m.riskMeasure * R v := by
  refine le_antisymm (risk_scaled_le P m hs hT hb R hR hf l hl v) ?_
  have h := risk_scaled_le P m hs hT hb R hR hf l⁻¹ (inv_pos.2 hl) (scaled l v)
  have e : scaled l⁻¹ (scaled l v) = v := by
    funext i
    simp only [scaled]
    rw [← mul_assoc, inv_mul_cancel₀ hl.ne', one_mul]
  rw [e, inv_pow] at h
  have hld : 0 < l ^ degree m.riskMeasure := pow_pos hl _
  calc l ^ degree m.riskMeasure * R v ≤ l ^ degree m.riskMeasure * ((l ^ degree m.riskMeasure)⁻¹ * R (scaled l v)) := mul_le_mul_of_nonneg_left h hld.le
    _ = R (scaled l v) := by rw [← mul_assoc, mul_inv_cancel₀ hld.ne', one_mul]

omit hf in
theorem risk_nonneg (hd : degree m.riskMeasure = 2) (v : Fin n → ℝ) : 0 ≤ R v := by
  refine (risk_glb P m hs hT hb _ R hR v).2 _ ?_
  have hT' : (2 : ℝ) ≤ T := by exact_mod_cast hT
  cases hm : m.riskMeasure with
  | variance => intro (a : ℝ) _; exact sq_nonneg a
  | semiVariance =>
    intro (a : Fin T → ℝ) _
    exact div_nonneg (Finset.sum_nonneg fun t _ => sq_nonneg _) (by linarith)
  | _ => rw [hm] at hd; simp [degree] at hd

theorem root_scaled (l : ℝ) (v : Fin n → ℝ) (hl : 0 < l) : root m.riskMeasure (R (scaled l v)) = l * root m.riskMeasure (R v) := by
  rw [risk_scaled P m hs hT hb R hR hf l hl]
  rcases degree_cases m.riskMeasure with h | h
  · simp [root, h]
  · simp only [root, h, if_true]
    rw [Real.sqrt_mul (sq_nonneg l), Real.sqrt_sq hl.le]

theorem root_add (v v' : Fin n → ℝ) : root m.riskMeasure (R (v + v')) ≤ root m.riskMeasure (R v) + root m.riskMeasure (R v') := by
  have key : ∀ a, (riskProgram m m.riskMeasure v 1).feasible a → ∀ a', (riskProgram m m.riskMeasure v' 1).feasible a' →
      root m.riskMeasure (R (v + v')) ≤ root m.riskMeasure ((riskProgram m m.riskMeasure v 1).risk a) + root m.riskMeasure ((riskProgram m m.riskMeasure v' 1).risk a') := by
    intro a ha a' ha'
    obtain ⟨c, hc, hle⟩ := program_add m hs m.riskMeasure v v' 1 1 a ha a' ha'
    have : ∃ c, (riskProgram m m.riskMeasure (v + v') (1 + 1)).feasible c ∧ root m.riskMeasure ((riskProgram m m.riskMeasure (v + v') (1 + 1)).risk c) ≤
        root m.riskMeasure ((riskProgram m m.riskMeasure v 1).risk a) + root m.riskMeasure ((riskProgram m m.riskMeasure v' 1).risk a') := ⟨c, hc, hle⟩
    rw [program_scaleFree m hf] at this
    obtain ⟨c, hc, hle⟩ := this
    exact (root_mono _ ((risk_glb P m hs hT hb _ R hR _).1 c hc)).trans hle
  rcases degree_cases m.riskMeasure with h | h
  · have hr : ∀ x, root m.riskMeasure x = x := fun x => by simp [root, h]
    simp only [hr] at key ⊢
    rw [← sub_le_iff_le_add]
    refine (risk_glb P m hs hT hb _ R hR v).2 _ fun a ha => ?_
    rw [sub_le_comm]
    refine (risk_glb P m hs hT hb _ R hR v').2 _ fun a' ha' => ?_
    linarith [key a ha a' ha']
  · have h1 : m.riskMeasure ≠ .evar := by intro hm; rw [hm] at h; simp [degree] at h
    have h2 : m.riskMeasure ≠ .edar := by intro hm; rw [hm] at h; simp [degree] at h
    obtain ⟨a, ha, hx⟩ := (program_atMost P m hs hT hb m.riskMeasure v _).2 h1 h2 ((hR v _).2 (le_refl (R v)))
    obtain ⟨a', ha', hx'⟩ := (program_atMost P m hs hT hb m.riskMeasure v' _).2 h1 h2 ((hR v' _).2 (le_refl (R v')))
    exact (key a ha a' ha').trans (add_le_add (root_mono _ hx) (root_mono _ hx'))

end

/-- The budget constraint: the scale is the sum of the weights. -/
theorem factor_eq_sum (p : Params ℝ n) (hbud : p.budget = some 1) (fv al : Bool) (s : ℝ) (hs : 0 < s) (cs : List (Constraint ℝ n)) (h : getWeightConstraints p fv al s = .ok cs) (w : Fin n → ℝ) (k : ℝ) (hw : ∀ c ∈ cs, c w k) : ∑ i, w i = k := by
  obtain ⟨a, mm, ha, -, rfl, -⟩ := constraints_split p fv al s cs h
  unfold simpleConstraints at ha
  obtain ⟨a1, _, ha⟩ := ok_bind ha
  obtain ⟨a2, _, ha⟩ := ok_bind ha
  obtain ⟨a3, _, ha⟩ := ok_bind ha
  obtain ⟨e, he, ha⟩ := ok_bind ha
  cases ha
  unfold budgetConstraint at he
  rw [hbud] at he
  dsimp only at he
  split_ifs at he
  cases he
  have := hw (fun w k => (∑ i, w i) * s = 1 * k * s) (by simp)
  rw [one_mul] at this
  exact mul_right_cancel₀ hs.ne' this

/-! ### C60 -/

section
variable (P : Partition ℝ) (m : RiskBudgeting n T) (hs : 0 < m.base.scale) (hso : 0 < m.base.scaleObjective) (hT : 2 ≤ T) (hb : BetasOk m.base) (R : (Fin n → ℝ) → ℝ) (hR : IsRiskOf P m.base m.base.riskMeasure R)
  (hf : ScaleFree m.base) (hlim : NoLimits m.base.weights) (hret : m.minReturn = none) (hbud : ∀ i, 0 < riskBudget m i) (hn : 0 < n) (cs : List (Constraint ℝ n))
  (hcs : getWeightConstraints m.base.weights true false m.base.scale = .ok cs)
include hs hso hT hb hR hf hlim hret hbud hn hcs

/-- **C60.** For every risk measure: the weights `x` that `RiskBudgeting` returns are positive and add up to one, and the numbers `ρ(x) (b_i / B) / x_i` are a subgradient of the risk at `x`: the risk contributions `x_i g_i` are in
the proportion of the risk budgets `b_i`. (`ρ` is the risk, for variance and semi-variance its square root.) -/
theorem C60_subgradient (w : Fin n → ℝ) (k c : ℝ) (a : (riskProgram m.base m.base.riskMeasure w (riskFactor m.base.riskMeasure k)).Aux) (h : BudgetOptimum m cs w k c a) :
    (∀ i, 0 < returnedWeights w k i) ∧ ∑ i, returnedWeights w k i = 1 ∧ 0 ≤ R (returnedWeights w k) ∧
      ∀ v : Fin n → ℝ, root m.base.riskMeasure (R (returnedWeights w k)) * ∑ i, share (riskBudget m) i * (v i / returnedWeights w k i) ≤ root m.base.riskMeasure (R v) := by
  obtain ⟨hfe, hmin⟩ := h
  have hne : Nonempty (Fin n) := ⟨⟨0, hn⟩⟩
  have hk : ∑ i, w i = k := factor_eq_sum _ hlim.1 _ _ _ hs cs hcs w k hfe.weight
  have hk0 : 0 < k := by
    rw [← hk]
    exact Finset.sum_pos (fun i _ => hfe.positive i) Finset.univ_nonempty
  -- the risk of the optimum is at most that of every competitor
  have hle : ∀ v : Fin n → ℝ, (∀ i, 0 < v i) → 0 ≤ ∑ i, riskBudget m i * Real.log (v i) → (riskProgram m.base m.base.riskMeasure w (riskFactor m.base.riskMeasure k)).risk a ≤ R v := by
    intro v hv hvl
    have hv0 : 0 < ∑ i, v i := Finset.sum_pos (fun i _ => hv i) Finset.univ_nonempty
    refine (risk_glb P m.base hs hT hb _ R hR v).2 _ ?_
    rw [← program_scaleFree m.base hf v (riskFactor m.base.riskMeasure (∑ i, v i))]
    intro a' ha'
    have := hmin v (∑ i, v i) 0 a' ⟨hv, by rw [zero_mul]; exact mul_nonneg hvl hs.le, le_refl _, ?_, fun x hx => (by rw [hret] at hx; cases hx), ha'⟩
    · exact le_of_mul_le_mul_right this hso
    · refine (C19_weight_limits m.base.weights true false m.base.scale (∑ i, v i) hs hv0 v cs hcs hlim.2.1).2 (hlim.2.2 _ (fun i => div_pos (hv i) hv0) ?_)
      rw [← Finset.sum_div, div_self hv0.ne']
  have hlog : 0 ≤ ∑ i, riskBudget m i * Real.log (w i) := by
    have := hfe.budget
    exact hfe.nonneg.trans (le_of_mul_le_mul_right this hs)
  have hRw : R w ≤ (riskProgram m.base m.base.riskMeasure w (riskFactor m.base.riskMeasure k)).risk a := by
    have h1 := (risk_glb P m.base hs hT hb _ R hR w).1
    rw [← program_scaleFree m.base hf w (riskFactor m.base.riskMeasure k)] at h1
    exact h1 a hfe.aux
  obtain ⟨c1, -, c3⟩ := budget_core (fun v => root m.base.riskMeasure (R v)) (root_add P m.base hs hT hb R hR hf) (root_scaled P m.base hs hT hb R hR hf) (riskBudget m) hbud hn w hfe.positive hlog
    (fun v hv hvl => root_mono _ (hRw.trans (hle v hv hvl)))
  have hx : w = scaled k (returnedWeights w k) := (scaled_returned w k hk0).symm
  have hroot : root m.base.riskMeasure (R w) = k * root m.base.riskMeasure (R (returnedWeights w k)) := by
    conv_lhs => rw [hx]
    exact root_scaled P m.base hs hT hb R hR hf k _ hk0
  refine ⟨fun i => div_pos (hfe.positive i) hk0, ?_, ?_, fun v => ?_⟩
  · simp only [returnedWeights]
    rw [← Finset.sum_div, hk, div_self hk0.ne']
  · rcases degree_cases m.base.riskMeasure with hd | hd
    · have : 0 ≤ k * root m.base.riskMeasure (R (returnedWeights w k)) := by rw [← hroot]; exact c1
      simp only [root, hd] at this
      exact nonneg_of_mul_nonneg_right (by simpa using this) hk0
    · exact risk_nonneg P m.base hs hT hb R hR hd _
  · refine le_trans (le_of_eq ?_) (c3 v)
    rw [hroot]
    have : ∑ i, share (riskBudget m) i * (v i / returnedWeights w k i) = k * ∑ i, share (riskBudget m) i * (v i / w i) := by
      rw [Finset.mul_sum]
      refine Finset.sum_congr rfl fun i _ => ?_
      rw [returnedWeights, div_div_eq_mul_div]
      ring
    rw [this]
    ring

/-- **C60.** Where the risk has a partial derivative `D` with respect to the weight of asset `i`, the risk contribution `x_i D` is the share of the asset in the risk budget times the risk (times 2 for variance and semi-variance, as the
contributions add up to the degree of homogeneity times the risk). -/
theorem C60_contributions (w : Fin n → ℝ) (k c : ℝ) (a : (riskProgram m.base m.base.riskMeasure w (riskFactor m.base.riskMeasure k)).Aux) (h : BudgetOptimum m cs w k c a) (i : Fin n) (D : ℝ)
    (hD : HasDerivAt (fun t : ℝ => R (returnedWeights w k + Pi.single i t)) D 0) :
    returnedWeights w k i * D = degree m.base.riskMeasure * (share (riskBudget m) i * R (returnedWeights w k)) := by
  obtain ⟨hx, -, hx0, hsubg⟩ := C60_subgradient P m hs hso hT hb R hR hf hlim hret hbud hn cs hcs w k c a h
  obtain ⟨x, hxe⟩ : ∃ x, x = returnedWeights w k := ⟨_, rfl⟩
  rw [← hxe] at hx hx0 hsubg hD ⊢
  have hne : Nonempty (Fin n) := ⟨⟨0, hn⟩⟩
  have hB : 0 < ∑ j, riskBudget m j := Finset.sum_pos (fun j _ => hbud j) Finset.univ_nonempty
  have hshare : ∑ j, share (riskBudget m) j = 1 := by
    simp only [share]
    rw [← Finset.sum_div, div_self hB.ne']
  have hlin : ∀ t : ℝ, ∑ j, share (riskBudget m) j * ((x + Pi.single i t : Fin n → ℝ) j / x j) = 1 + t * (share (riskBudget m) i / x i) := by
    intro t
    have : ∀ j, share (riskBudget m) j * ((x + Pi.single i t : Fin n → ℝ) j / x j) = share (riskBudget m) j + share (riskBudget m) j / x j * (Pi.single i t : Fin n → ℝ) j := by
      intro j
      rw [Pi.add_apply, add_div, div_self (hx j).ne']
      ring
    simp only [this]
    rw [Finset.sum_add_distrib, hshare]
    congr 1
    rw [Finset.sum_eq_single i]
    · rw [Pi.single_eq_same]; ring
    · intro j _ hj
      rw [Pi.single_eq_of_ne hj, mul_zero]
    · simp
  obtain ⟨s, hsd⟩ : ∃ s, s = share (riskBudget m) i / x i := ⟨_, rfl⟩
  have hxs : x i * s = share (riskBudget m) i := by rw [hsd]; field_simp [(hx i).ne']
  have hline : HasDerivAt (fun t : ℝ => 1 + t * s) s 0 := by simpa using ((hasDerivAt_id (0 : ℝ)).mul_const s).const_add 1
  rcases degree_cases m.base.riskMeasure with hd | hd
  · have hr : ∀ y, root m.base.riskMeasure y = y := fun y => by simp [root, hd]
    have hmin : IsLocalMin (fun t : ℝ => R (x + Pi.single i t) - R x * (1 + t * s)) 0 := by
      refine Filter.Eventually.of_forall fun t => ?_
      have := hsubg (x + Pi.single i t)
      simp only [hr, hlin, ← hsd] at this
      simp only [Pi.single_zero, add_zero, zero_mul, mul_one, sub_self]
      linarith
    have h0 := hmin.hasDerivAt_eq_zero (hD.sub (hline.const_mul (R x)))
    have : D = R x * s := by linarith
    rw [this, hd, ← hxs]
    push_cast
    ring
  · have hr : ∀ y, root m.base.riskMeasure y = Real.sqrt y := fun y => by simp [root, hd]
    have hnn := risk_nonneg P m.base hs hT hb R hR hd
    have hmin : IsLocalMin (fun t : ℝ => R (x + Pi.single i t) - R x * (1 + t * s) ^ 2) 0 := by
      have hev : ∀ᶠ t in nhds (0 : ℝ), 0 < 1 + t * s := by
        have hc : Filter.Tendsto (fun t : ℝ => 1 + t * s) (nhds 0) (nhds (1 + 0 * s)) := by
          apply Continuous.tendsto
          fun_prop
        rw [zero_mul, add_zero] at hc
        exact hc.eventually (lt_mem_nhds one_pos)
      filter_upwards [hev] with t ht
      have := hsubg (x + Pi.single i t)
      simp only [hr, hlin, ← hsd] at this
      have h2 := pow_le_pow_left₀ (mul_nonneg (Real.sqrt_nonneg _) ht.le) this 2
      rw [mul_pow, Real.sq_sqrt (hnn _), Real.sq_sqrt (hnn _)] at h2
      simp only [Pi.single_zero, add_zero, zero_mul, one_pow, mul_one, sub_self]
      linarith
    have h0 := hmin.hasDerivAt_eq_zero (hD.sub ((hline.pow 2).const_mul (R x)))
    have : D = R x * (2 * s) := by
      simp only [zero_mul, add_zero, Nat.cast_ofNat, Nat.add_one_sub_one, pow_one, mul_one] at h0
      linarith
    rw [this, hd, ← hxs]
    push_cast
    ring

end

end

end Skfolio.Convex
