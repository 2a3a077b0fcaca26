import Verif.Vine.ConditioningModel
import Verif.Vine.Steps
import Mathlib.Analysis.SpecialFunctions.Log.Deriv
import Mathlib.Analysis.SpecialFunctions.Pow.Real

/-!
**C55**: the assets that are conditioned on have the values, or are within the bounds, that were asked for, and within bounds they have the truncated marginal distribution.
-/
set_option autoImplicit false

namespace Skfolio.Vine

/-! ### Specification -/

/-- The distribution function of the simple returns of an asset: that of the marginal distribution, which is fitted to the logarithmic returns for an asset with the log transformation; the uniform distribution without marginals. -/
noncomputable def returnCdf (a : Asset) (x : ℝ) : ℝ :=
  let y := if a.log then Real.log (1 + x) else x
  match a.marginal with
  | some m => m.cdf y
  | none => y

/-- The distribution function and the quantile function of a continuous distribution on the whole line. -/
structure IsMarginal (m : Marginal) : Prop where
  mono : StrictMono m.cdf
  ppf_cdf : ∀ x, m.ppf (m.cdf x) = x
  cdf_ppf : ∀ u, 0 < u → u < 1 → m.cdf (m.ppf u) = u

/-! ### Lemmas -/

theorem back_log {x : ℝ} (h1 : -1 < x) (h2 : x ≤ 2) : backTransform (Real.log (1 + x)) = x := by
  unfold backTransform
  rw [if_pos (Real.log_le_log (by linarith) (by linarith)), Real.exp_log (by linarith)]
  ring

/-- **C55.** The reversal of the log transformation is strictly increasing. -/
theorem C55_back_strictMono : StrictMono backTransform := by
  intro x y h
  have e3 : Real.exp (Real.log 3) = 3 := Real.exp_log (by norm_num)
  unfold backTransform
  split_ifs with h1 h2 h2
  · have := Real.exp_lt_exp.2 h
    linarith
  · have := Real.exp_le_exp.2 h1
    linarith
  · exact absurd (h.le.trans h2) h1
  · linarith

/-- **C55.** The reversal of the log transformation gives the simple return of a log return up to simple returns of 200 %, and less than that above. -/
theorem C55_back (y : ℝ) : (y ≤ Real.log 3 → backTransform y = Real.exp y - 1) ∧ (Real.log 3 < y → backTransform y = 2 + (y - Real.log 3) ∧ backTransform y < Real.exp y - 1) := by
  have e3 : Real.exp (Real.log 3) = 3 := Real.exp_log (by norm_num)
  refine ⟨fun h => if_pos h, fun h => ?_⟩
  have e : backTransform y = 2 + (y - Real.log 3) := by
    unfold backTransform
    rw [if_neg (by linarith), e3]
    ring
  refine ⟨e, ?_⟩
  rw [e]
  have h1 : Real.exp y = 3 * Real.exp (y - Real.log 3) := by rw [Real.exp_sub, e3]; field_simp
  have h2 := Real.add_one_lt_exp (show y - Real.log 3 ≠ 0 by intro h0; linarith)
  linarith

theorem clip_id {eps u : ℝ} (h1 : eps ≤ u) (h2 : u ≤ 1 - eps) : clip eps u = u := by
  unfold clip
  rw [max_eq_left h1, min_eq_left h2]

theorem clipBounds_mem (lo hi : EReal) (x : ℝ) (h : lo < hi) : lo ≤ (clipBounds lo hi x : EReal) ∧ (clipBounds lo hi x : EReal) ≤ hi := by
  unfold clipBounds
  split_ifs with h1 h2
  · have hb : hi ≠ ⊥ := (bot_le.trans_lt h).ne'
    have ht : hi ≠ ⊤ := (h1.trans_le le_top).ne
    rw [EReal.coe_toReal ht hb]
    exact ⟨h.le, le_rfl⟩
  · have ht : lo ≠ ⊤ := (h.trans_le le_top).ne
    have hb : lo ≠ ⊥ := (bot_le.trans_lt h2).ne'
    rw [EReal.coe_toReal ht hb]
    exact ⟨le_rfl, h.le⟩
  · exact ⟨not_lt.1 h2, not_lt.1 h1⟩

theorem clipBounds_id {lo hi : EReal} {x : ℝ} (h1 : lo ≤ x) (h2 : (x : EReal) ≤ hi) : clipBounds lo hi x = x := by
  unfold clipBounds
  rw [if_neg (not_lt.2 h2), if_neg (not_lt.2 h1)]

/-! ### C55 -/

/-- **C55.** Whatever the samples are: if conditioning on a value, an array or bounds does not raise, then an asset conditioned on a value has this value in all samples, one conditioned on an array has the values of the array, and one
conditioned on bounds is within them. -/
theorem C55_conditioned (a : Asset) (nSamples : ℕ) (draws : List ℝ) (value : CondValue) (c : Clean) (us : List (Option ℝ)) (h : initOne a nSamples draws value = .ok (c, us)) (j : ℕ) (hj : j < nSamples) (x : ℝ) :
    (∀ v, value = .number v → forceBack c j x = v) ∧ (∀ d l, value = .array d l → l[j]? = some (forceBack c j x)) ∧
      (∀ lo hi, value = .tuple [lo, hi] → lo.getD ⊥ ≤ (forceBack c j x : EReal) ∧ (forceBack c j x : EReal) ≤ hi.getD ⊤) := by
  refine ⟨?_, ?_, ?_⟩
  · rintro v rfl
    simp only [initOne, Except.ok.injEq, Prod.mk.injEq] at h
    rw [← h.1, forceBack, List.getD_eq_getElem _ _ (by simpa using hj), List.getElem_replicate]
  · rintro d l rfl
    simp only [initOne] at h
    split_ifs at h with hs
    simp only [Except.ok.injEq, Prod.mk.injEq] at h
    push Not at hs
    rw [← h.1, forceBack, List.getD_eq_getElem _ _ (by omega), List.getElem?_eq_getElem (by omega)]
  · rintro lo hi rfl
    simp only [initOne] at h
    split_ifs at h with hs
    have hc : c = .bounds (lo.getD ⊥) (hi.getD ⊤) := by
      split at h
      · simp only [Except.ok.injEq, Prod.mk.injEq] at h
        exact h.1.symm
      · cases h
    rw [hc, forceBack]
    exact clipBounds_mem _ _ _ (not_le.1 hs)

/-- **C55.** The values are given to the vine as their probabilities: conditioning on a value above -100 % never raises, and the probability is that of the value under the distribution of the returns. -/
theorem C55_value_probability (a : Asset) (v : ℝ) (h : a.log = true → -1 < v) (nSamples : ℕ) (draws : List ℝ) :
    initOne a nSamples draws (.number v) = .ok (.values (List.replicate nSamples v), List.replicate nSamples (some (returnCdf a v))) := by
  have e : uniformValue a v = some (returnCdf a v) := by
    unfold uniformValue returnCdf
    cases hl : a.log with
    | false =>
      cases a.marginal <;> simp
    | true =>
      have h1 := h hl
      have hne : ¬ (v : EReal) = -1 := by
        intro hh
        have : (v : EReal) = ((-1 : ℝ) : EReal) := by rw [hh]; rfl
        exact h1.ne' (EReal.coe_injective this)
      have hlt : ¬ (v : EReal) < -1 := by
        rw [not_lt]
        have : ((-1 : ℝ) : EReal) ≤ (v : EReal) := EReal.coe_le_coe_iff.2 h1.le
        exact this
      simp only [log1p, EReal.coe_ne_top, if_false, hlt, hne, EReal.toReal_coe, if_true, Option.bind_some]
      cases a.marginal <;> simp
  rw [initOne, e]

/-- **C55.** Conditioning on bounds: with a continuous marginal distribution, bounds whose probabilities are not cut off and an upper bound of at most 200 % for an asset with the log transformation, the sample `x` of the asset has the distribution of
the returns truncated to the bounds: the probability of at most `x`, given the bounds, is the uniform number that was drawn. The value is not changed by forcing it back into the bounds. -/
theorem C55_truncated_partial (a : Asset) (m : Marginal) (ha : a.marginal = some m) (hm : IsMarginal m) {eps : ℝ} (h0 : 0 < eps) {lo hi : ℝ} (hlh : lo < hi) (hlog : a.log = true → -1 < lo ∧ hi ≤ 2) (hu1 : eps ≤ returnCdf a lo)
    (hu2 : returnCdf a hi ≤ 1 - eps) (nSamples : ℕ) (draws : List ℝ) (hd : ∀ t ∈ draws, 0 ≤ t ∧ t < 1) :
    ∃ us, initOne a nSamples draws (.tuple [some lo, some hi]) = .ok (.bounds lo hi, us) ∧ us.length = draws.length ∧ ∀ j t, draws[j]? = some t → ∃ u, us[j]? = some (some u) ∧
      lo ≤ toReturn a eps u ∧ toReturn a eps u < hi ∧ forceBack (.bounds lo hi) j (toReturn a eps u) = toReturn a eps u ∧
      (returnCdf a (toReturn a eps u) - returnCdf a lo) / (returnCdf a hi - returnCdf a lo) = t := by
  have hcoe : ∀ x : ℝ, a.log = true → -1 < x → log1p (x : EReal) = some ((Real.log (1 + x) : ℝ) : EReal) := by
    intro x _ hx
    have hne : ¬ (x : EReal) = -1 := by
      intro hh
      have : (x : EReal) = ((-1 : ℝ) : EReal) := by rw [hh]; rfl
      exact hx.ne' (EReal.coe_injective this)
    have hlt : ¬ (x : EReal) < -1 := by
      rw [not_lt]
      have : ((-1 : ℝ) : EReal) ≤ (x : EReal) := EReal.coe_le_coe_iff.2 hx.le
      exact this
    simp [log1p, hne, hlt]
  have hbound : ∀ (inf : EReal) (u x : ℝ), inf = ⊤ ∨ inf = ⊥ → (a.log = true → -1 < x) → (logBound a inf (x : EReal)).bind (uniformBound a inf u) = some (returnCdf a x) := by
    intro inf u x hinf hx
    have hxi : (x : EReal) ≠ inf := by rcases hinf with rfl | rfl <;> simp
    unfold logBound uniformBound returnCdf
    rw [ha]
    cases hl : a.log with
    | false => simp [hxi]
    | true =>
      simp only [if_true, if_neg hxi, hcoe x hl (hx hl), Option.bind_some]
      have : ((Real.log (1 + x) : ℝ) : EReal) ≠ inf := by rcases hinf with rfl | rfl <;> simp
      simp [this]
  have b1 := hbound ⊥ 0 lo (Or.inr rfl) (fun h => (hlog h).1)
  have b2 := hbound ⊤ 1 hi (Or.inl rfl) (fun h => (hlog h).1.trans hlh)
  have hno : ¬ (hi : EReal) ≤ (lo : EReal) := by rw [EReal.coe_le_coe_iff]; exact not_le.2 hlh
  obtain ⟨p, hp⟩ : ∃ p, p = returnCdf a lo := ⟨_, rfl⟩
  obtain ⟨q, hq⟩ : ∃ q, q = returnCdf a hi := ⟨_, rfl⟩
  refine ⟨draws.map fun t => some (p + (q - p) * t), ?_, by simp, fun j t ht => ⟨p + (q - p) * t, by simp [ht], ?_⟩⟩
  · simp only [initOne, Option.getD_some, if_neg hno, b1, b2, ← hp, ← hq]
  have hpq : p < q := by
    rw [hp, hq]
    simp only [returnCdf, ha]
    refine hm.mono ?_
    cases hl : a.log with
    | false => exact hlh
    | true => exact Real.log_lt_log (by linarith [(hlog hl).1]) (by linarith)
  obtain ⟨t0, t1⟩ := hd t (List.mem_of_getElem? ht)
  rw [← hp] at hu1
  rw [← hq] at hu2
  obtain ⟨u, hu⟩ : ∃ u, u = p + (q - p) * t := ⟨_, rfl⟩
  have u1 : p ≤ u := by rw [hu]; nlinarith
  have u2 : u < q := by rw [hu]; nlinarith
  rw [← hu]
  have hclip : clip eps u = u := clip_id (by linarith) (by linarith)
  -- the value and its probability
  have hx : returnCdf a (toReturn a eps u) = u ∧ lo ≤ toReturn a eps u ∧ toReturn a eps u < hi := by
    have hc := hm.cdf_ppf u (by linarith) (by linarith)
    cases hl : a.log with
    | false =>
      have e : toReturn a eps u = m.ppf u := by simp [toReturn, ha, hl, hclip]
      have el : p = m.cdf lo := by rw [hp]; simp [returnCdf, ha, hl]
      have eh : q = m.cdf hi := by rw [hq]; simp [returnCdf, ha, hl]
      rw [e]
      refine ⟨by simp [returnCdf, ha, hl, hc], ?_, ?_⟩
      · rw [← hm.mono.le_iff_le, hc, ← el]
        exact u1
      · rw [← hm.mono.lt_iff_lt, hc, ← eh]
        exact u2
    | true =>
      obtain ⟨l1, l2⟩ := hlog hl
      have el : p = m.cdf (Real.log (1 + lo)) := by rw [hp]; simp [returnCdf, ha, hl]
      have eh : q = m.cdf (Real.log (1 + hi)) := by rw [hq]; simp [returnCdf, ha, hl]
      have y1 : Real.log (1 + lo) ≤ m.ppf u := by
        rw [← hm.mono.le_iff_le, hc, ← el]
        exact u1
      have y2 : m.ppf u < Real.log (1 + hi) := by
        rw [← hm.mono.lt_iff_lt, hc, ← eh]
        exact u2
      have y3 : m.ppf u ≤ Real.log 3 := y2.le.trans (Real.log_le_log (by linarith) (by linarith))
      have e : toReturn a eps u = Real.exp (m.ppf u) - 1 := by simp [toReturn, ha, hl, hclip, (C55_back _).1 y3]
      rw [e]
      refine ⟨?_, ?_, ?_⟩
      · have : 1 + (Real.exp (m.ppf u) - 1) = Real.exp (m.ppf u) := by ring
        simp [returnCdf, ha, hl, this, hc]
      · have := Real.exp_le_exp.2 y1
        rw [Real.exp_log (by linarith)] at this
        linarith
      · have := Real.exp_lt_exp.2 y2
        rw [Real.exp_log (by linarith)] at this
        linarith
  refine ⟨hx.2.1, hx.2.2, ?_, ?_⟩
  · exact clipBounds_id (EReal.coe_le_coe_iff.2 hx.2.1) (EReal.coe_le_coe_iff.2 hx.2.2.le)
  · rw [hx.1, ← hp, ← hq, hu, div_eq_iff (sub_ne_zero.2 hpq.ne')]
    ring

/-- **C55.** An asset that is not conditioned: its return has the value of the root node as its probability, as long as this is not cut off and the return is at most 200 % for an asset with the log transformation. -/
theorem C55_free (a : Asset) (m : Marginal) (ha : a.marginal = some m) (hm : IsMarginal m) {eps u : ℝ} (h0 : 0 < eps) (h1 : eps ≤ u) (h2 : u ≤ 1 - eps) (hlog : a.log = true → u ≤ m.cdf (Real.log 3)) : returnCdf a (toReturn a eps u) = u := by
  have hc := hm.cdf_ppf u (by linarith) (by linarith)
  have hclip : clip eps u = u := clip_id h1 h2
  cases hl : a.log with
  | false => simp [returnCdf, toReturn, ha, hl, hclip, hc]
  | true =>
    have y3 : m.ppf u ≤ Real.log 3 := by
      rw [← hm.mono.le_iff_le, hc]
      exact hlog hl
    have e : toReturn a eps u = Real.exp (m.ppf u) - 1 := by simp [toReturn, ha, hl, hclip, (C55_back _).1 y3]
    have : 1 + (Real.exp (m.ppf u) - 1) = Real.exp (m.ppf u) := by ring
    rw [e]
    simp [returnCdf, ha, hl, this, hc]

/-- **C55.** The hypothesis on the upper bound is needed: with the log transformation and bounds high enough above 200 %, such as 500 % and 1000 %, every sample is the lower bound. -/
theorem C55_high_bounds (a : Asset) (m : Marginal) (ha : a.marginal = some m) (hl : a.log = true) (hm : IsMarginal m) {eps : ℝ} (h0 : 0 < eps) {lo hi : ℝ} (h2 : 2 < hi) (hlh : lo < hi) (hhigh : 2 + Real.log ((1 + hi) / 3) ≤ lo)
    (hu1 : eps ≤ returnCdf a lo) (hu2 : returnCdf a hi ≤ 1 - eps) (nSamples : ℕ) (draws : List ℝ) (hd : ∀ t ∈ draws, 0 ≤ t ∧ t < 1) :
    ∃ us, initOne a nSamples draws (.tuple [some lo, some hi]) = .ok (.bounds lo hi, us) ∧ ∀ j u, us[j]? = some (some u) → forceBack (.bounds lo hi) j (toReturn a eps u) = lo := by
  have hpos : 0 < Real.log ((1 + hi) / 3) := Real.log_pos (by linarith)
  have hcoe : ∀ x : ℝ, -1 < x → log1p (x : EReal) = some ((Real.log (1 + x) : ℝ) : EReal) := by
    intro x hx
    have hne : ¬ (x : EReal) = -1 := by
      intro hh
      have : (x : EReal) = ((-1 : ℝ) : EReal) := by rw [hh]; rfl
      exact hx.ne' (EReal.coe_injective this)
    have hlt : ¬ (x : EReal) < -1 := by
      rw [not_lt]
      have : ((-1 : ℝ) : EReal) ≤ (x : EReal) := EReal.coe_le_coe_iff.2 hx.le
      exact this
    simp [log1p, hne, hlt]
  have hbound : ∀ (inf : EReal) (u x : ℝ), inf = ⊤ ∨ inf = ⊥ → -1 < x → (logBound a inf (x : EReal)).bind (uniformBound a inf u) = some (returnCdf a x) := by
    intro inf u x hinf hx
    have hxi : (x : EReal) ≠ inf := by rcases hinf with rfl | rfl <;> simp
    unfold logBound uniformBound returnCdf
    rw [ha, hl]
    simp only [if_true, if_neg hxi, hcoe x hx, Option.bind_some]
    have : ((Real.log (1 + x) : ℝ) : EReal) ≠ inf := by rcases hinf with rfl | rfl <;> simp
    simp [this]
  have b1 := hbound ⊥ 0 lo (Or.inr rfl) (by linarith)
  have b2 := hbound ⊤ 1 hi (Or.inl rfl) (by linarith)
  have hno : ¬ (hi : EReal) ≤ (lo : EReal) := by rw [EReal.coe_le_coe_iff]; exact not_le.2 hlh
  obtain ⟨p, hp⟩ : ∃ p, p = returnCdf a lo := ⟨_, rfl⟩
  obtain ⟨q, hq⟩ : ∃ q, q = returnCdf a hi := ⟨_, rfl⟩
  refine ⟨draws.map fun t => some (p + (q - p) * t), ?_, fun j u hj => ?_⟩
  · simp only [initOne, Option.getD_some, if_neg hno, b1, b2, ← hp, ← hq]
  rw [List.getElem?_map, Option.map_eq_some_iff] at hj
  obtain ⟨t, ht, hu⟩ := hj
  have hu := (Option.some.inj hu).symm
  obtain ⟨t0, t1⟩ := hd t (List.mem_of_getElem? ht)
  have el : p = m.cdf (Real.log (1 + lo)) := by rw [hp]; simp [returnCdf, ha, hl]
  have eh : q = m.cdf (Real.log (1 + hi)) := by rw [hq]; simp [returnCdf, ha, hl]
  have hpq : p < q := by
    rw [el, eh]
    exact hm.mono (Real.log_lt_log (by linarith) (by linarith))
  rw [← hp] at hu1
  rw [← hq] at hu2
  have u1 : p ≤ u := by rw [hu]; nlinarith
  have u2 : u < q := by rw [hu]; nlinarith
  have hclip : clip eps u = u := clip_id (by linarith) (by linarith)
  have hc := hm.cdf_ppf u (by linarith) (by linarith)
  have y2 : m.ppf u < Real.log (1 + hi) := by
    rw [← hm.mono.lt_iff_lt, hc, ← eh]
    exact u2
  have e : toReturn a eps u = backTransform (m.ppf u) := by simp [toReturn, ha, hl, hclip]
  have hlt : toReturn a eps u < lo := by
    rw [e]
    refine (C55_back_strictMono y2).trans_le ?_
    have h3 : Real.log 3 < Real.log (1 + hi) := Real.log_lt_log (by norm_num) (by linarith)
    rw [((C55_back _).2 h3).1]
    rw [Real.log_div (by linarith) (by norm_num)] at hhigh
    exact hhigh
  rw [forceBack, clipBounds, if_neg (by rw [EReal.coe_lt_coe_iff]; linarith), if_pos (EReal.coe_lt_coe_iff.2 hlt), EReal.toReal_coe]

/-- **C55.** The exceptions: a tuple that is not of length 2, a lower bound that is not below the upper one, text, an array that is not one value for every sample. Without fitted marginals, an open bound is an error too, though documented as admissible. -/
theorem C55_errors (a : Asset) (nSamples : ℕ) (draws : List ℝ) :
    (∀ l : List (Option EReal), l.length ≠ 2 → initOne a nSamples draws (.tuple l) = .error .tupleLength) ∧
      (∀ lo hi : Option EReal, hi.getD ⊤ ≤ lo.getD ⊥ → initOne a nSamples draws (.tuple [lo, hi]) = .error .boundsOrder) ∧
      initOne a nSamples draws .text = .error .notNumber ∧
      (∀ d l, initOne a nSamples draws (.array d l) = .error .arrayShape ↔ ¬ (d = 1 ∧ l.length = nSamples)) ∧
      (a.marginal = none → ∀ lo hi : Option EReal, lo.getD ⊥ < hi.getD ⊤ → (lo.getD ⊥ = ⊥ ∨ hi.getD ⊤ = ⊤) → initOne a nSamples draws (.tuple [lo, hi]) = .error .overflow) := by
  refine ⟨?_, ?_, rfl, ?_, ?_⟩
  · intro l hl
    match l with
    | [] => rfl
    | [_] => rfl
    | [_, _] => simp at hl
    | _ :: _ :: _ :: _ => rfl
  · intro lo hi h
    simp [initOne, h]
  · intro d l
    rw [initOne]
    split_ifs with h
    · simp only [true_iff]
      tauto
    · simp only [false_iff, not_not]
      tauto
  · intro hm lo hi hlt ho
    obtain ⟨x, hx⟩ : ∃ x, x = lo.getD ⊥ := ⟨_, rfl⟩
    obtain ⟨y, hy⟩ : ∃ y, y = hi.getD ⊤ := ⟨_, rfl⟩
    simp only [initOne]
    rw [← hx, ← hy] at hlt ho ⊢
    rw [if_neg (not_le.2 hlt)]
    have hub : ∀ inf u, uniformBound a inf u ⊤ = none ∧ uniformBound a inf u ⊥ = none := by
      intro inf u
      simp [uniformBound, hm]
    rcases ho with rfl | rfl
    · have : (logBound a ⊥ ⊥).bind (uniformBound a ⊥ 0) = none := by simp [logBound, (hub _ _).2]
      rw [this]
    · have : (logBound a ⊤ ⊤).bind (uniformBound a ⊤ 1) = none := by simp [logBound, (hub _ _).1]
      rw [this]
      split
      · rename_i h
        cases h
      · rfl

/-- **C55.** With fitted marginals open bounds are admissible: the probabilities are then 0 and 1. -/
theorem C55_open_bounds (a : Asset) (m : Marginal) (ha : a.marginal = some m) (nSamples : ℕ) (draws : List ℝ) (x : ℝ) (hx : a.log = true → -1 < x) :
    initOne a nSamples draws (.tuple [none, some x]) = .ok (.bounds ⊥ x, draws.map fun t => some (0 + (returnCdf a x - 0) * t)) ∧
      initOne a nSamples draws (.tuple [some x, none]) = .ok (.bounds x ⊤, draws.map fun t => some (returnCdf a x + (1 - returnCdf a x) * t)) := by
  have hcoe : a.log = true → log1p (x : EReal) = some ((Real.log (1 + x) : ℝ) : EReal) := by
    intro hl
    have hx := hx hl
    have hne : ¬ (x : EReal) = -1 := by
      intro hh
      have : (x : EReal) = ((-1 : ℝ) : EReal) := by rw [hh]; rfl
      exact hx.ne' (EReal.coe_injective this)
    have hlt : ¬ (x : EReal) < -1 := by
      rw [not_lt]
      have : ((-1 : ℝ) : EReal) ≤ (x : EReal) := EReal.coe_le_coe_iff.2 hx.le
      exact this
    simp [log1p, hne, hlt]
  constructor
  · simp only [initOne, Option.getD_some, Option.getD_none]
    cases hl : a.log with
    | false => simp [logBound, uniformBound, returnCdf, hl, ha]
    | true => simp [logBound, uniformBound, returnCdf, hl, ha, hcoe hl]
  · simp only [initOne, Option.getD_some, Option.getD_none]
    cases hl : a.log with
    | false => simp [logBound, uniformBound, returnCdf, hl, ha]
    | true => simp [logBound, uniformBound, returnCdf, hl, ha, hcoe hl]

/-- The values of the conditioned root nodes are clipped before the propagation (`_init_samples`) and again after it; the second clipping changes nothing. -/
theorem toReturn_clip (a : Asset) {eps : ℝ} (he : eps ≤ 1 / 2) (u : ℝ) : toReturn a eps (clip eps u) = toReturn a eps u := by
  have : clip eps (clip eps u) = clip eps u := clip_id (by unfold clip; exact le_min (le_max_right _ _) (by linarith)) (by unfold clip; exact min_le_right _ _)
  unfold toReturn
  rw [this]

/-! ### The hypotheses can be met -/

/-- The logistic distribution. -/
noncomputable def logistic : Marginal := ⟨fun x => Real.exp x / (1 + Real.exp x), fun u => Real.log (u / (1 - u))⟩

theorem logistic_isMarginal : IsMarginal logistic := by
  refine ⟨?_, ?_, ?_⟩
  · intro x y h
    have h1 := Real.exp_pos x
    have h2 := Real.exp_pos y
    have h3 := Real.exp_lt_exp.2 h
    change Real.exp x / (1 + Real.exp x) < Real.exp y / (1 + Real.exp y)
    rw [div_lt_div_iff₀ (by linarith) (by linarith)]
    nlinarith
  · intro x
    have h1 := Real.exp_pos x
    change Real.log (Real.exp x / (1 + Real.exp x) / (1 - Real.exp x / (1 + Real.exp x))) = x
    have : Real.exp x / (1 + Real.exp x) / (1 - Real.exp x / (1 + Real.exp x)) = Real.exp x := by
      have : (1 : ℝ) + Real.exp x ≠ 0 := by positivity
      have h2 : 1 - Real.exp x / (1 + Real.exp x) = 1 / (1 + Real.exp x) := by field_simp; ring
      rw [h2]
      field_simp
    rw [this, Real.log_exp]
  · intro u h0 h1
    have h2 : (0 : ℝ) < 1 - u := by linarith
    change Real.exp (Real.log (u / (1 - u))) / (1 + Real.exp (Real.log (u / (1 - u)))) = u
    rw [Real.exp_log (by positivity)]
    field_simp
    ring

/-- An asset whose log returns have the logistic distribution. -/
noncomputable def logisticAsset : Asset := ⟨true, some logistic⟩

theorem logisticAsset_cdf {x : ℝ} (h : -1 < x) : returnCdf logisticAsset x = (1 + x) / (2 + x) := by
  have : (0 : ℝ) < 1 + x := by linarith
  simp only [returnCdf, logisticAsset, logistic, if_true, Real.exp_log this]
  congr 1
  ring

/-- Bounds 0 % and 100 % and the draw 1/2: the sample is the median of the truncated distribution. -/
example : ∃ us, initOne logisticAsset 1 [1 / 2] (.tuple [some ((0 : ℝ) : EReal), some ((1 : ℝ) : EReal)]) = .ok (.bounds ((0 : ℝ) : EReal) ((1 : ℝ) : EReal), us) ∧ ∃ u, us[0]? = some (some u) ∧
    (returnCdf logisticAsset (toReturn logisticAsset (1 / 10 ^ 14) u) - 1 / 2) / (2 / 3 - 1 / 2) = 1 / 2 := by
  obtain ⟨us, h1, -, h2⟩ := C55_truncated_partial logisticAsset logistic rfl logistic_isMarginal (eps := 1 / 10 ^ 14) (by norm_num) (lo := 0) (hi := 1) (by norm_num) (fun _ => by norm_num)
    (by rw [logisticAsset_cdf (by norm_num)]; norm_num) (by rw [logisticAsset_cdf (by norm_num)]; norm_num) 1 [1 / 2] (by simp; norm_num)
  obtain ⟨u, hu, -, -, -, h⟩ := h2 0 (1 / 2) rfl
  rw [logisticAsset_cdf (x := 0) (by norm_num), logisticAsset_cdf (x := 1) (by norm_num)] at h
  refine ⟨us, h1, u, hu, ?_⟩
  norm_num at h ⊢
  exact h

/-- Bounds 500 % and 1000 %: every sample is 500 %. -/
example (draws : List ℝ) (hd : ∀ t ∈ draws, 0 ≤ t ∧ t < 1) : ∃ us, initOne logisticAsset draws.length draws (.tuple [some ((5 : ℝ) : EReal), some ((10 : ℝ) : EReal)]) = .ok (.bounds ((5 : ℝ) : EReal) ((10 : ℝ) : EReal), us) ∧
    ∀ j u, us[j]? = some (some u) → forceBack (.bounds ((5 : ℝ) : EReal) ((10 : ℝ) : EReal)) j (toReturn logisticAsset (1 / 10 ^ 14) u) = 5 := by
  refine C55_high_bounds logisticAsset logistic rfl rfl logistic_isMarginal (by norm_num) (by norm_num) (by norm_num) ?_ (by rw [logisticAsset_cdf (by norm_num)]; norm_num) (by rw [logisticAsset_cdf (by norm_num)]; norm_num) _ draws hd
  have := Real.log_le_sub_one_of_pos (show (0 : ℝ) < (1 + 10) / 3 by norm_num)
  linarith

end Skfolio.Vine
