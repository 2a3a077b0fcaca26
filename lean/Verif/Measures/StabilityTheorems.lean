import Verif.Measures.DominanceTheorems
import Mathlib.Algebra.Order.BigOperators.Ring.Finset

/-!
C132: the measures are stable. Changing every return by at most `δ` changes the mean and the risks by at most a fixed multiple of `δ`; hence weights that are
off by a little (a solver's tolerance) give measures that are off by a little.
-/
set_option autoImplicit false

namespace Skfolio.Measures

open scoped BigOperators

/-! ### Specification -/

/-- Two samples of returns of the same length that differ by at most `δ` at every observation. -/
def Close (δ : ℝ) (r r' : List ℝ) : Prop := List.Forall₂ (fun x y => |x - y| ≤ δ) r r'

/-- The measure of samples of `n` observations changes by at most `c n` times the largest change of a return. -/
def Stable (c : Nat → ℝ) (f : List ℝ → ℝ) : Prop := ∀ δ r r', r ≠ [] → Close δ r r' → |f r - f r'| ≤ c r.length * δ

/-- Same for a measure that is not always defined. -/
def StableIfDefined (c : Nat → ℝ) (f : List ℝ → Option ℝ) : Prop :=
  ∀ δ r r', r ≠ [] → Close δ r r' → ∀ a b, f r = some a → f r' = some b → |a - b| ≤ c r.length * δ

/-! ### Lemmas -/

theorem Close.symm {δ : ℝ} {r r' : List ℝ} (h : Close δ r r') : Close δ r' r := by
  induction h with
  | nil => exact List.Forall₂.nil
  | cons hab _ ih => exact List.Forall₂.cons (by rwa [abs_sub_comm]) ih

theorem Close.ne_nil {δ : ℝ} {r r' : List ℝ} (h : Close δ r r') (hr : r ≠ []) : r' ≠ [] := by
  rintro rfl
  cases h
  exact hr rfl

theorem Close.length_eq {δ : ℝ} {r r' : List ℝ} (h : Close δ r r') : r.length = r'.length := List.Forall₂.length_eq h

theorem Close.nonneg {δ : ℝ} {r r' : List ℝ} (h : Close δ r r') (hr : r ≠ []) : 0 ≤ δ := by
  cases h with
  | nil => exact absurd rfl hr
  | cons hab _ => exact le_trans (abs_nonneg _) hab

theorem Close.mono {δ ε : ℝ} (hde : δ ≤ ε) {r r' : List ℝ} (h : Close δ r r') : Close ε r r' :=
  List.Forall₂.imp (fun _ _ hab => le_trans hab hde) h

/-- The shifted sample is nowhere better. -/
theorem Close.dominated {δ : ℝ} {r r' : List ℝ} (h : Close δ r r') : NowhereWorse (withCash (-δ) r) r' := by
  induction h with
  | nil => exact List.Forall₂.nil
  | cons hab _ ih => exact List.Forall₂.cons (by have := abs_le.1 hab; linarith) ih

theorem stable_of_le (c : Nat → ℝ) (f : List ℝ → ℝ) (hf : ∀ δ r r', r ≠ [] → Close δ r r' → f r' ≤ f r + c r.length * δ) : Stable c f := by
  intro δ r r' hr h
  have h1 := hf δ r r' hr h
  have h2 := hf δ r' r (h.ne_nil hr) h.symm
  rw [← h.length_eq] at h2
  exact abs_le.2 ⟨by linarith, by linarith⟩

theorem stableIfDefined_of_le (c : Nat → ℝ) (f : List ℝ → Option ℝ)
    (hf : ∀ δ r r', r ≠ [] → Close δ r r' → ∀ a b, f r = some a → f r' = some b → b ≤ a + c r.length * δ) : StableIfDefined c f := by
  intro δ r r' hr h a b ha hb
  have h1 := hf δ r r' hr h a b ha hb
  have h2 := hf δ r' r (h.ne_nil hr) h.symm b a hb ha
  rw [← h.length_eq] at h2
  exact abs_le.2 ⟨by linarith, by linarith⟩

theorem withCash_ne_nil (t : ℝ) {r : List ℝ} (hr : r ≠ []) : withCash t r ≠ [] := by simpa [withCash] using hr

/-! ### C132: mean and tail -/

/-- **C132.** The mean changes by at most `δ`. -/
theorem C132_mean : Stable (fun _ => 1) mean := by
  have key : ∀ δ r r', r ≠ [] → Close δ r r' → mean r - δ ≤ mean r' := by
    intro δ r r' hr h
    have := C110_mean _ _ h.dominated
    rw [(C106_cash (K := ℝ)).1 r hr] at this
    linarith
  refine stable_of_le _ _ fun δ r r' hr h => ?_
  have := key δ r' r (h.ne_nil hr) h.symm
  linarith

/-- **C132.** The worst realization, the value at risk and the conditional value at risk change by at most `δ`; so does, for every risk aversion, the entropic
risk measure, and the entropic value at risk. -/
theorem C132_tail (P : Partition ℝ) (beta : ℝ) (h0 : 0 ≤ beta) (h1 : beta < 1) :
    StableIfDefined (fun _ => 1) worstRealization ∧ StableIfDefined (fun _ => 1) (fun r => valueAtRisk P r beta) ∧
    StableIfDefined (fun _ => 1) (fun r => cvar P r beta) ∧ (∀ theta, 0 < theta → Stable (fun _ => 1) fun r => entropicRiskMeasure r theta beta) ∧
    ∀ δ r r', r ≠ [] → Close δ r r' → ∀ a b, IsEvar r beta a → IsEvar r' beta b → |a - b| ≤ δ := by
  obtain ⟨t1, t2, t3, t4⟩ := C110_tail P beta h0 h1
  have hent : ∀ theta, 0 < theta → ∀ δ r r', r ≠ [] → Close δ r r' → entropicRiskMeasure r' theta beta ≤ entropicRiskMeasure r theta beta + δ := by
    intro theta ht δ r r' hr h
    have h2 := t4 theta ht _ _ (withCash_ne_nil (-δ) hr) h.dominated
    rw [(C106_entropic r hr theta beta ht h1).2.1] at h2
    linarith
  have hev : ∀ δ r r', r ≠ [] → Close δ r r' → ∀ a b, IsEvar r beta a → IsEvar r' beta b → b ≤ a + δ := by
    intro δ r r' hr h a b ha hb
    have : b - δ ≤ a := by
      refine (le_isGLB_iff ha).2 ?_
      rintro x ⟨theta, ht, rfl⟩
      have h2 := hb.1 ⟨theta, ht, rfl⟩
      have h3 := hent theta ht δ r r' hr h
      linarith
    linarith
  refine ⟨stableIfDefined_of_le _ _ ?_, stableIfDefined_of_le _ _ ?_, stableIfDefined_of_le _ _ ?_, fun theta ht => stable_of_le _ _ ?_, ?_⟩
  · intro δ r r' hr h a b ha hb
    have := t1 _ _ h.dominated (a - -δ) b (by rw [(C106_cash_tail P r hr beta h0 h1 (-δ)).2.2, ha]; rfl) hb
    linarith
  · intro δ r r' hr h a b ha hb
    have := t2 _ _ h.dominated (a - -δ) b (by
      change valueAtRisk P r beta = some a at ha
      change valueAtRisk P (withCash (-δ) r) beta = _
      rw [(C106_cash_tail P r hr beta h0 h1 (-δ)).1, ha]
      rfl) hb
    linarith
  · intro δ r r' hr h a b ha hb
    have := t3 _ _ h.dominated (a - -δ) b (by
      change cvar P r beta = some a at ha
      change cvar P (withCash (-δ) r) beta = _
      rw [(C106_cash_tail P r hr beta h0 h1 (-δ)).2.1, ha]
      rfl) hb
    linarith
  · intro δ r r' hr h
    have := hent theta ht δ r r' hr h
    simp only [one_mul]
    exact this
  · intro δ r r' hr h a b ha hb
    have h2 := hev δ r r' hr h a b ha hb
    have h3 := hev δ r' r (h.ne_nil hr) h.symm b a hb ha
    exact abs_le.2 ⟨by linarith, by linarith⟩

/-! ### C132: dispersion -/

/-- A function that changes no faster than its argument. -/
def Short (g : ℝ → ℝ) : Prop := ∀ x y, |g x - g y| ≤ |x - y|

theorem short_abs : Short fun x => |x| := fun x y => abs_abs_sub_abs_le_abs_sub x y

theorem short_loss : Short fun x => -min 0 x := by
  intro x y
  simp only
  rw [show -min 0 x - -min 0 y = min 0 y - min 0 x by ring]
  have := abs_min_sub_min_le_max 0 y 0 x
  rw [sub_self, abs_zero, max_eq_right (abs_nonneg _)] at this
  rwa [abs_sub_comm y x] at this

theorem sum_short (g : ℝ → ℝ) (hg : Short g) (δ a b : ℝ) (r r' : List ℝ) (h : Close δ r r') :
    (r'.map fun x => g (x - b)).sum ≤ (r.map fun x => g (x - a)).sum + (r.length : ℝ) * (δ + |a - b|) := by
  induction h with
  | nil => simp
  | @cons x y r r' hab _ ih =>
    simp only [List.map_cons, List.sum_cons, List.length_cons]
    push_cast
    have h1 := hg (y - b) (x - a)
    have h2 := le_trans (le_abs_self _) h1
    have h3 : |y - b - (x - a)| ≤ δ + |a - b| := by
      rw [show y - b - (x - a) = -(x - y) + (a - b) by ring]
      refine le_trans (abs_add_le _ _) ?_
      rw [abs_neg]
      linarith
    linarith

theorem mean_short (g : ℝ → ℝ) (hg : Short g) (δ a b : ℝ) (r r' : List ℝ) (hr : r ≠ []) (h : Close δ r r') :
    (r'.map fun x => g (x - b)).sum / (r'.length : ℝ) ≤ (r.map fun x => g (x - a)).sum / (r.length : ℝ) + (δ + |a - b|) := by
  have hn : (0 : ℝ) < (r.length : ℝ) := Nat.cast_pos.2 (List.length_pos_iff.2 hr)
  rw [← h.length_eq, ← sub_nonneg, show (r.map fun x => g (x - a)).sum / (r.length : ℝ) + (δ + |a - b|) - (r'.map fun x => g (x - b)).sum / (r.length : ℝ) =
    ((r.map fun x => g (x - a)).sum + (r.length : ℝ) * (δ + |a - b|) - (r'.map fun x => g (x - b)).sum) / (r.length : ℝ) by field_simp]
  exact div_nonneg (by linarith [sum_short g hg δ a b r r' h]) hn.le

theorem mar_none_close (δ : ℝ) (r r' : List ℝ) (hr : r ≠ []) (h : Close δ r r') : |mar r none - mar r' none| ≤ δ := by
  have := C132_mean δ r r' hr h
  rwa [one_mul] at this

theorem mad_eq (r : List ℝ) (m : Option ℝ) : meanAbsoluteDeviation r m = (r.map fun x => |x - mar r m|).sum / (r.length : ℝ) := by
  unfold meanAbsoluteDeviation
  rw [mean, List.length_map]

theorem flpm_eq (r : List ℝ) (m : Option ℝ) : firstLowerPartialMoment r m = (r.map fun x => -min 0 (x - mar r m)).sum / (r.length : ℝ) := by
  unfold firstLowerPartialMoment
  congr 1
  generalize mar r m = a
  induction r with
  | nil => simp
  | cons x r ih =>
    simp only [List.map_cons, List.sum_cons, ← ih]
    ring

/-- Deviations from the mean have the smallest sum of squares. -/
theorem centred_le (z : List ℝ) : (z.map fun x => (x - mean z) ^ 2).sum ≤ (z.map fun x => x ^ 2).sum := by
  by_cases hz : z = []
  · subst hz
    simp
  · have hn : (0 : ℝ) < (z.length : ℝ) := Nat.cast_pos.2 (List.length_pos_iff.2 hz)
    have e : ∀ (l : List ℝ) (m : ℝ), (l.map fun x => (x - m) ^ 2).sum = (l.map fun x => x ^ 2).sum - 2 * m * l.sum + (l.length : ℝ) * m ^ 2 := by
      intro l m
      induction l with
      | nil => simp
      | cons x l ih =>
        simp only [List.map_cons, List.sum_cons, List.length_cons, ih]
        push_cast
        ring
    rw [e]
    have hs : z.sum = (z.length : ℝ) * mean z := by
      unfold mean
      field_simp
    rw [hs]
    nlinarith [mul_nonneg hn.le (sq_nonneg (mean z))]

/-- The deviations from the mean of numbers of absolute value at most `δ` are on average at most `δ`. -/
theorem centred_abs_le (δ : ℝ) (z : List ℝ) (hz : ∀ x ∈ z, |x| ≤ δ) : (z.map fun x => |x - mean z|).sum ≤ (z.length : ℝ) * δ := by
  have h1 : ∀ (l : List ℝ) (m : ℝ), 2 * δ * (l.map fun x => |x - m|).sum ≤ (l.map fun x => (x - m) ^ 2).sum + (l.length : ℝ) * δ ^ 2 := by
    intro l m
    induction l with
    | nil => simp
    | cons x l ih =>
      simp only [List.map_cons, List.sum_cons, List.length_cons]
      push_cast
      have : 2 * δ * |x - m| ≤ (x - m) ^ 2 + δ ^ 2 := by
        rw [← sq_abs (x - m)]
        nlinarith [sq_nonneg (|x - m| - δ)]
      linarith
  have h2 : ∀ l : List ℝ, (∀ x ∈ l, |x| ≤ δ) → (l.map fun x => x ^ 2).sum ≤ (l.length : ℝ) * δ ^ 2 := by
    intro l hl
    induction l with
    | nil => simp
    | cons x l ih =>
      simp only [List.map_cons, List.sum_cons, List.length_cons]
      push_cast
      have h3 := pow_le_pow_left₀ (abs_nonneg _) (hl x (by simp)) 2
      rw [sq_abs] at h3
      have := ih fun y hy => hl y (by simp [hy])
      linarith
  by_cases hne : z = []
  · subst hne
    simp
  obtain ⟨x, hx⟩ := List.exists_mem_of_ne_nil z hne
  have hd : 0 ≤ δ := le_trans (abs_nonneg _) (hz x hx)
  rcases hd.eq_or_lt with rfl | hd
  · have hzero : ∀ x ∈ z, x = 0 := fun x hx => abs_eq_zero.1 (le_antisymm (hz x hx) (abs_nonneg _))
    have hm : mean z = 0 := by
      unfold mean
      rw [List.sum_eq_zero hzero, zero_div]
    rw [hm, mul_zero]
    refine (List.sum_eq_zero ?_).le
    intro y hy
    obtain ⟨x, hx, rfl⟩ := List.mem_map.1 hy
    rw [hzero x hx, sub_zero, abs_zero]
  · have h3 := h1 z (mean z)
    have h4 := centred_le z
    have h5 := h2 z hz
    have h6 : (2 * δ) * (z.map fun x => |x - mean z|).sum ≤ (2 * δ) * ((z.length : ℝ) * δ) := by nlinarith
    exact le_of_mul_le_mul_left h6 (by linarith)

theorem mean_gap (δ : ℝ) (r r' : List ℝ) (h : Close δ r r') : mean (List.zipWith (fun x y => x - y) r' r) = mean r' - mean r := by
  unfold mean
  have hs : (List.zipWith (fun x y => x - y) r' r).sum = r'.sum - r.sum := by
    induction h with
    | nil => simp
    | cons _ _ ih =>
      simp only [List.zipWith_cons_cons, List.sum_cons, ih]
      ring
  rw [hs, List.length_zipWith, h.length_eq, min_self, sub_div]

theorem gap_mem (δ : ℝ) (r r' : List ℝ) (h : Close δ r r') : ∀ z ∈ List.zipWith (fun x y => x - y) r' r, |z| ≤ δ := by
  induction h with
  | nil => simp
  | @cons x y r r' hab _ ih =>
    intro z hz
    rw [List.zipWith_cons_cons, List.mem_cons] at hz
    rcases hz with rfl | hz
    · rwa [abs_sub_comm]
    · exact ih z hz

theorem mad_le (δ : ℝ) (r r' : List ℝ) (hr : r ≠ []) (h : Close δ r r') : meanAbsoluteDeviation r' none ≤ meanAbsoluteDeviation r none + δ := by
  have hn : (0 : ℝ) < (r.length : ℝ) := Nat.cast_pos.2 (List.length_pos_iff.2 hr)
  have h1 := centred_abs_le δ _ (gap_mem δ r r' h)
  rw [mean_gap δ r r' h, List.length_zipWith, h.length_eq, min_self, ← h.length_eq] at h1
  have h2 : ∀ a b : ℝ, (r'.map fun x => |x - b|).sum ≤ (r.map fun x => |x - a|).sum + ((List.zipWith (fun x y => x - y) r' r).map fun z => |z - (b - a)|).sum := by
    intro a b
    clear h1 hn hr
    induction h with
    | nil => simp
    | @cons x y r r' hab _ ih =>
      simp only [List.zipWith_cons_cons, List.map_cons, List.sum_cons]
      have := abs_add_le (x - a) (y - x - (b - a))
      rw [show x - a + (y - x - (b - a)) = y - b by ring] at this
      linarith
  have h3 := h2 (mean r) (mean r')
  rw [mad_eq, mad_eq, ← h.length_eq]
  simp only [mar]
  rw [div_le_iff₀ hn, add_mul, div_mul_cancel₀ _ hn.ne']
  linarith

/-- The losses around the mean are half of the deviations. -/
theorem flpm_half (r : List ℝ) (hr : r ≠ []) : firstLowerPartialMoment r none = meanAbsoluteDeviation r none / 2 := by
  have hn : (0 : ℝ) < (r.length : ℝ) := Nat.cast_pos.2 (List.length_pos_iff.2 hr)
  rw [flpm_eq, mad_eq]
  simp only [mar]
  have e : ∀ (l : List ℝ) (m : ℝ), (l.map fun x => -min 0 (x - m)).sum = ((l.map fun x => |x - m|).sum - (l.sum - (l.length : ℝ) * m)) / 2 := by
    intro l m
    induction l with
    | nil => simp
    | cons x l ih =>
      simp only [List.map_cons, List.sum_cons, List.length_cons, ih]
      push_cast
      rcases le_total 0 (x - m) with h | h
      · rw [min_eq_left h, abs_of_nonneg h]
        ring
      · rw [min_eq_right h, abs_of_nonpos h]
        ring
  have hm : r.sum - (r.length : ℝ) * mean r = 0 := by
    unfold mean
    field_simp
    ring
  rw [e, hm]
  ring

/-- **C132.** Mean absolute deviation and first lower partial moment: by at most `δ`; the latter by at most `δ / 2` around the mean. -/
theorem C132_absolute :
    (∀ m, Stable (fun _ => 1) fun r => meanAbsoluteDeviation r m) ∧ (∀ m, Stable (fun _ => 1) fun r => firstLowerPartialMoment r (some m)) ∧
    Stable (fun _ => 1 / 2) (fun r => firstLowerPartialMoment r none) := by
  refine ⟨fun m => stable_of_le _ _ ?_, fun m => stable_of_le _ _ ?_, stable_of_le _ _ ?_⟩ <;> intro δ r r' hr h
  · cases m with
    | none =>
      have := mad_le δ r r' hr h
      linarith
    | some m =>
      have := mean_short _ short_abs δ m m r r' hr h
      simp only [mad_eq, mar]
      rw [sub_self, abs_zero] at this
      linarith
  · have := mean_short _ short_loss δ m m r r' hr h
    simp only [flpm_eq, mar]
    rw [sub_self, abs_zero] at this
    linarith
  · have := mad_le δ r r' hr h
    simp only [flpm_half r hr, flpm_half r' (h.ne_nil hr)]
    linarith

/-- The triangle inequality for lists. -/
theorem root_le (u v : List ℝ) (h : u.length = v.length) :
    √(u.map fun x => x ^ 2).sum ≤ √(v.map fun x => x ^ 2).sum + √((List.zipWith (fun x y => x - y) u v).map fun x => x ^ 2).sum := by
  have hl : (v.map fun x => 2 * x).length = ((List.zipWith (fun x y => x - y) u v).map fun x => 2 * x).length := by simp [h]
  have e : mixed (1 / 2) (v.map fun x => 2 * x) ((List.zipWith (fun x y => x - y) u v).map fun x => 2 * x) = u := by
    clear hl
    induction u generalizing v with
    | nil => cases v with
      | nil => rfl
      | cons y v => simp at h
    | cons x u ih => cases v with
      | nil => simp at h
      | cons y v =>
        simp only [List.map_cons, List.zipWith_cons_cons]
        rw [mixed_cons, ih v (by simpa using h)]
        congr 1
        ring
  have hs : ∀ l : List ℝ, √((l.map fun x => 2 * x).map fun x => x ^ 2).sum = 2 * √(l.map fun x => x ^ 2).sum := by
    intro l
    rw [List.map_map]
    have : ((fun x : ℝ => x ^ 2) ∘ fun x => 2 * x) = fun x => 2 ^ 2 * x ^ 2 := by
      funext x
      simp only [Function.comp]
      ring
    rw [this, List.sum_map_mul_left, Real.sqrt_mul (by positivity), Real.sqrt_sq (by norm_num)]
  have := sqrt_mixed (1 / 2) (by norm_num) (by norm_num) _ _ hl
  rw [e, hs, hs] at this
  linarith

theorem zip_map_sub (g : ℝ → ℝ) (a b : ℝ) (r r' : List ℝ) :
    List.zipWith (fun x y => x - y) (r'.map fun x => g (x - b)) (r.map fun x => g (x - a)) = List.zipWith (fun x y => g (x - b) - g (y - a)) r' r := by
  rw [List.zipWith_map]

/-- Root of the sum of squares of the gaps, bounded. -/
theorem gap_le (g : ℝ → ℝ) (hg : Short g) (δ a b : ℝ) (r r' : List ℝ) (h : Close δ r r') :
    ((List.zipWith (fun x y => g (x - b) - g (y - a)) r' r).map fun x => x ^ 2).sum ≤ (r.length : ℝ) * (δ + |a - b|) ^ 2 := by
  induction h with
  | nil => simp
  | @cons x y r r' hab _ ih =>
    simp only [List.zipWith_cons_cons, List.map_cons, List.sum_cons, List.length_cons]
    push_cast
    have h3 : |g (y - b) - g (x - a)| ≤ δ + |a - b| := by
      refine le_trans (hg _ _) ?_
      rw [show y - b - (x - a) = -(x - y) + (a - b) by ring]
      refine le_trans (abs_add_le _ _) ?_
      rw [abs_neg]
      linarith
    have h4 := pow_le_pow_left₀ (abs_nonneg _) h3 2
    rw [sq_abs] at h4
    linarith

theorem root_short (g : ℝ → ℝ) (hg : Short g) (δ a b : ℝ) (r r' : List ℝ) (hr : 2 ≤ r.length) (h : Close δ r r') :
    √((r'.map fun x => g (x - b) ^ 2).sum / ((r'.length : ℝ) - 1)) ≤
      √((r.map fun x => g (x - a) ^ 2).sum / ((r.length : ℝ) - 1)) + √((r.length : ℝ) / ((r.length : ℝ) - 1)) * (δ + |a - b|) := by
  have hn : (0 : ℝ) < (r.length : ℝ) - 1 := by
    have : (2 : ℝ) ≤ (r.length : ℝ) := by exact_mod_cast hr
    linarith
  have hne : r ≠ [] := by
    rintro rfl
    simp at hr
  have hd : 0 ≤ δ + |a - b| := add_nonneg (h.nonneg hne) (abs_nonneg _)
  have key := root_le (r'.map fun x => g (x - b)) (r.map fun x => g (x - a)) (by simp [h.length_eq])
  rw [zip_map_sub] at key
  have h2 := Real.sqrt_le_sqrt (gap_le g hg δ a b r r' h)
  rw [Real.sqrt_mul (Nat.cast_nonneg _), Real.sqrt_sq hd] at h2
  simp only [List.map_map, Function.comp_def] at key h2
  rw [← h.length_eq, Real.sqrt_div' _ hn.le, Real.sqrt_div' _ hn.le, Real.sqrt_div' _ hn.le, div_mul_eq_mul_div, ← add_div]
  exact div_le_div_of_nonneg_right (by linarith) (Real.sqrt_nonneg _)

theorem length_ge_of_ne (r : List ℝ) (h : 2 ≤ r.length) : r ≠ [] := by
  rintro rfl
  simp at h

/-- **C132.** With at least two observations the standard deviation changes by at most `√(n / (n - 1)) δ`, and the semi-deviation by the same around a fixed target,
by twice as much around the mean. -/
theorem C132_deviations (δ : ℝ) (r r' : List ℝ) (hr : 2 ≤ r.length) (h : Close δ r r') :
    |standardDeviation r - standardDeviation r'| ≤ √((r.length : ℝ) / ((r.length : ℝ) - 1)) * δ ∧
    (∀ m, |semiDeviation r (some m) - semiDeviation r' (some m)| ≤ √((r.length : ℝ) / ((r.length : ℝ) - 1)) * δ) ∧
    |semiDeviation r none - semiDeviation r' none| ≤ √((r.length : ℝ) / ((r.length : ℝ) - 1)) * (2 * δ) := by
  have sym : ∀ (f : List ℝ → ℝ) (c : ℝ), (∀ r r', 2 ≤ r.length → Close δ r r' → f r' ≤ f r + √((r.length : ℝ) / ((r.length : ℝ) - 1)) * c) →
      |f r - f r'| ≤ √((r.length : ℝ) / ((r.length : ℝ) - 1)) * c := by
    intro f c hf
    have h1 := hf r r' hr h
    have h2 := hf r' r (by rw [← h.length_eq]; exact hr) h.symm
    rw [← h.length_eq] at h2
    exact abs_le.2 ⟨by linarith, by linarith⟩
  have hcube : ∀ l : List ℝ, ∀ a : ℝ, (l.map fun x => (-min 0 (x - a)) ^ 2) = l.map fun x => (min 0 (x - a)) ^ 2 := fun l a =>
    List.map_congr_left fun x _ => by ring
  refine ⟨sym standardDeviation δ ?_, fun m => sym (fun r => semiDeviation r (some m)) δ ?_, sym (fun r => semiDeviation r none) (2 * δ) ?_⟩
  · intro r r' hr h
    have hn : (0 : ℝ) < (r.length : ℝ) - 1 := by
      have : (2 : ℝ) ≤ (r.length : ℝ) := by exact_mod_cast hr
      linarith
    have hd := h.nonneg (length_ge_of_ne r hr)
    have key := root_le (r'.map fun x => x - mean r') (r.map fun x => x - mean r) (by simp [h.length_eq])
    have ez : List.zipWith (fun x y => x - y) (r'.map fun x => x - mean r') (r.map fun x => x - mean r) =
        (List.zipWith (fun x y => x - y) r' r).map fun x => x - mean (List.zipWith (fun x y => x - y) r' r) := by
      have hm := mean_gap δ r r' h
      rw [hm, List.zipWith_map, List.map_zipWith]
      congr 1
      funext x y
      ring
    rw [ez] at key
    have h2 : √(((List.zipWith (fun x y => x - y) r' r).map fun x => x - mean (List.zipWith (fun x y => x - y) r' r)).map fun x => x ^ 2).sum ≤ √(r.length : ℝ) * δ := by
      rw [List.map_map]
      refine le_trans (Real.sqrt_le_sqrt (centred_le _)) ?_
      rw [← Real.sqrt_sq hd, ← Real.sqrt_mul (Nat.cast_nonneg _)]
      refine Real.sqrt_le_sqrt ?_
      have := gap_le (fun x => x) (fun x y => le_rfl) δ 0 0 r r' h
      simpa using this
    simp only [List.map_map, Function.comp_def] at key h2
    unfold standardDeviation variance
    rw [← h.length_eq, Real.sqrt_div' _ hn.le, Real.sqrt_div' _ hn.le, Real.sqrt_div' _ hn.le, div_mul_eq_mul_div, ← add_div]
    exact div_le_div_of_nonneg_right (by linarith) (Real.sqrt_nonneg _)
  · intro r r' hr h
    have := root_short _ short_loss δ m m r r' hr h
    rw [sub_self, abs_zero, add_zero] at this
    simp only [hcube] at this
    exact this
  · intro r r' hr h
    have := root_short _ short_loss δ (mar r none) (mar r' none) r r' hr h
    have h2 := mar_none_close δ r r' (length_ge_of_ne r hr) h
    simp only [hcube] at this
    refine le_trans this ?_
    have h3 : √((r.length : ℝ) / ((r.length : ℝ) - 1)) * (δ + |mar r none - mar r' none|) ≤ √((r.length : ℝ) / ((r.length : ℝ) - 1)) * (2 * δ) :=
      mul_le_mul_of_nonneg_left (by linarith) (Real.sqrt_nonneg _)
    unfold semiDeviation semiVariance
    linarith

theorem getD_close (δ : ℝ) (hd : 0 ≤ δ) (r r' : List ℝ) (h : Close δ r r') (k : Nat) : |r.getD k 0 - r'.getD k 0| ≤ δ := by
  induction h generalizing k with
  | nil => simpa using hd
  | cons hab _ ih =>
    cases k with
    | zero => simpa using hab
    | succ k => simpa using ih k

theorem range_sum (n : Nat) (f : Nat → ℝ) : ((List.range n).map f).sum = ∑ i ∈ Finset.range n, f i := rfl

/-- **C132.** With at least two observations Gini's mean difference changes by at most `2 δ`. -/
theorem C132_gini (δ : ℝ) (r r' : List ℝ) (hr : 2 ≤ r.length) (h : Close δ r r') : |giniMeanDifference r - giniMeanDifference r'| ≤ 2 * δ := by
  have hne := length_ge_of_ne r hr
  have hd := h.nonneg hne
  have h2 : (2 : ℝ) ≤ (r.length : ℝ) := by exact_mod_cast hr
  have hpos : 0 < (r.length : ℝ) * ((r.length : ℝ) - 1) := mul_pos (by linarith) (by linarith)
  have hpair : ∀ i j, |(|r.getD i 0 - r.getD j 0| - |r'.getD i 0 - r'.getD j 0|)| ≤ if j = i then 0 else 2 * δ := by
    intro i j
    split
    · next e =>
      subst e
      simp
    · refine le_trans (abs_abs_sub_abs_le_abs_sub _ _) ?_
      have h3 := abs_le.1 (getD_close δ hd r r' h i)
      have h4 := abs_le.1 (getD_close δ hd r r' h j)
      exact abs_le.2 ⟨by linarith [h3.1, h4.2], by linarith [h3.2, h4.1]⟩
  have hrow : ∀ i ∈ Finset.range r.length, |∑ j ∈ Finset.range r.length, (|r.getD i 0 - r.getD j 0| - |r'.getD i 0 - r'.getD j 0|)| ≤ ((r.length : ℝ) - 1) * (2 * δ) := by
    intro i hi
    refine le_trans (Finset.abs_sum_le_sum_abs _ _) ?_
    refine le_trans (Finset.sum_le_sum fun j _ => hpair i j) ?_
    rw [← Finset.add_sum_erase _ _ hi, if_pos rfl, zero_add]
    rw [Finset.sum_congr rfl (g := fun _ => 2 * δ) fun j hj => if_neg (Finset.ne_of_mem_erase hj), Finset.sum_const, Finset.card_erase_of_mem hi,
      Finset.card_range, nsmul_eq_mul, Nat.cast_sub (by omega), Nat.cast_one]
  rw [C15_gini, C15_gini]
  unfold meanAbsDifference
  simp only [range_sum]
  rw [← h.length_eq, ← sub_div, abs_div, abs_of_pos hpos, div_le_iff₀ hpos, ← Finset.sum_sub_distrib]
  refine le_trans (Finset.abs_sum_le_sum_abs _ _) ?_
  have h5 := Finset.sum_le_sum fun i hi => hrow i hi
  simp only [Finset.sum_sub_distrib] at h5 ⊢
  rw [Finset.sum_const, Finset.card_range, nsmul_eq_mul] at h5
  linarith

/-! ### C132: drawdowns -/

theorem gain_close (δ : ℝ) (hd : 0 ≤ δ) (r r' : List ℝ) (h : Close δ r r') (i k : Nat) :
    |(wealth r false (i + k) - wealth r false i) - (wealth r' false (i + k) - wealth r' false i)| ≤ (k : ℝ) * δ := by
  induction k with
  | zero => simp
  | succ k ih =>
    rw [← add_assoc, wealth_succ, wealth_succ]
    have h1 := abs_le.1 (getD_close δ hd r r' h (i + k + 1))
    have h2 := abs_le.1 ih
    push_cast
    exact abs_le.2 ⟨by linarith [h1.1, h2.1], by linarith [h1.2, h2.2]⟩

theorem shortfall_le (δ : ℝ) (hd : 0 ≤ δ) (r r' : List ℝ) (h : Close δ r r') (k : Nat) : shortfall r false k ≤ shortfall r' false k + (k : ℝ) * δ := by
  obtain ⟨i, hi, hi2⟩ := Finset.exists_mem_eq_sup' (s := Finset.range (k + 1)) ⟨0, by simp⟩ (wealth r' false)
  have hik : i ≤ k := by
    have := Finset.mem_range.1 hi
    omega
  obtain ⟨j, rfl⟩ : ∃ j, k = i + j := ⟨k - i, by omega⟩
  have hpk : peak r' false (i + j) = wealth r' false i := hi2
  have hle : wealth r false i ≤ peak r false (i + j) := Finset.le_sup' (wealth r false) hi
  have h1 := abs_le.1 (gain_close δ hd r r' h i j)
  unfold shortfall
  simp only [Bool.false_eq_true, if_false]
  rw [hpk]
  push_cast
  have : 0 ≤ (i : ℝ) * δ := mul_nonneg (Nat.cast_nonneg _) hd
  linarith [h1.2]

/-- **C132.** Without compounding, every drawdown of `n` observations changes by at most `(n - 1) δ`. -/
theorem C132_drawdowns (δ : ℝ) (r r' : List ℝ) (hr : r ≠ []) (h : Close δ r r') :
    Close (((r.length : ℝ) - 1) * δ) (drawdowns r false) (drawdowns r' false) := by
  have hd := h.nonneg hr
  refine List.forall₂_iff_get.2 ⟨?_, ?_⟩
  · rw [length_drawdowns, length_drawdowns, h.length_eq]
  · intro k hk hk'
    have hk2 : k < r.length := by rwa [length_drawdowns] at hk
    have e1 := (C14_shortfall r false).2 k hk2
    have e2 := (C14_shortfall r' false).2 k (by rwa [length_drawdowns] at hk')
    rw [List.getElem?_eq_some_iff] at e1 e2
    obtain ⟨_, e1⟩ := e1
    obtain ⟨_, e2⟩ := e2
    simp only [List.get_eq_getElem, e1, e2]
    have h1 := shortfall_le δ hd r r' h k
    have h2 := shortfall_le δ hd r' r h.symm k
    have h3 : (k : ℝ) * δ ≤ ((r.length : ℝ) - 1) * δ := by
      refine mul_le_mul_of_nonneg_right ?_ hd
      have : ((k + 1 : Nat) : ℝ) ≤ (r.length : ℝ) := by exact_mod_cast hk2
      push_cast at this
      linarith
    exact abs_le.2 ⟨by linarith, by linarith⟩

/-- **C132.** So the maximum drawdown, the average drawdown, the drawdown at risk and the conditional drawdown at risk change by at most `(n - 1) δ`. -/
theorem C132_drawdown_measures (P : Partition ℝ) (beta : ℝ) (h0 : 0 ≤ beta) (h1 : beta < 1) :
    StableIfDefined (fun n => (n : ℝ) - 1) (fun r => maxDrawdown P (drawdowns r false)) ∧
    StableIfDefined (fun n => (n : ℝ) - 1) (fun r => averageDrawdown P (drawdowns r false)) ∧
    StableIfDefined (fun n => (n : ℝ) - 1) (fun r => drawdownAtRisk P (drawdowns r false) beta) ∧
    StableIfDefined (fun n => (n : ℝ) - 1) (fun r => cdar P (drawdowns r false) beta) := by
  have hne : ∀ r : List ℝ, r ≠ [] → drawdowns r false ≠ [] := by
    intro r hr
    rw [← List.length_pos_iff, length_drawdowns]
    exact List.length_pos_iff.2 hr
  obtain ⟨t1, t2, t3, -, -⟩ := C132_tail P beta h0 h1
  obtain ⟨-, -, t0, -, -⟩ := C132_tail P 0 le_rfl one_pos
  refine ⟨?_, ?_, ?_, ?_⟩ <;> intro δ r r' hr h a b ha hb
  · change valueAtRisk P (drawdowns r false) 1 = some a at ha
    change valueAtRisk P (drawdowns r' false) 1 = some b at hb
    rw [C12_var_one] at ha hb
    have := t1 _ _ _ (hne r hr) (C132_drawdowns δ r r' hr h) a b ha hb
    rwa [one_mul] at this
  · have := t0 _ _ _ (hne r hr) (C132_drawdowns δ r r' hr h) a b ha hb
    rwa [one_mul] at this
  · have := t2 _ _ _ (hne r hr) (C132_drawdowns δ r r' hr h) a b ha hb
    rwa [one_mul] at this
  · have := t3 _ _ _ (hne r hr) (C132_drawdowns δ r r' hr h) a b ha hb
    rwa [one_mul] at this

/-! ### C132: weights -/

/-- **C132.** If no asset return exceeds `B` in absolute value, two weight vectors give portfolio returns that differ by at most `B` times the sum of the
absolute differences of the weights; with the theorems above, so do the measures of the two portfolios. -/
theorem C132_weights {T n : Nat} (X : Fin T → Fin n → ℝ) (B : ℝ) (hB : ∀ t i, |X t i| ≤ B) (w w' : Fin n → ℝ) :
    Close (B * ∑ i, |w i - w' i|) (weightedReturns X w) (weightedReturns X w') := by
  unfold weightedReturns
  refine List.forall₂_iff_get.2 ⟨by simp, ?_⟩
  intro k hk hk'
  simp only [List.get_eq_getElem, List.getElem_ofFn]
  rw [← Finset.sum_sub_distrib]
  refine le_trans (Finset.abs_sum_le_sum_abs _ _) ?_
  rw [Finset.mul_sum]
  refine Finset.sum_le_sum fun i _ => ?_
  rw [← sub_mul, abs_mul, mul_comm]
  exact mul_le_mul_of_nonneg_right (hB _ i) (abs_nonneg _)

/-- **C132.** In particular for the measures of the portfolios of two weight vectors, such as a solver's answer and the exact optimum. -/
theorem C132_portfolios (P : Partition ℝ) (beta : ℝ) (h0 : 0 ≤ beta) (h1 : beta < 1) {T n : Nat} (hT : 2 ≤ T) (X : Fin T → Fin n → ℝ) (B : ℝ)
    (hB : ∀ t i, |X t i| ≤ B) (w w' : Fin n → ℝ) :
    |mean (weightedReturns X w) - mean (weightedReturns X w')| ≤ B * ∑ i, |w i - w' i| ∧
    |standardDeviation (weightedReturns X w) - standardDeviation (weightedReturns X w')| ≤ √((T : ℝ) / ((T : ℝ) - 1)) * (B * ∑ i, |w i - w' i|) ∧
    (∀ a b, cvar P (weightedReturns X w) beta = some a → cvar P (weightedReturns X w') beta = some b → |a - b| ≤ B * ∑ i, |w i - w' i|) ∧
    (∀ a b, maxDrawdown P (drawdowns (weightedReturns X w) false) = some a → maxDrawdown P (drawdowns (weightedReturns X w') false) = some b →
      |a - b| ≤ ((T : ℝ) - 1) * (B * ∑ i, |w i - w' i|)) := by
  have hw := C132_weights X B hB w w'
  have hl : ∀ w, (weightedReturns X w).length = T := fun w => by simp [weightedReturns]
  have hne : weightedReturns X w ≠ [] := length_ge_of_ne _ (by rw [hl]; exact hT)
  have e1 := C132_mean _ _ _ hne hw
  have e2 := (C132_deviations _ _ _ (by rw [hl]; exact hT) hw).1
  have e3 := (C132_tail P beta h0 h1).2.2.1 _ _ _ hne hw
  have e4 := (C132_drawdown_measures P beta h0 h1).1 _ _ _ hne hw
  rw [one_mul] at e1
  rw [hl] at e2
  simp only [one_mul] at e3
  simp only [hl] at e4
  exact ⟨e1, e2, e3, e4⟩

/-! ### Examples -/

/-- Three observations that move by at most 1/10. -/
example : Close (1 / 10) [1 / 100, -2 / 100, 3 / 100] [2 / 100, 3 / 100, -7 / 100] := by
  refine List.Forall₂.cons ?_ (List.Forall₂.cons ?_ (List.Forall₂.cons ?_ List.Forall₂.nil)) <;> norm_num [abs_le]

/-- The bound on the drawdowns is attained: with three observations moved by 1 the maximum drawdown moves by 2. -/
example : maxDrawdown (sortPartition ℚ) (drawdowns [(0 : ℚ), 0, 0] false) = some 0 ∧ maxDrawdown (sortPartition ℚ) (drawdowns [(0 : ℚ), -1, -1] false) = some 2 := by
  decide +kernel

/-- So are the bounds on the mean absolute deviation and on the first lower partial moment around the mean. -/
example : meanAbsoluteDeviation [(0 : ℚ), 0] none = 0 ∧ meanAbsoluteDeviation [(1 : ℚ), -1] none = 1 ∧ firstLowerPartialMoment [(1 : ℚ), -1] none = 1 / 2 := by
  decide +kernel

/-- And the one on the standard deviation: the variance of 1 and -1 is 2, that is `n / (n - 1)`. -/
example : variance [(0 : ℚ), 0] = 0 ∧ variance [(1 : ℚ), -1] = 2 := by
  decide +kernel

end Skfolio.Measures
