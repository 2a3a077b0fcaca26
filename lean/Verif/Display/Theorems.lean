import Mathlib.Tactic.NormNum
import Mathlib.Tactic.Linarith
import Mathlib.Tactic.Positivity
import Mathlib.Tactic.FieldSimp
import Mathlib.Tactic.Ring
import Mathlib.Tactic.IntervalCases
import Mathlib.Tactic.ByContra
import Mathlib.Data.List.Nodup
import Verif.Display.Model

/-!
Displayed measures (C103) and the summary of a portfolio (C104).
-/
set_option autoImplicit false

namespace Skfolio.Display
open Skfolio.Portfolio

/-! ### specification -/

/-- The number a reader takes from a text. -/
noncomputable def Text.value (t : Text) : ℝ :=
  (if t.negative then -1 else 1) * (t.mantissa / 10 ^ t.decimals) / (if t.percent then 100 else 1)

/-- One unit of what is displayed: 1, or 0.01 for percentages. -/
noncomputable def unit (percent : Bool) : ℝ := if percent then 1 / 100 else 1

/-! ### rounding -/

theorem roundEven_near (r : ℝ) : |(roundEven r : ℝ) - r| ≤ 1 / 2 := by
  have h := Int.floor_add_fract r
  have h0 := Int.fract_nonneg r
  have h1 := Int.fract_lt_one r
  unfold roundEven
  rw [abs_le]
  by_cases c1 : Int.fract r < 1 / 2
  · rw [if_pos c1]; constructor <;> linarith
  · rw [if_neg c1]
    by_cases c2 : 1 / 2 < Int.fract r
    · rw [if_pos c2]; push_cast; constructor <;> linarith
    · rw [if_neg c2]
      by_cases c3 : Even ⌊r⌋
      · rw [if_pos c3]; constructor <;> linarith
      · rw [if_neg c3]; push_cast; constructor <;> linarith

theorem roundEven_int (k : ℤ) : roundEven (k : ℝ) = k := by
  unfold roundEven
  rw [if_pos (by rw [Int.fract_intCast]; norm_num), Int.floor_intCast]

theorem roundEven_bounds (r : ℝ) : ⌊r⌋ ≤ roundEven r ∧ roundEven r ≤ ⌊r⌋ + 1 := by
  unfold roundEven
  by_cases c1 : Int.fract r < 1 / 2
  · rw [if_pos c1]; omega
  · rw [if_neg c1]
    by_cases c2 : 1 / 2 < Int.fract r
    · rw [if_pos c2]; omega
    · rw [if_neg c2]
      by_cases c3 : Even ⌊r⌋
      · rw [if_pos c3]; omega
      · rw [if_neg c3]; omega

theorem roundEven_mono {r s : ℝ} (h : r ≤ s) : roundEven r ≤ roundEven s := by
  have hf : ⌊r⌋ ≤ ⌊s⌋ := Int.floor_le_floor h
  rcases hf.lt_or_eq with hlt | heq
  · exact (roundEven_bounds r).2.trans ((Int.add_one_le_iff.2 hlt).trans (roundEven_bounds s).1)
  · have e1 := Int.floor_add_fract r
    have e2 := Int.floor_add_fract s
    have hfr : Int.fract r ≤ Int.fract s := by
      rw [heq] at e1
      linarith
    by_cases c1 : Int.fract r < 1 / 2
    · have : roundEven r = ⌊r⌋ := if_pos c1
      rw [this, heq]
      exact (roundEven_bounds s).1
    · by_cases c2 : 1 / 2 < Int.fract r
      · have e : roundEven s = ⌊s⌋ + 1 := by
          unfold roundEven
          rw [if_neg (by linarith), if_pos (by linarith)]
        rw [e, ← heq]
        exact (roundEven_bounds r).2
      · by_cases c3 : 1 / 2 < Int.fract s
        · have e : roundEven s = ⌊s⌋ + 1 := by
            unfold roundEven
            rw [if_neg (by linarith), if_pos c3]
          rw [e, ← heq]
          exact (roundEven_bounds r).2
        · unfold roundEven
          have c4 : ¬ Int.fract s < 1 / 2 := by linarith
          rw [if_neg c1, if_neg c2, if_neg c4, if_neg c3, heq]

theorem roundEven_nonneg {r : ℝ} (h : 0 ≤ r) : 0 ≤ roundEven r := by
  have := roundEven_mono h
  rwa [show (0 : ℝ) = ((0 : ℤ) : ℝ) by norm_num, roundEven_int] at this

theorem roundEven_zero {r : ℝ} (h : 0 ≤ r) : roundEven r = 0 ↔ r ≤ 1 / 2 := by
  constructor
  · intro e
    have := roundEven_near r
    rw [e, abs_le] at this
    norm_num at this
    linarith [this.1]
  · intro hr
    refine le_antisymm ?_ (roundEven_nonneg h)
    have h2 : roundEven (1 / 2 : ℝ) = 0 := by
      have hf : ⌊(1 / 2 : ℝ)⌋ = 0 := by
        rw [Int.floor_eq_iff]; norm_num
      have hfr : Int.fract (1 / 2 : ℝ) = 1 / 2 := by
        have := Int.floor_add_fract (1 / 2 : ℝ)
        rw [hf] at this
        simpa using this
      unfold roundEven
      rw [hfr, hf, if_neg (lt_irrefl _), if_neg (lt_irrefl _), if_pos Even.zero]
    rw [← h2]
    exact roundEven_mono hr

/-! ### the number of decimals -/

theorem pyInt_le (r : ℝ) (j : ℤ) (hj : 0 ≤ j) : pyInt r ≤ j ↔ r < j + 1 := by
  unfold pyInt
  by_cases h : 0 ≤ r
  · rw [if_pos h, Int.le_iff_lt_add_one, Int.floor_lt]
    push_cast
    rfl
  · rw [if_neg h, Int.ceil_le]
    have hj' : (0 : ℝ) ≤ j := by exact_mod_cast hj
    push Not at h
    constructor <;> intro _ <;> linarith

/-- The decimals of a number other than zero. -/
noncomputable def decimalsOf (y : ℝ) : ℤ := min 6 (max (pyInt (-Real.logb 10 |y|) + 2) 2)

theorem decimalsOf_bounds (y : ℝ) : 2 ≤ decimalsOf y ∧ decimalsOf y ≤ 6 := by
  unfold decimalsOf
  omega

theorem decimalsOf_le {y : ℝ} (hy : y ≠ 0) (k : ℕ) (h2 : 2 ≤ k) (h6 : k < 6) : decimalsOf y ≤ k ↔ 1 / 10 ^ (k - 1) < |y| := by
  have e : decimalsOf y ≤ k ↔ pyInt (-Real.logb 10 |y|) ≤ (k : ℤ) - 2 := by
    unfold decimalsOf
    omega
  rw [e, pyInt_le _ _ (by omega)]
  have hp : 0 < |y| := abs_pos.2 hy
  have e2 : (-Real.logb 10 |y| < (((k : ℤ) - 2 : ℤ) : ℝ) + 1) ↔ -((k - 1 : ℕ) : ℝ) < Real.logb 10 |y| := by
    have : ((k - 1 : ℕ) : ℝ) = (k : ℝ) - 1 := by
      rw [Nat.cast_sub (by omega)]; norm_num
    rw [this]
    push_cast
    constructor <;> intro _ <;> linarith
  rw [e2, Real.lt_logb_iff_rpow_lt (by norm_num) hp, Real.rpow_neg (by norm_num), Real.rpow_natCast, one_div]

/-! ### what is displayed -/

/-- The number displayed, in units. -/
noncomputable def grid (y : ℝ) (n : ℕ) : ℝ := (if y < 0 then -1 else 1) * ((roundEven (|y| * 10 ^ n) : ℝ) / 10 ^ n)

theorem pyFixed_value (x : ℝ) (percent : Bool) (n : ℕ) : (pyFixed (if percent then x * 100 else x) n percent).value = grid (if percent then x * 100 else x) n * unit percent := by
  have h : 0 ≤ roundEven (|if percent then x * 100 else x| * 10 ^ n) := roundEven_nonneg (by positivity)
  have hc : (((roundEven (|if percent then x * 100 else x| * 10 ^ n)).toNat : ℕ) : ℝ) = (roundEven (|if percent then x * 100 else x| * 10 ^ n) : ℝ) := by
    exact_mod_cast Int.toNat_of_nonneg h
  unfold Text.value pyFixed grid unit
  simp only [hc, decide_eq_true_eq]
  cases percent <;> simp [div_eq_mul_inv]

theorem grid_near (y : ℝ) (n : ℕ) : |grid y n - y| ≤ 1 / 2 / 10 ^ n := by
  have hp : (0 : ℝ) < 10 ^ n := by positivity
  have h := roundEven_near (|y| * 10 ^ n)
  have key : |(roundEven (|y| * 10 ^ n) : ℝ) / 10 ^ n - abs y| ≤ 1 / 2 / 10 ^ n := by
    have e : (roundEven (|y| * 10 ^ n) : ℝ) / 10 ^ n - |y| = ((roundEven (|y| * 10 ^ n) : ℝ) - |y| * 10 ^ n) / 10 ^ n := by
      field_simp
    rw [e, abs_div, abs_of_pos hp]
    exact div_le_div_of_nonneg_right h hp.le
  unfold grid
  by_cases hy : y < 0
  · rw [if_pos hy]
    rw [abs_of_neg hy] at key ⊢
    have e : -1 * ((roundEven (-y * 10 ^ n) : ℝ) / 10 ^ n) - y = -((roundEven (-y * 10 ^ n) : ℝ) / 10 ^ n - -y) := by ring
    rw [e, abs_neg]
    exact key
  · rw [if_neg hy, one_mul]
    have hy' : |y| = y := abs_of_nonneg (not_lt.1 hy)
    calc |(roundEven (|y| * 10 ^ n) : ℝ) / 10 ^ n - y| = |(roundEven (|y| * 10 ^ n) : ℝ) / 10 ^ n - abs y| := by rw [hy']
      _ ≤ _ := key

theorem grid_nonneg {y : ℝ} (hy : 0 ≤ y) (n : ℕ) : 0 ≤ grid y n := by
  unfold grid
  rw [if_neg (not_lt.2 hy), one_mul]
  have : (0 : ℝ) ≤ (roundEven (|y| * 10 ^ n) : ℝ) := by exact_mod_cast roundEven_nonneg (by positivity)
  positivity

theorem grid_neg (y : ℝ) (n : ℕ) (hy : y ≠ 0) : grid (-y) n = -grid y n := by
  unfold grid
  rw [abs_neg]
  rcases lt_or_gt_of_ne hy with h | h
  · rw [if_neg (by linarith), if_pos h]; ring
  · rw [if_pos (by linarith), if_neg (by linarith)]; ring

theorem grid_mono {y z : ℝ} (hy : 0 ≤ y) (h : y ≤ z) (n : ℕ) : grid y n ≤ grid z n := by
  unfold grid
  rw [if_neg (not_lt.2 hy), if_neg (not_lt.2 (hy.trans h)), one_mul, one_mul]
  have : roundEven (|y| * 10 ^ n) ≤ roundEven (|z| * 10 ^ n) := by
    apply roundEven_mono
    rw [abs_of_nonneg hy, abs_of_nonneg (hy.trans h)]
    exact mul_le_mul_of_nonneg_right h (by positivity)
  have hc : (roundEven (|y| * 10 ^ n) : ℝ) ≤ (roundEven (|z| * 10 ^ n) : ℝ) := by exact_mod_cast this
  exact div_le_div_of_nonneg_right hc (by positivity)

theorem grid_power (k n : ℕ) (h : k ≤ n) : grid (1 / 10 ^ k) n = 1 / 10 ^ k := by
  obtain ⟨d, rfl⟩ := Nat.exists_eq_add_of_le h
  unfold grid
  rw [if_neg (not_lt.2 (by positivity)), one_mul, abs_of_nonneg (by positivity)]
  have e : (1 : ℝ) / 10 ^ k * 10 ^ (k + d) = (((10 : ℤ) ^ d : ℤ) : ℝ) := by
    rw [pow_add]
    push_cast
    field_simp
  rw [e, roundEven_int, pow_add]
  push_cast
  field_simp

/-- The number displayed for `y`, in units, whichever the decimals. -/
noncomputable def displayed (y : ℝ) : ℝ := grid y (if y = 0 then 0 else (decimalsOf y).toNat)

theorem displayed_zero : displayed 0 = 0 := by
  simp only [displayed, grid, if_true]
  have : roundEven (|(0 : ℝ)| * 10 ^ 0) = 0 := by
    rw [roundEven_zero (by positivity)]
    norm_num
  rw [this]
  norm_num

theorem displayed_neg (y : ℝ) : displayed (-y) = -displayed y := by
  by_cases hy : y = 0
  · rw [hy, neg_zero, displayed_zero, neg_zero]
  · unfold displayed
    rw [if_neg (neg_ne_zero.2 hy), if_neg hy]
    have : decimalsOf (-y) = decimalsOf y := by
      unfold decimalsOf
      rw [abs_neg]
    rw [this, grid_neg _ _ hy]

theorem displayed_mono_pos {y z : ℝ} (hy : 0 < y) (h : y ≤ z) : displayed y ≤ displayed z := by
  have hz : 0 < z := hy.trans_le h
  unfold displayed
  rw [if_neg hy.ne', if_neg hz.ne']
  have by1 := decimalsOf_bounds y
  have bz1 := decimalsOf_bounds z
  by_cases hd : decimalsOf y ≤ decimalsOf z
  · -- the decimals are the same
    have e : decimalsOf y = decimalsOf z := by
      refine le_antisymm hd ?_
      by_contra hlt
      push Not at hlt
      have h1 := (decimalsOf_le hy.ne' (decimalsOf y).toNat (by omega) (by omega)).1 (by omega)
      have h2 := (decimalsOf_le hz.ne' (decimalsOf y).toNat (by omega) (by omega)).2 (by
        rw [abs_of_pos hy] at h1
        rw [abs_of_pos hz]
        exact h1.trans_le h)
      omega
    rw [e]
    exact grid_mono hy.le h _
  · push Not at hd
    obtain ⟨k, hk⟩ : ∃ k : ℕ, (k : ℤ) = decimalsOf z := ⟨(decimalsOf z).toNat, by omega⟩
    have k2 : 2 ≤ k := by omega
    have k6 : k < 6 := by omega
    have hzk := (decimalsOf_le hz.ne' k k2 k6).1 hk.ge
    have hyk : ¬ 1 / 10 ^ (k - 1) < |y| := by
      rw [← decimalsOf_le hy.ne' k k2 k6]
      omega
    rw [abs_of_pos hz] at hzk
    rw [abs_of_pos hy] at hyk
    push Not at hyk
    have e : (decimalsOf z).toNat = k := by omega
    rw [e]
    calc grid y (decimalsOf y).toNat ≤ grid (1 / 10 ^ (k - 1)) (decimalsOf y).toNat := grid_mono hy.le hyk _
      _ = 1 / 10 ^ (k - 1) := grid_power _ _ (by omega)
      _ = grid (1 / 10 ^ (k - 1)) k := (grid_power _ _ (by omega)).symm
      _ ≤ grid z k := grid_mono (by positivity) hzk.le _

theorem displayed_nonneg {y : ℝ} (hy : 0 ≤ y) : 0 ≤ displayed y := grid_nonneg hy _

theorem displayed_mono {y z : ℝ} (h : y ≤ z) : displayed y ≤ displayed z := by
  rcases lt_trichotomy y 0 with hy | hy | hy
  · rcases lt_or_ge z 0 with hz | hz
    · have := displayed_mono_pos (y := -z) (z := -y) (by linarith) (by linarith)
      rw [displayed_neg, displayed_neg] at this
      linarith
    · have h1 := displayed_nonneg (y := -y) (by linarith)
      rw [displayed_neg] at h1
      linarith [displayed_nonneg hz]
  · rw [hy, displayed_zero]
    exact displayed_nonneg (hy ▸ h)
  · exact displayed_mono_pos hy h

theorem displayed_near (y : ℝ) : |displayed y - y| ≤ max (|y| / 20) (5 / 10 ^ 7) := by
  by_cases hy : y = 0
  · rw [hy, displayed_zero]; norm_num
  · have b := decimalsOf_bounds y
    unfold displayed
    rw [if_neg hy]
    obtain ⟨n, hn⟩ : ∃ n : ℕ, (n : ℤ) = decimalsOf y := ⟨(decimalsOf y).toNat, by omega⟩
    have e : (decimalsOf y).toNat = n := by omega
    rw [e]
    refine (grid_near y n).trans ?_
    rcases Nat.lt_or_ge n 6 with h6 | h6
    · have hk := (decimalsOf_le hy n (by omega) h6).1 hn.ge
      refine le_trans ?_ (le_max_left _ _)
      have e10 : (10 : ℝ) ^ n = 10 ^ (n - 1) * 10 := by
        rw [← pow_succ]; congr 1; omega
      rw [e10]
      have hp : (0 : ℝ) < 10 ^ (n - 1) := by positivity
      have : (1 : ℝ) / 2 / (10 ^ (n - 1) * 10) = (1 / 10 ^ (n - 1)) / 20 := by field_simp; norm_num
      rw [this]
      linarith
    · have : n = 6 := by omega
      rw [this]
      refine le_trans ?_ (le_max_right _ _)
      norm_num

theorem displayed_eq_zero (y : ℝ) : displayed y = 0 ↔ |y| ≤ 5 / 10 ^ 7 := by
  by_cases hy : y = 0
  · rw [hy, displayed_zero]; norm_num
  · have b := decimalsOf_bounds y
    unfold displayed
    rw [if_neg hy]
    obtain ⟨n, hn⟩ : ∃ n : ℕ, (n : ℤ) = decimalsOf y := ⟨(decimalsOf y).toNat, by omega⟩
    have e : (decimalsOf y).toNat = n := by omega
    rw [e]
    have hp : (0 : ℝ) < 10 ^ n := by positivity
    have hz : grid y n = 0 ↔ |y| * 10 ^ n ≤ 1 / 2 := by
      rw [← roundEven_zero (by positivity)]
      unfold grid
      rw [mul_eq_zero, div_eq_zero_iff]
      constructor
      · rintro (h | h | h)
        · by_cases c : y < 0
          · rw [if_pos c] at h; norm_num at h
          · rw [if_neg c] at h; norm_num at h
        · exact_mod_cast h
        · exact absurd h hp.ne'
      · intro h
        rw [h]
        right; left; norm_num
    rw [hz]
    rcases Nat.lt_or_ge n 6 with h6 | h6
    · have hk := (decimalsOf_le hy n (by omega) h6).1 hn.ge
      have e10 : (10 : ℝ) ^ n = 10 ^ (n - 1) * 10 := by
        rw [← pow_succ]; congr 1; omega
      have hq : (0 : ℝ) < 10 ^ (n - 1) := by positivity
      have h1 : 1 < |y| * 10 ^ (n - 1) := by rwa [div_lt_iff₀ hq] at hk
      constructor
      · intro h
        exfalso
        rw [e10] at h
        linarith
      · intro h
        exfalso
        have h5 : (10 : ℝ) ^ (n - 1) ≤ 10 ^ 4 := pow_le_pow_right₀ (by norm_num) (by omega)
        have : |y| * 10 ^ (n - 1) ≤ 5 / 10 ^ 7 * 10 ^ 4 := mul_le_mul h h5 hq.le (by norm_num)
        norm_num at this
        linarith
    · have : n = 6 := by omega
      rw [this]
      constructor <;> intro h
      · rw [le_div_iff₀ (by norm_num)]
        norm_num at h ⊢
        linarith
      · rw [le_div_iff₀ (by norm_num)] at h
        norm_num at h ⊢
        linarith

/-! ### C103 -/

/-- The number in units. -/
noncomputable def inUnits (x : ℝ) (percent : Bool) : ℝ := if percent then x * 100 else x

theorem inUnits_unit (x : ℝ) (percent : Bool) : inUnits x percent * unit percent = x := by
  unfold inUnits unit
  cases percent <;> simp

theorem unit_pos (percent : Bool) : 0 < unit percent := by
  unfold unit
  cases percent <;> norm_num

theorem formatMeasure_fin (x : ℝ) (percent : Bool) :
    formatMeasure (.fin x) percent =
      .ok (.number (pyFixed (inUnits x percent) (if inUnits x percent = 0 then 0 else (decimalsOf (inUnits x percent)).toNat) percent)) := by
  unfold formatMeasure inUnits
  simp only
  by_cases h : (if percent = true then x * 100 else x) = 0
  · rw [if_pos h, if_pos h]
  · rw [if_neg h, if_neg h]
    simp only [optimalRoundingDecimals, if_neg h]
    rfl

theorem formatMeasure_value {x : ℝ} {percent : Bool} {t : Text} (h : formatMeasure (.fin x) percent = .ok (.number t)) :
    t.value = displayed (inUnits x percent) * unit percent := by
  rw [formatMeasure_fin] at h
  cases h
  exact pyFixed_value x percent _

/-- **C103.** The displayed number is within 5% of the measure, or within five ten-millionths of what is displayed (of one percent for percentages). -/
theorem C103_close (x : ℝ) (percent : Bool) (t : Text) (h : formatMeasure (.fin x) percent = .ok (.number t)) :
    |t.value - x| ≤ max (|x| / 20) (5 / 10 ^ 7 * unit percent) := by
  have hu := unit_pos percent
  have e : t.value - x = (displayed (inUnits x percent) - inUnits x percent) * unit percent := by
    rw [sub_mul, inUnits_unit, formatMeasure_value h]
  have ex : |x| / 20 = |inUnits x percent| / 20 * unit percent := by
    conv_lhs => rw [← inUnits_unit x percent, abs_mul, abs_of_pos hu]
    ring
  rw [e, ex, abs_mul, abs_of_pos hu, ← max_mul_of_nonneg _ _ hu.le]
  exact mul_le_mul_of_nonneg_right (displayed_near _) hu.le

/-- **C103.** Rounding never inverts an order: if one measure is displayed as greater than another, it is greater, although the two are displayed with different numbers of decimals. -/
theorem C103_order (x y : ℝ) (percent : Bool) (s t : Text) (hs : formatMeasure (.fin x) percent = .ok (.number s))
    (ht : formatMeasure (.fin y) percent = .ok (.number t)) (h : s.value < t.value) : x < y := by
  by_contra hxy
  push Not at hxy
  have hu := unit_pos percent
  have : inUnits y percent ≤ inUnits x percent := by
    unfold inUnits
    cases percent
    · simpa using hxy
    · simpa using hxy
  rw [formatMeasure_value hs, formatMeasure_value ht] at h
  have := mul_le_mul_of_nonneg_right (displayed_mono this) hu.le
  linarith

/-- **C103.** A measure is displayed as zero iff it is at most five ten-millionths of a unit, and a minus sign is displayed iff it is negative. -/
theorem C103_zero (x : ℝ) (percent : Bool) (t : Text) (h : formatMeasure (.fin x) percent = .ok (.number t)) :
    (t.value = 0 ↔ |x| ≤ 5 / 10 ^ 7 * unit percent) ∧ (t.negative = true ↔ x < 0) := by
  have hu := unit_pos percent
  constructor
  · rw [formatMeasure_value h, mul_eq_zero, or_iff_left hu.ne', displayed_eq_zero]
    conv_rhs => rw [← inUnits_unit x percent, abs_mul, abs_of_pos hu]
    exact (mul_le_mul_iff_left₀ hu).symm
  · rw [formatMeasure_fin] at h
    cases h
    simp only [pyFixed, decide_eq_true_eq]
    unfold inUnits
    cases percent
    · simp
    · simp only [if_true]
      constructor <;> intro _ <;> linarith

/-- **C103.** Between two and six decimals are displayed, unless the measure is zero; with two decimals when it is greater than 0.1 units. -/
theorem C103_decimals (x : ℝ) (percent : Bool) (t : Text) (h : formatMeasure (.fin x) percent = .ok (.number t)) (hx : x ≠ 0) :
    2 ≤ t.decimals ∧ t.decimals ≤ 6 ∧ (t.decimals = 2 ↔ unit percent / 10 < |x|) ∧ t.percent = percent := by
  have hu := unit_pos percent
  have hn : inUnits x percent ≠ 0 := by
    intro h0
    apply hx
    rw [← inUnits_unit x percent, h0, zero_mul]
  have b := decimalsOf_bounds (inUnits x percent)
  rw [formatMeasure_fin, if_neg hn] at h
  cases h
  simp only [pyFixed]
  refine ⟨by omega, by omega, ?_, trivial⟩
  have e : (decimalsOf (inUnits x percent)).toNat = 2 ↔ decimalsOf (inUnits x percent) ≤ (2 : ℕ) := by omega
  rw [e, decimalsOf_le hn 2 le_rfl (by norm_num)]
  conv_rhs => rw [← inUnits_unit x percent, abs_mul, abs_of_pos hu]
  rw [show unit percent / 10 = 1 / 10 ^ (2 - 1) * unit percent by norm_num; ring]
  exact (mul_lt_mul_iff_left₀ hu).symm

/-- **C103** (negated for infinite measures). Everything but an infinity can be displayed: NaN as such, and an infinite measure raises an exception. -/
theorem C103_infinite_raises (v : Num) (percent : Bool) :
    (∃ e, formatMeasure v percent = .error e) ↔ ∃ s, v = .inf s := by
  cases v with
  | nan => simp [formatMeasure]
  | inf s => exact ⟨fun _ => ⟨s, rfl⟩, fun _ => ⟨.overflow, rfl⟩⟩
  | fin x =>
    rw [formatMeasure_fin]
    simp

/-- Numbers that are displayed differently: 0.0234 in percent is displayed with two decimals, and 3 as well. -/
example : ∃ s t, formatMeasure (.fin (234 / 10000)) true = .ok (.number s) ∧ formatMeasure (.fin 3) true = .ok (.number t) ∧ s.value < t.value := by
  refine ⟨_, _, formatMeasure_fin _ _, formatMeasure_fin _ _, ?_⟩
  have h1 := C103_close _ _ _ (formatMeasure_fin (234 / 10000) true)
  have h2 := C103_close _ _ _ (formatMeasure_fin 3 true)
  have e1 : max (|(234 / 10000 : ℝ)| / 20) (5 / 10 ^ 7 * unit true) ≤ 1 / 100 := by
    unfold unit; rw [abs_of_pos (by norm_num)]; norm_num
  have e2 : max (|(3 : ℝ)| / 20) (5 / 10 ^ 7 * unit true) ≤ 1 := by
    unfold unit; rw [abs_of_pos (by norm_num)]; norm_num
  have h1' := (abs_le.1 (h1.trans e1)).2
  have h2' := (abs_le.1 (h2.trans e2)).1
  linarith

/-! ### C104: the summary -/

theorem measures_complete (e : Measure) : e ∈ measures := by
  rcases e with (p | r | x) | r
  · cases p <;> decide
  · cases r <;> decide
  · cases x <;> decide
  · cases r <;> decide

theorem measures_nodup : measures.Nodup := by decide

theorem names_nodup : (measures.map measureName).Nodup := by decide +kernel

theorem names_at : ∀ e ∈ measures, ∀ e' ∈ measures, (¬ measureName e ++ [' ', 'a', 't', ' '] <+: measureName e') ∧
    (measureName e ++ [' ', 'a', 't', ' '] <+: measureName e' ++ [' ', 'a', 't', ' '] → e = e') := by decide +kernel

theorem names_extra : ∀ e ∈ measures, ∀ w ∈ ["Effective Number of Assets".toList, "Assets Number".toList, "Portfolios Number".toList, "Avg nb of Assets per Portfolio".toList],
    measureName e ≠ w ∧ ¬ measureName e ++ [' ', 'a', 't', ' '] <+: w := by decide +kernel

/-- Two measures have different rows, whatever the confidence levels. -/
theorem key_injective (p : Ptf) {e e' : Measure} (h : key p e = key p e') : e = e' := by
  have he := measures_complete e
  have he' := measures_complete e'
  unfold key at h
  cases h1 : levelName e with
  | none =>
    cases h2 : levelName e' with
    | none =>
      rw [h1, h2] at h
      exact List.inj_on_of_nodup_map names_nodup he he' h
    | some b =>
      rw [h1, h2] at h
      exact absurd ⟨_, h.symm⟩ (names_at e' he' e he).1
  | some a =>
    cases h2 : levelName e' with
    | none =>
      rw [h1, h2] at h
      exact absurd ⟨_, h⟩ (names_at e he e' he').1
    | some b =>
      rw [h1, h2] at h
      simp only at h
      have p1 : measureName e ++ [' ', 'a', 't', ' '] <+: measureName e' ++ [' ', 'a', 't', ' '] ++ (pct (p.beta b)).whole := ⟨_, h⟩
      have p2 : measureName e' ++ [' ', 'a', 't', ' '] <+: measureName e' ++ [' ', 'a', 't', ' '] ++ (pct (p.beta b)).whole := ⟨_, rfl⟩
      rcases List.prefix_or_prefix_of_prefix p1 p2 with hp | hp
      · exact (names_at e he e' he').2 hp
      · exact ((names_at e' he' e he).2 hp).symm

theorem key_ne_extra (p : Ptf) (e : Measure) (w : Word)
    (hw : w ∈ ["Effective Number of Assets".toList, "Assets Number".toList, "Portfolios Number".toList, "Avg nb of Assets per Portfolio".toList]) : key p e ≠ w := by
  have he := names_extra e (measures_complete e) w hw
  unfold key
  cases h1 : levelName e with
  | none => exact he.1
  | some a => exact fun h => he.2 ⟨_, h⟩

/-- The value of a measure in the summary. -/
noncomputable def cellOf (p : Ptf) (formatted : Bool) (e : Measure) : Except Err Cell :=
  if formatted then (formatMeasure (p.measure (measureValue e)) (asPercent e)).map .shown else .ok (.raw (p.measure (measureValue e)))

theorem summaryLoop_eq (p : Ptf) (formatted : Bool) (l : List Measure) (acc : List (Word × Cell)) (hl : l.Nodup)
    (ha : ∀ e ∈ l, key p e ∉ acc.map Prod.fst) (cells : Measure → Cell) (hc : ∀ e ∈ l, cellOf p formatted e = .ok (cells e)) :
    summaryLoop p formatted l acc = .ok (acc ++ l.map fun e => (key p e, cells e)) := by
  induction l generalizing acc with
  | nil => simp [summaryLoop]
  | cons e l ih =>
    have hn := List.nodup_cons.1 hl
    have hk := ha e (by simp)
    have hcell := hc e (by simp)
    have step : summaryLoop p formatted (e :: l) acc = summaryLoop p formatted l (assign acc (key p e) (cells e)) := by
      cases formatted with
      | true =>
        simp only [cellOf, if_true] at hcell
        simp only [summaryLoop, if_true]
        cases hf : formatMeasure (p.measure (measureValue e)) (asPercent e) with
        | error x => rw [hf] at hcell; cases hcell
        | ok s =>
          rw [hf] at hcell
          rw [← Except.ok.inj hcell]
      | false =>
        simp only [cellOf, Bool.false_eq_true, if_false] at hcell
        simp only [summaryLoop, Bool.false_eq_true, if_false]
        rw [← Except.ok.inj hcell]
    have hassign : assign acc (key p e) (cells e) = acc ++ [(key p e, cells e)] := if_neg hk
    rw [step, hassign, ih _ hn.2 _ fun e' he' => hc e' (by simp [he'])]
    · simp
    · intro e' he' hm
      rw [List.map_append, List.mem_append] at hm
      rcases hm with hm | hm
      · exact ha e' (by simp [he']) hm
      · simp only [List.map_cons, List.map_nil, List.mem_singleton] at hm
        exact hn.1 (key_injective p hm ▸ he')

theorem summaryLoop_error (p : Ptf) (l : List Measure) (acc : List (Word × Cell)) (h : ∃ e ∈ l, ∃ s, p.measure (measureValue e) = .inf s) :
    ∃ err, summaryLoop p true l acc = .error err := by
  induction l generalizing acc with
  | nil => obtain ⟨e, he, -⟩ := h; cases he
  | cons e l ih =>
    simp only [summaryLoop, if_true]
    cases hf : formatMeasure (p.measure (measureValue e)) (asPercent e) with
    | error x => exact ⟨x, rfl⟩
    | ok s =>
      refine ih _ ?_
      obtain ⟨e', he', s', hs⟩ := h
      rcases List.mem_cons.1 he' with rfl | hm
      · obtain ⟨x, hx⟩ := (C103_infinite_raises (p.measure (measureValue e')) (asPercent e')).2 ⟨s', hs⟩
        rw [hf] at hx
        cases hx
      · exact ⟨e', hm, s', hs⟩

theorem formatMeasure_shown (v : Num) (percent : Bool) (h : ∀ s, v ≠ .inf s) : ∃ s, formatMeasure v percent = .ok s := by
  cases hf : formatMeasure v percent with
  | ok s => exact ⟨s, rfl⟩
  | error e =>
    obtain ⟨s, hs⟩ := (C103_infinite_raises v percent).1 ⟨e, hf⟩
    exact absurd hs (h s)

theorem summary_raw (p : Ptf) : summary p false = .ok (measures.map fun e => (key p e, .raw (p.measure (measureValue e)))) := by
  unfold summary
  rw [summaryLoop_eq p false measures [] measures_nodup (by simp) (fun e => .raw (p.measure (measureValue e))) (by simp [cellOf])]
  simp

/-- **C104.** The summary without formatting has one row for each of the 46 measures, whatever the confidence levels: no measure overwrites another, and each row holds the attribute of its measure. -/
theorem C104_rows (p : Ptf) (d : List (Word × Cell)) (h : summary p false = .ok d) :
    (d.map Prod.fst).Nodup ∧ d.length = 46 ∧ ∀ e : Measure, (key p e, Cell.raw (p.measure (measureValue e))) ∈ d := by
  rw [summary_raw] at h
  cases h
  refine ⟨?_, ?_, fun e => List.mem_map.2 ⟨e, measures_complete e, rfl⟩⟩
  · rw [List.map_map]
    exact measures_nodup.map fun _ _ he => key_injective p he
  · rw [List.length_map]
    rfl

/-- **C104.** The formatted summary has the same rows, each with the text of its measure. -/
theorem C104_formatted (p : Ptf) (d : List (Word × Cell)) (h : summary p true = .ok d) :
    (d.map Prod.fst).Nodup ∧ d.length = 46 ∧ ∀ e : Measure, ∃ s, formatMeasure (p.measure (measureValue e)) (asPercent e) = .ok s ∧ (key p e, Cell.shown s) ∈ d := by
  have hfin : ∀ e : Measure, ∀ s, p.measure (measureValue e) ≠ .inf s := by
    intro e s hs
    obtain ⟨err, he⟩ := summaryLoop_error p measures [] ⟨e, measures_complete e, s, hs⟩
    unfold summary at h
    rw [he] at h
    cases h
  choose f hf using fun e : Measure => formatMeasure_shown (p.measure (measureValue e)) (asPercent e) (hfin e)
  unfold summary at h
  rw [summaryLoop_eq p true measures [] measures_nodup (by simp) (fun e => .shown (f e)) fun e _ => by
    simp only [cellOf, if_true, hf e]; rfl] at h
  cases h
  rw [List.nil_append]
  refine ⟨?_, ?_, fun e => ⟨f e, hf e, List.mem_map.2 ⟨e, measures_complete e, rfl⟩⟩⟩
  · rw [List.map_map]
    exact measures_nodup.map fun _ _ he => key_injective p he
  · rw [List.length_map]
    rfl

theorem assign_lookup (d : List (Word × Cell)) (k : Word) (v : Cell) (hk : k ∉ d.map Prod.fst) : assign d k v = d ++ [(k, v)] := if_neg hk

/-- **C104.** The rows that `Portfolio.summary` and `MultiPeriodPortfolio.summary` add are added to the others and overwrite none of them. -/
theorem C104_added_rows (p : Ptf) (formatted : Bool) (a b : Num) (d : List (Word × Cell)) (h : summary p formatted = .ok d) :
    summaryOf (portfolioRows a b) p formatted = .ok (d ++ [("Effective Number of Assets".toList, .raw a), ("Assets Number".toList, .raw b)]) ∧
    summaryOf (multiRows a b) p formatted = .ok (d ++ [("Portfolios Number".toList, .raw a), ("Avg nb of Assets per Portfolio".toList, .raw b)]) := by
  have hk : ∀ w ∈ ["Effective Number of Assets".toList, "Assets Number".toList, "Portfolios Number".toList, "Avg nb of Assets per Portfolio".toList], w ∉ d.map Prod.fst := by
    intro w hw hm
    have hd : d.map Prod.fst = measures.map (key p) := by
      cases formatted with
      | false =>
        rw [summary_raw] at h
        cases h
        rw [List.map_map]
        rfl
      | true =>
        have hfin : ∀ e : Measure, ∀ s, p.measure (measureValue e) ≠ .inf s := by
          intro e s hs
          obtain ⟨err, he⟩ := summaryLoop_error p measures [] ⟨e, measures_complete e, s, hs⟩
          unfold summary at h
          rw [he] at h
          cases h
        choose f hf using fun e : Measure => formatMeasure_shown (p.measure (measureValue e)) (asPercent e) (hfin e)
        unfold summary at h
        rw [summaryLoop_eq p true measures [] measures_nodup (by simp) (fun e => .shown (f e)) fun e _ => by
          simp only [cellOf, if_true, hf e]; rfl] at h
        cases h
        rw [List.nil_append, List.map_map]
        rfl
    rw [hd] at hm
    obtain ⟨e, -, he⟩ := List.mem_map.1 hm
    exact key_ne_extra p e w hw he
  have two : ∀ (k k' : Word) (x y : Num), k ∉ d.map Prod.fst → k' ∉ d.map Prod.fst → k' ≠ k →
      summaryOf [(k, x), (k', y)] p formatted = .ok (d ++ [(k, .raw x), (k', .raw y)]) := by
    intro k k' x y h1 h2 h3
    unfold summaryOf
    rw [h]
    simp only [List.foldl_cons, List.foldl_nil]
    rw [assign_lookup _ _ _ h1, assign_lookup _ _ _ (by simp [h2, h3] at *)]
    simp
  exact ⟨two _ _ _ _ (hk _ (by simp)) (hk _ (by simp)) (by decide), two _ _ _ _ (hk _ (by simp)) (hk _ (by simp)) (by decide)⟩

/-- **C104** (negated for infinite measures). The formatted summary raises an exception iff one of the measures is infinite, as a ratio is when its risk is zero; the unformatted one never does. -/
theorem C104_infinite_raises (p : Ptf) :
    ((∃ err, summary p true = .error err) ↔ ∃ e s, p.measure (measureValue e) = .inf s) ∧ ∃ d, summary p false = .ok d := by
  refine ⟨⟨?_, ?_⟩, ⟨_, summary_raw p⟩⟩
  · rintro ⟨err, herr⟩
    by_contra hno
    push Not at hno
    choose f hf using fun e : Measure => formatMeasure_shown (p.measure (measureValue e)) (asPercent e) (hno e)
    unfold summary at herr
    rw [summaryLoop_eq p true measures [] measures_nodup (by simp) (fun e => .shown (f e)) fun e _ => by
      simp only [cellOf, if_true, hf e]; rfl] at herr
    cases herr
  · rintro ⟨e, s, hs⟩
    exact summaryLoop_error p measures [] ⟨e, measures_complete e, s, hs⟩

/-- **C104.** The percentages: everything but the ratios, the entropic risk measure and the ulcer index. -/
theorem C104_percent (e : Measure) :
    asPercent e = false ↔ (∃ r, e = .ratio r) ∨ e = .base (.extra .entropicRiskMeasure) ∨ e = .base (.risk .ulcerIndex) := by
  rcases e with (p | r | x) | r
  · cases p <;> simp [asPercent, Measure.isRatio]
  · cases r <;> simp [asPercent, Measure.isRatio]
  · cases x <;> simp [asPercent, Measure.isRatio]
  · simp [asPercent, Measure.isRatio]

/-- The measures that depend on a confidence level and the attribute of the level, from the documentation (`portfolio/_base.py` L126-160). -/
def documentedLevel : Measure → Option String
  | .base (.extra .valueAtRisk) | .ratio .valueAtRisk => some "value_at_risk"
  | .base (.risk .cvar) | .ratio .cvar => some "cvar"
  | .base (.extra .entropicRiskMeasure) | .ratio .entropicRiskMeasure => some "entropic_risk_measure"
  | .base (.risk .evar) | .ratio .evar => some "evar"
  | .base (.extra .drawdownAtRisk) | .ratio .drawdownAtRisk => some "drawdown_at_risk"
  | .base (.risk .cdar) | .ratio .cdar => some "cdar"
  | .base (.risk .edar) | .ratio .edar => some "edar"
  | _ => none

/-- **C104.** The row of a measure that depends on a confidence level names this level, rounded to whole percents; the rows of the other measures are their names. -/
theorem C104_levels (p : Ptf) (e : Measure) :
    (documentedLevel e = none → key p e = measureName e) ∧
    ∀ b, documentedLevel e = some b → ∃ t : Text, key p e = measureName e ++ " at ".toList ++ t.whole ∧ t.decimals = 0 ∧ t.percent = true ∧ |t.value - p.beta b| ≤ 1 / 200 := by
  have hl : levelName e = documentedLevel e := by
    rcases e with (p | r | x) | r
    · cases p <;> decide
    · cases r <;> decide
    · cases x <;> decide
    · cases r <;> decide
  constructor
  · intro h
    unfold key
    rw [hl, h]
  · intro b h
    refine ⟨pct (p.beta b), ?_, rfl, rfl, ?_⟩
    · unfold key
      rw [hl, h]
      rfl
    · have e := pyFixed_value (p.beta b) true 0
      simp only [if_true] at e
      have hn := grid_near (p.beta b * 100) 0
      unfold pct
      rw [e]
      unfold unit
      rw [abs_le] at hn ⊢
      norm_num at hn ⊢
      constructor <;> linarith [hn.1, hn.2]

/-- **C104** (negated for levels between whole percents). A CVaR at 99.9% has the row "CVaR at 100%", and the CVaR at 97.6% and at 98% have the same row. -/
theorem C104_level_false : (∀ p : Ptf, p.beta "cvar" = 999 / 1000 → key p (.base (.risk .cvar)) = "CVaR at 100%".toList) ∧
    ∀ p q : Ptf, p.beta "cvar" = 976 / 1000 → q.beta "cvar" = 98 / 100 → key p (.base (.risk .cvar)) = key q (.base (.risk .cvar)) := by
  have hr : ∀ (b : ℝ) (m : ℤ), |b * 100 - m| < 1 / 2 → 0 ≤ b → roundEven (|b * 100| * 10 ^ 0) = m := by
    intro b m hm hb
    rw [abs_of_nonneg (by linarith), pow_zero, mul_one]
    have hn := roundEven_near (b * 100)
    have h2 : |((roundEven (b * 100) - m : ℤ) : ℝ)| < 1 := by
      push_cast
      calc |(roundEven (b * 100) : ℝ) - m| = |((roundEven (b * 100) : ℝ) - b * 100) + (b * 100 - m)| := by ring_nf
        _ ≤ _ := abs_add_le _ _
        _ < 1 := by linarith
    have h3 : |roundEven (b * 100) - m| < 1 := by exact_mod_cast h2
    rw [Int.abs_lt_one_iff] at h3
    omega
  have hk : ∀ (p : Ptf) (m : ℕ), |p.beta "cvar" * 100 - m| < 1 / 2 → 0 ≤ p.beta "cvar" → key p (.base (.risk .cvar)) = "CVaR at ".toList ++ (Text.whole ⟨false, m, 0, true⟩) := by
    intro p m hm hb
    have e : pct (p.beta "cvar") = ⟨false, m, 0, true⟩ := by
      unfold pct pyFixed
      rw [hr _ (m : ℤ) (by exact_mod_cast hm) hb]
      simp only [Int.toNat_natCast]
      congr 1
      rw [decide_eq_false_iff_not]
      linarith
    have hl : levelName (.base (.risk .cvar)) = some "cvar" := by decide
    unfold key
    rw [hl]
    simp only [e]
    have hm : measureName (.base (.risk .cvar)) ++ [' ', 'a', 't', ' '] = "CVaR at ".toList := by decide +kernel
    rw [hm]
  constructor
  · intro p hp
    rw [hk p 100 (by rw [hp, abs_lt]; norm_num) (by rw [hp]; norm_num)]
    decide +kernel
  · intro p q hp hq
    rw [hk p 98 (by rw [hp, abs_lt]; norm_num) (by rw [hp]; norm_num), hk q 98 (by rw [hq, abs_lt]; norm_num) (by rw [hq]; norm_num)]

/-- A portfolio whose measures are all 1 except an undefined skew has a formatted summary. -/
example : ∃ d, summary ⟨fun _ => 95 / 100, fun a => if a = "skew" then .nan else .fin 1⟩ true = .ok d := by
  cases h : summary ⟨fun _ => 95 / 100, fun a => if a = "skew" then .nan else .fin 1⟩ true with
  | ok d => exact ⟨d, rfl⟩
  | error e =>
    obtain ⟨m, s, hs⟩ := (C104_infinite_raises _).1.1 ⟨e, h⟩
    simp only at hs
    split at hs <;> cases hs

end Skfolio.Display
