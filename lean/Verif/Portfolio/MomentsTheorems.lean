import Verif.Portfolio.MomentsModel
import Verif.Portfolio.ArithTheorems
import Mathlib.Algebra.Order.BigOperators.Ring.Finset
import Mathlib.Algebra.BigOperators.Field
import Mathlib.Tactic.FinCases
import Mathlib.Data.Fin.VecNotation

/-! C107: moments of a portfolio from the moments of its assets. -/
set_option autoImplicit false

namespace Skfolio.Portfolio.FromAssets

open Skfolio.Portfolio.Arith Skfolio.Measures Skfolio.Moments

variable {P : Type} {n : Nat}

/-! ### Specification -/

/-- The portfolio `p` could be built, on the returns `rows` of `n` assets. -/
structure On (p : Ptf ℝ P) (rows : List (Fin n → ℝ)) : Prop where
  built : Built p
  assets : p.X.nAssets = n
  data : p.X.Holds (rows.map List.ofFn)

/-- The returns of one asset. -/
def assetReturns (rows : List (Fin n → ℝ)) (i : Fin n) : List ℝ := rows.map (· i)

/-- The weight of one asset. -/
def weight (p : Ptf ℝ P) (i : Fin n) : ℝ := p.weights.getD i 0

/-- The diversification ratio: weighted average of the volatilities of the assets over the volatility of the portfolio, both in the sense of
`standard_deviation`. -/
noncomputable def diversificationRatio (p : Ptf ℝ P) (rows : List (Fin n → ℝ)) : ℝ :=
  (∑ i, weight p i * standardDeviation (assetReturns rows i)) / standardDeviation p.returns

/-! ### Lemmas -/

theorem dot_ofFn (w : List ℝ) (hw : w.length = n) (x : Fin n → ℝ) : dot w (List.ofFn x) = ∑ i : Fin n, w.getD i 0 * x i := by
  unfold dot
  have : List.zipWith (· * ·) w (List.ofFn x) = List.ofFn fun i : Fin n => w.getD i 0 * x i := by
    apply List.ext_getElem
    · simp [hw]
    · intro i h1 h2
      simp only [List.length_zipWith, List.length_ofFn, lt_min_iff] at h1
      simp [h1.1]
  rw [this, List.sum_ofFn]

theorem On.length (p : Ptf ℝ P) (rows : List (Fin n → ℝ)) (h : On p rows) : p.weights.length = n := by
  obtain ⟨a, ha⟩ := h.built
  obtain ⟨hs, xs, hx, rfl⟩ := (construct_iff a p).1 ha
  exact hs.weights.trans h.assets

theorem On.returns (p : Ptf ℝ P) (rows : List (Fin n → ℝ)) (h : On p rows) :
    p.returns = rows.map fun x => ∑ i, weight p i * x i - p.totalCost - p.totalFee := by
  have hl := h.length
  obtain ⟨a, ha⟩ := h.built
  obtain ⟨hs, xs, hx, hp⟩ := (construct_iff a p).1 ha
  have hX : p.X = a.X := by rw [hp]
  have hd := h.data
  rw [hX] at hd
  have hxs : xs = rows.map List.ofFn := by
    have hinj : Function.Injective (List.map (List.map (some (α := ℝ)))) :=
      List.map_injective_iff.mpr (List.map_injective_iff.mpr (Option.some_injective ℝ))
    exact hinj (hx.symm.trans hd)
  have hr : p.returns = xs.map (netReturn a.weights a.prevs a.costRates a.feeRates) := by rw [hp]
  have hw : p.weights = a.weights := by rw [hp]
  have hc : p.totalCost = dot a.costRates (List.zipWith (fun a b => |a - b|) a.prevs a.weights) := by rw [hp]
  have hf : p.totalFee = dot a.feeRates a.weights := by rw [hp]
  rw [hr, hxs, List.map_map, hc, hf]
  apply List.map_congr_left
  intro x _
  simp only [Function.comp, netReturn, weight]
  rw [dot_ofFn a.weights (hw ▸ hl) x, hw]

theorem On.column (p : Ptf ℝ P) (rows : List (Fin n → ℝ)) (h : On p rows) (i : Fin n) : column p.X i = assetReturns rows i := by
  unfold FromAssets.column assetReturns
  have hd : p.X.rows = (rows.map List.ofFn).map (List.map some) := h.data
  rw [hd, List.map_map, List.map_map]
  apply List.map_congr_left
  intro x _
  simp [List.getD_eq_getElem?_getD]

theorem sum_list (rows : List (Fin n → ℝ)) (f : (Fin n → ℝ) → Fin n → ℝ) :
    (rows.map fun x => ∑ i, f x i).sum = ∑ i, (rows.map fun x => f x i).sum := by
  induction rows with
  | nil => simp
  | cons x rows ih => simp only [List.map_cons, List.sum_cons, ih, Finset.sum_add_distrib]

theorem mean_portfolio (rows : List (Fin n → ℝ)) (hr : rows ≠ []) (w : Fin n → ℝ) (k : ℝ) :
    mean (rows.map fun x => ∑ i, w i * x i - k) = ∑ i, w i * colMean rows i - k := by
  have hn : (rows.length : ℝ) ≠ 0 := by exact_mod_cast (List.length_pos_iff.2 hr).ne'
  have h : (rows.map fun x => ∑ i, w i * x i - k) = (rows.map fun x => ∑ i, w i * x i).map fun y => y + -k := by
    rw [List.map_map]
    rfl
  rw [h, mean_add _ (by simpa using hr)]
  unfold mean colMean
  rw [sum_list, List.length_map, ← sub_eq_add_neg, Finset.sum_div]
  congr 1
  apply Finset.sum_congr rfl
  intro i _
  rw [List.sum_map_mul_left, mul_div_assoc]

theorem variance_portfolio (rows : List (Fin n → ℝ)) (hr : rows ≠ []) (w : Fin n → ℝ) (k : ℝ) :
    variance (rows.map fun x => ∑ i, w i * x i - k) =
      ∑ i, ∑ j, w i * ((rows.map fun r => (r i - colMean rows i) * (r j - colMean rows j)).sum / ((rows.length : ℝ) - 1)) * w j := by
  unfold variance
  rw [mean_portfolio rows hr, List.map_map, List.length_map]
  have h : ((fun x => (x - (∑ i, w i * colMean rows i - k)) ^ 2) ∘ fun x : Fin n → ℝ => ∑ i, w i * x i - k) =
      fun r => ∑ i, ∑ j, w i * w j * ((r i - colMean rows i) * (r j - colMean rows j)) := by
    funext r
    simp only [Function.comp]
    have : ∑ i, w i * r i - k - (∑ i, w i * colMean rows i - k) = ∑ i, w i * (r i - colMean rows i) := by
      simp only [mul_sub, Finset.sum_sub_distrib]
      ring
    rw [this, pow_two, Finset.sum_mul_sum]
    apply Finset.sum_congr rfl
    intro i _
    apply Finset.sum_congr rfl
    intro j _
    ring
  rw [h, sum_list, Finset.sum_div]
  apply Finset.sum_congr rfl
  intro i _
  rw [sum_list, Finset.sum_div]
  apply Finset.sum_congr rfl
  intro j _
  rw [List.sum_map_mul_left]
  ring

theorem variance_asset (rows : List (Fin n → ℝ)) (i : Fin n) : variance (assetReturns rows i) =
    (rows.map fun r => (r i - colMean rows i) * (r i - colMean rows i)).sum / ((rows.length : ℝ) - 1) := by
  unfold variance assetReturns
  rw [List.map_map, List.length_map]
  have : mean (rows.map (· i)) = colMean rows i := by
    unfold mean colMean
    rw [List.length_map]
  rw [this]
  congr 3
  funext r
  simp only [Function.comp]
  ring

theorem sum_mul_le (rows : List (Fin n → ℝ)) (f g : (Fin n → ℝ) → ℝ) :
    (rows.map fun r => f r * g r).sum ^ 2 ≤ (rows.map fun r => f r * f r).sum * (rows.map fun r => g r * g r).sum := by
  have h : ∀ u : (Fin n → ℝ) → ℝ, (rows.map u).sum = ∑ t : Fin rows.length, u rows[t] := by
    intro u
    rw [← List.sum_ofFn]
    congr 1
    apply List.ext_getElem <;> simp
  rw [h, h, h]
  have := Finset.sum_mul_sq_le_sq_mul_sq Finset.univ (fun t : Fin rows.length => f rows[t]) (fun t => g rows[t])
  simpa only [pow_two] using this

/-- The covariance of two assets is at most the product of their standard deviations. -/
theorem covariance_le (rows : List (Fin n → ℝ)) (hT : 2 ≤ rows.length) (i j : Fin n) :
    (rows.map fun r => (r i - colMean rows i) * (r j - colMean rows j)).sum / ((rows.length : ℝ) - 1) ≤
      standardDeviation (assetReturns rows i) * standardDeviation (assetReturns rows j) := by
  have hpos : (0 : ℝ) < (rows.length : ℝ) - 1 := by
    have : (2 : ℝ) ≤ rows.length := by exact_mod_cast hT
    linarith
  unfold standardDeviation
  rw [← Real.sqrt_mul (by rw [variance_asset]; exact div_nonneg (List.sum_nonneg (by simp only [List.mem_map]; rintro _ ⟨r, _, rfl⟩; exact mul_self_nonneg _)) hpos.le)]
  apply Real.le_sqrt_of_sq_le
  rw [variance_asset, variance_asset, div_pow, div_mul_div_comm, ← pow_two]
  exact div_le_div_of_nonneg_right (sum_mul_le rows (fun r => r i - colMean rows i) (fun r => r j - colMean rows j)) (sq_nonneg _)

/-- `np.std` is smaller than `standard_deviation`. -/
theorem npStd_eq (xs : List ℝ) (hT : 2 ≤ xs.length) : npStd xs = Real.sqrt (((xs.length : ℝ) - 1) / xs.length) * standardDeviation xs := by
  have hpos : (0 : ℝ) < (xs.length : ℝ) - 1 := by
    have : (2 : ℝ) ≤ xs.length := by exact_mod_cast hT
    linarith
  unfold npStd standardDeviation
  rw [← Real.sqrt_mul (div_nonneg hpos.le (by linarith))]
  congr 1
  have : (xs.length : ℝ) ≠ 0 := by linarith
  rw [variance, mean, List.length_map]
  generalize (xs.map fun x => (x - mean xs) ^ 2).sum = c
  field_simp

/-! ### The claims -/

/-- **C107.** The mean return of a portfolio, costs and fees included, is `expected_returns_from_assets` of the mean returns of the assets. -/
theorem C107_mean (p : Ptf ℝ P) (rows : List (Fin n → ℝ)) (h : On p rows) (hr : rows ≠ []) :
    p.expectedReturns (List.ofFn (colMean rows)) = mean p.returns := by
  rw [h.returns]
  have hw := dot_ofFn p.weights h.length (colMean rows)
  unfold dot at hw
  unfold Ptf.expectedReturns
  rw [hw]
  have := mean_portfolio rows hr (weight p) (p.totalCost + p.totalFee)
  simp only [sub_sub] at *
  rw [this]
  rfl

/-- **C107.** The variance of a portfolio, whatever its costs and fees, is `variance_from_assets` of the sample covariance of the assets (`np.cov` with
its `ddof` of 1, the default of `EmpiricalCovariance`), and for another `ddof` it is off by the factor of the two denominators. -/
theorem C107_variance (p : Ptf ℝ P) (rows : List (Fin n → ℝ)) (h : On p rows) (ddof : Int) (cov : Matrix (Fin n) (Fin n) ℝ) (hT : 2 ≤ rows.length)
    (hcov : npCov ddof rows = some cov) :
    varianceFromAssets p cov = some (((rows.length : ℝ) - 1) / ((rows.length : ℝ) - ddof) * variance p.returns) := by
  have hr : rows ≠ [] := by rintro rfl; simp at hT
  have hpos : (0 : ℝ) < (rows.length : ℝ) - 1 := by
    have : (2 : ℝ) ≤ rows.length := by exact_mod_cast hT
    linarith
  unfold varianceFromAssets
  rw [if_pos h.length, h.returns]
  have hv := variance_portfolio rows hr (weight p) (p.totalCost + p.totalFee)
  simp only [← sub_sub] at hv
  rw [hv]
  unfold npCov at hcov
  split at hcov
  · simp at hcov
  · rename_i hd
    have hcov := Option.some.inj hcov
    subst hcov
    have hd' : (0 : ℝ) < (rows.length : ℝ) - ddof := by
      have h1 : (0 : ℤ) < (rows.length : ℤ) - ddof := by omega
      exact_mod_cast h1
    rw [Option.some.injEq, Finset.mul_sum]
    apply Finset.sum_congr rfl
    intro i _
    rw [Finset.mul_sum]
    apply Finset.sum_congr rfl
    intro j _
    unfold weight
    field_simp

/-- **C107.** The variance with the default `ddof`. -/
theorem C107_variance_default (p : Ptf ℝ P) (rows : List (Fin n → ℝ)) (h : On p rows) (cov : Matrix (Fin n) (Fin n) ℝ) (hT : 2 ≤ rows.length)
    (hcov : npCov 1 rows = some cov) : varianceFromAssets p cov = some (variance p.returns) := by
  have hpos : (0 : ℝ) < (rows.length : ℝ) - 1 := by
    have : (2 : ℝ) ≤ rows.length := by exact_mod_cast hT
    linarith
  rw [C107_variance p rows h 1 cov hT hcov]
  push_cast
  rw [div_self hpos.ne', one_mul]

/-- **C107.** A covariance of another number of assets is refused. -/
theorem C107_variance_shape (p : Ptf ℝ P) (rows : List (Fin n → ℝ)) (h : On p rows) {m : Nat} (hm : m ≠ n) (cov : Matrix (Fin m) (Fin m) ℝ) :
    varianceFromAssets p cov = none := by
  unfold varianceFromAssets
  rw [if_neg]
  rw [h.length]
  exact fun e => hm e.symm

/-- **C107.** The standard deviation of a long-only portfolio is at most the weighted average of the standard deviations of its assets: the
diversification ratio is at least 1. -/
theorem C107_diversification_ratio (p : Ptf ℝ P) (rows : List (Fin n → ℝ)) (h : On p rows) (hT : 2 ≤ rows.length) (hw : ∀ i : Fin n, 0 ≤ weight p i)
    (hs : standardDeviation p.returns ≠ 0) : 1 ≤ diversificationRatio p rows := by
  have hr : rows ≠ [] := by rintro rfl; simp at hT
  have hs' : 0 < standardDeviation p.returns := lt_of_le_of_ne (Real.sqrt_nonneg _) (Ne.symm hs)
  unfold diversificationRatio
  rw [le_div_iff₀ hs', one_mul]
  unfold standardDeviation
  apply Real.sqrt_le_iff.2
  refine ⟨Finset.sum_nonneg fun i _ => mul_nonneg (hw i) (Real.sqrt_nonneg _), ?_⟩
  rw [h.returns]
  have hv := variance_portfolio rows hr (weight p) (p.totalCost + p.totalFee)
  simp only [← sub_sub] at hv
  rw [hv, pow_two, Finset.sum_mul_sum]
  apply Finset.sum_le_sum
  intro i _
  apply Finset.sum_le_sum
  intro j _
  have hc := covariance_le rows hT i j
  have hij := mul_nonneg (hw i) (hw j)
  unfold standardDeviation at hc
  have := mul_le_mul_of_nonneg_left hc hij
  linarith

/-- **C107.** `diversification` is not that ratio: it mixes the population volatility of the assets with the sample volatility of the portfolio, and
gives the ratio times `sqrt ((T - 1) / T)`. -/
theorem C107_diversification (p : Ptf ℝ P) (rows : List (Fin n → ℝ)) (h : On p rows) (hT : 2 ≤ rows.length) (hs : standardDeviation p.returns ≠ 0) :
    diversification p = some (Real.sqrt (((rows.length : ℝ) - 1) / rows.length) * diversificationRatio p rows) := by
  unfold diversification diversificationRatio
  rw [if_neg hs, Option.some.injEq, h.assets, ← Fin.sum_univ_eq_sum_range (fun i => p.weights.getD i 0 * npStd (column p.X i)) n, ← mul_div_assoc,
    Finset.mul_sum]
  congr 1
  apply Finset.sum_congr rfl
  intro i _
  have hl : (assetReturns rows i).length = rows.length := by simp [assetReturns]
  rw [h.column, npStd_eq _ (by rw [hl]; exact hT), hl]
  unfold weight
  ring

/-- **C107, finding.** Hence the diversification of a portfolio of a single asset is below 1, for every number of observations. -/
theorem C107_single_asset_below_one (p : Ptf ℝ P) (rows : List (Fin n → ℝ)) (h : On p rows) (hT : 2 ≤ rows.length) (i : Fin n) (c : ℝ) (hc : 0 < c)
    (hi : weight p i = c) (ho : ∀ j : Fin n, j ≠ i → weight p j = 0) (hs : standardDeviation p.returns ≠ 0) :
    ∃ d, diversification p = some d ∧ d = Real.sqrt (((rows.length : ℝ) - 1) / rows.length) ∧ d < 1 := by
  have hr : rows ≠ [] := by rintro rfl; simp at hT
  have hpos : (2 : ℝ) ≤ rows.length := by exact_mod_cast hT
  refine ⟨_, C107_diversification p rows h hT hs, ?_, ?_⟩
  all_goals
    have hone : diversificationRatio p rows = 1 := by
      have hret : standardDeviation p.returns = c * standardDeviation (assetReturns rows i) := by
        have hl : p.returns = withCash (-(p.totalCost + p.totalFee)) (levered c (assetReturns rows i)) := by
          rw [h.returns]
          unfold withCash levered assetReturns
          rw [List.map_map, List.map_map]
          apply List.map_congr_left
          intro x _
          simp only [Function.comp]
          rw [Finset.sum_eq_single i (fun j _ hj => by rw [ho j hj, zero_mul]) (fun hi => absurd (Finset.mem_univ i) hi), hi]
          ring
        rw [hl, C106_deviations.2.2.1 _ (by simpa [levered, assetReturns] using hr), C106_deviations.1 _ c hc.le, pow_one]
      unfold diversificationRatio
      rw [Finset.sum_eq_single i (fun j _ hj => by rw [ho j hj, zero_mul]) (fun hi => absurd (Finset.mem_univ i) hi), hi, ← hret, div_self hs]
    rw [hone, mul_one]
  rw [Real.sqrt_lt' one_pos, one_pow, div_lt_one (by linarith)]
  linarith

/-- **C107.** The information criterion lowers a positive Sharpe ratio and raises a negative one. -/
theorem C107_sric (p : Ptf ℝ P) (rows : List (Fin n → ℝ)) (h : On p rows) (hr : rows ≠ []) (hn : 0 < n) (sharpe : ℝ) (hs : sharpe ≠ 0) :
    ∃ c, sric p sharpe = some c ∧ (c < sharpe ↔ 0 < sharpe) ∧ (sharpe < c ↔ sharpe < 0) := by
  have hl : p.returns.length = rows.length := by rw [h.returns, List.length_map]
  have hT : (0 : ℝ) < rows.length := by exact_mod_cast List.length_pos_iff.2 hr
  have hn' : (0 : ℝ) < n := by exact_mod_cast hn
  unfold sric
  rw [if_neg (by rw [hl]; exact mul_ne_zero hT.ne' hs)]
  refine ⟨_, rfl, ?_⟩
  rw [hl, h.assets]
  rcases lt_or_gt_of_ne hs with hneg | hpos
  · have : (n : ℝ) / (rows.length * sharpe) < 0 := div_neg_of_pos_of_neg hn' (mul_neg_of_pos_of_neg hT hneg)
    constructor <;> constructor <;> intro _ <;> linarith
  · have : 0 < (n : ℝ) / (rows.length * sharpe) := div_pos hn' (mul_pos hT hpos)
    constructor <;> constructor <;> intro _ <;> linarith

/-- Two assets over three periods. -/
noncomputable def sampleRows : List (Fin 2 → ℝ) := [![1, 0], ![-1, 2], ![0, 1]]

/-- The arguments of a portfolio of these assets, with transaction costs. -/
noncomputable def sampleArgs (w : List ℝ) : Args ℝ Unit where
  X := { nAssets := 2, rows := (sampleRows.map List.ofFn).map (List.map some), rect := by simp [sampleRows] }
  weights := w
  previousWeights := none
  transactionCosts := some (.scalar (1 / 100))
  managementFees := none
  params := ()
  name := "p"
  tag := ""

/-- The hypotheses are met by a portfolio of both assets, by a portfolio of one asset, with transaction costs, and both have a variance. -/
example (w : List ℝ) (hw : w = [3 / 4, 1 / 4] ∨ w = [1, 0]) : ∃ p, construct (sampleArgs w) = .ok p ∧ On p sampleRows ∧ 2 ≤ sampleRows.length ∧
    (∀ i : Fin 2, 0 ≤ weight p i) ∧ standardDeviation p.returns ≠ 0 ∧ (w = [1, 0] → weight p (0 : Fin 2) = 1 ∧ weight p (1 : Fin 2) = 0) := by
  have hs : (sampleArgs w).Shaped := by
    refine ⟨?_, ?_, ?_, ?_⟩
    · rcases hw with rfl | rfl <;> rfl
    · intro v hv; simp [sampleArgs] at hv
    · intro v hv; simp [sampleArgs] at hv
    · intro v hv; simp [sampleArgs] at hv
  obtain ⟨p, hp⟩ : ∃ p, construct (sampleArgs w) = .ok p := ⟨_, (construct_iff _ _).2 ⟨hs, sampleRows.map List.ofFn, rfl, rfl⟩⟩
  have hpw : p.weights = w := by
    obtain ⟨-, xs, -, rfl⟩ := (construct_iff _ _).1 hp
    rfl
  have hpX : p.X = (sampleArgs w).X := by
    obtain ⟨-, xs, -, rfl⟩ := (construct_iff _ _).1 hp
    rfl
  have hon : On p sampleRows := ⟨⟨_, hp⟩, by rw [hpX]; rfl, by rw [hpX]; rfl⟩
  refine ⟨p, hp, hon, by simp [sampleRows], ?_, ?_, ?_⟩
  · intro i
    unfold weight
    rw [hpw]
    rcases hw with rfl | rfl <;> fin_cases i <;> norm_num
  · unfold standardDeviation
    rw [hon.returns]
    have hv := variance_portfolio sampleRows (by simp [sampleRows]) (weight p) (p.totalCost + p.totalFee)
    simp only [← sub_sub] at hv
    rw [hv]
    unfold weight
    rw [hpw]
    rcases hw with rfl | rfl <;> norm_num [sampleRows, colMean, Fin.sum_univ_two]
  · rintro rfl
    unfold weight
    rw [hpw]
    simp

end Skfolio.Portfolio.FromAssets
