import Verif.Moments.WindowTheorems
import Verif.Moments.GerberModel
import Verif.Moments.ShrunkModel
import Mathlib.Data.Fin.VecNotation
import Mathlib.Tactic.FinCases
import Mathlib.Tactic.NormNum

/-!
C124: moments of transformed returns. What the estimators say of combinations of the assets, of other units, of shifted returns, of a selection of the assets.
-/
set_option autoImplicit false

namespace Skfolio.Moments

open Matrix Finset

variable {n m : Nat}

/-- Specification: new assets whose returns are combinations `A` of those of the old ones, plus constants `s`. A portfolio, a selection of the assets in any order, a change of
unit and a shift are of this form. -/
def transformed (A : Matrix (Fin m) (Fin n) ℝ) (s : Fin m → ℝ) (r : Fin n → ℝ) : Fin m → ℝ := fun i => (∑ j, A i j * r j) + s i

/-- Specification: the covariance of the new assets. -/
def transformedCov (A : Matrix (Fin m) (Fin n) ℝ) (S : Fin n → Fin n → ℝ) : Fin m → Fin m → ℝ := fun i j => ∑ k, ∑ l, A i k * A j l * S k l

theorem lastRows_map {A B : Type} (g : A → B) (window : Option Int) (rows : List A) : lastRows window (rows.map g) = (lastRows window rows).map g := by
  cases window with
  | none => rfl
  | some w =>
    simp only [lastRows, List.length_map]
    split
    · rw [List.map_drop]
    · rw [List.map_drop]

/-- A weighted mean of transformed returns is the transformed weighted mean. -/
theorem mean_transformed (A : Matrix (Fin m) (Fin n) ℝ) (s : Fin m → ℝ) (T : Nat) (w : Nat → ℝ) (hw : ∑ t ∈ range T, w t ≠ 0) (x : Nat → Fin n → ℝ) (i : Fin m) :
    (∑ t ∈ range T, w t * transformed A s (x t) i) / (∑ t ∈ range T, w t) =
      transformed A s (fun j => (∑ t ∈ range T, w t * x t j) / ∑ t ∈ range T, w t) i := by
  unfold transformed
  rw [div_eq_iff hw, add_mul, sum_mul]
  simp only [mul_add, sum_add_distrib]
  congr 1
  · simp only [mul_sum]
    rw [sum_comm]
    refine sum_congr rfl fun j _ => ?_
    rw [← mul_sum, mul_assoc, div_mul_cancel₀ _ hw, mul_sum]
    exact sum_congr rfl fun t _ => by ring
  · rw [← sum_mul, mul_comm]

/-- Products of deviations from the mean. -/
theorem cov_transformed (A : Matrix (Fin m) (Fin n) ℝ) (s : Fin m → ℝ) (T : Nat) (w : Nat → ℝ) (x : Nat → Fin n → ℝ) (mu : Fin n → ℝ) (i j : Fin m) :
    (∑ t ∈ range T, w t * ((transformed A s (x t) i - transformed A s mu i) * (transformed A s (x t) j - transformed A s mu j))) =
      transformedCov A (fun k l => ∑ t ∈ range T, w t * ((x t k - mu k) * (x t l - mu l))) i j := by
  have e : ∀ t i, transformed A s (x t) i - transformed A s mu i = ∑ k, A i k * (x t k - mu k) := by
    intro t i
    unfold transformed
    rw [add_sub_add_right_eq_sub, ← sum_sub_distrib]
    exact sum_congr rfl fun k _ => by ring
  simp only [e, transformedCov]
  have e2 : ∀ t, w t * ((∑ k, A i k * (x t k - mu k)) * ∑ l, A j l * (x t l - mu l)) = ∑ k, ∑ l, A i k * A j l * (w t * ((x t k - mu k) * (x t l - mu l))) := by
    intro t
    rw [sum_mul_sum, mul_sum]
    refine sum_congr rfl fun k _ => ?_
    rw [mul_sum]
    exact sum_congr rfl fun l _ => by ring
  simp only [e2]
  rw [sum_comm]
  refine sum_congr rfl fun k _ => ?_
  rw [sum_comm]
  exact sum_congr rfl fun l _ => by rw [mul_sum]

theorem transformedCov_eq (A : Matrix (Fin m) (Fin n) ℝ) (S : Matrix (Fin n) (Fin n) ℝ) : transformedCov A S = A * S * Aᵀ := by
  funext i j
  have : ∀ l, (A * S) i l = ∑ k, A i k * S k l := fun l => Matrix.mul_apply
  rw [Matrix.mul_apply]
  simp only [this, transpose_apply, sum_mul, transformedCov]
  rw [sum_comm]
  exact sum_congr rfl fun l _ => sum_congr rfl fun k _ => by ring

theorem transformedCov_smul (A : Matrix (Fin m) (Fin n) ℝ) (S : Fin n → Fin n → ℝ) (c : ℝ) (i j : Fin m) :
    transformedCov A S i j * c = transformedCov A (fun k l => S k l * c) i j := by
  unfold transformedCov
  rw [sum_mul]
  refine sum_congr rfl fun k _ => ?_
  rw [sum_mul]
  exact sum_congr rfl fun l _ => by ring

theorem getD_map_rows (g : (Fin n → ℝ) → Fin m → ℝ) (rows : List (Fin n → ℝ)) (t : Nat) (h : t < rows.length) : (rows.map g).getD t 0 = g (rows.getD t 0) := by
  rw [List.getD_eq_getElem _ _ (by simpa using h), List.getD_eq_getElem _ _ h, List.getElem_map]

theorem colMean_transformed (A : Matrix (Fin m) (Fin n) ℝ) (s : Fin m → ℝ) (rows : List (Fin n → ℝ)) (h : rows ≠ []) :
    colMean (rows.map (transformed A s)) = transformed A s (colMean rows) := by
  funext i
  have hT : (rows.length : ℝ) ≠ 0 := by
    have := List.length_pos_iff.2 h
    positivity
  have hs : ∑ _t ∈ range rows.length, (1 : ℝ) = rows.length := by simp
  have := mean_transformed A s rows.length (fun _ => 1) (by rw [hs]; exact hT) (fun t => rows.getD t 0) i
  simp only [hs, one_mul] at this
  rw [colMean_eq, List.length_map]
  rw [show colMean rows = fun j => (∑ t ∈ range rows.length, rows.getD t 0 j) / rows.length from funext fun j => colMean_eq rows j, ← this]
  congr 1
  exact sum_congr rfl fun t ht => by rw [getD_map_rows _ _ _ (mem_range.1 ht)]

/-! ### Expected returns -/

/-- **C124.** `EmpiricalMu`, with any window: the expected returns of combinations of the assets are the combinations of their expected returns. -/
theorem C124_empirical_mu (A : Matrix (Fin m) (Fin n) ℝ) (s : Fin m → ℝ) (window : Option Int) (rows : List (Fin n → ℝ)) :
    empiricalMu window (rows.map (transformed A s)) = (empiricalMu window rows).map (transformed A s) := by
  unfold empiricalMu
  simp only [lastRows_map, List.map_eq_nil_iff]
  by_cases h : lastRows window rows = []
  · rw [if_pos h, if_pos h]; rfl
  · rw [if_neg h, if_neg h, colMean_transformed A s _ h]; rfl

theorem ewMean_transformed (A : Matrix (Fin m) (Fin n) ℝ) (s : Fin m → ℝ) (q : ℝ) (hq : 0 ≤ q) (rows : List (Fin n → ℝ)) (h : rows ≠ []) :
    ewMeanSpec q (rows.map (transformed A s)) = transformed A s (ewMeanSpec q rows) := by
  funext i
  have hp := decayed_one_pos q hq rows.length (List.length_pos_iff.2 h)
  have hw : (∑ t ∈ range rows.length, q ^ (rows.length - 1 - t)) ≠ 0 := by
    unfold decayed at hp
    simp only [mul_one] at hp
    exact hp.ne'
  have := mean_transformed A s rows.length (fun t => q ^ (rows.length - 1 - t)) hw (fun t => rows.getD t 0) i
  unfold ewMeanSpec
  rw [List.length_map]
  rw [decayed_congr q rows.length (fun t => (rows.map (transformed A s)).getD t 0 i) (fun t => transformed A s (rows.getD t 0) i) fun t ht => by rw [getD_map_rows _ _ _ ht]]
  unfold decayed
  simp only [mul_one]
  exact this

/-- **C124.** `EWMu`, with any window and any `alpha`, errors included. -/
theorem C124_ew_mu (A : Matrix (Fin m) (Fin n) ℝ) (s : Fin m → ℝ) (alpha : ℝ) (window : Option Int) (rows : List (Fin n → ℝ)) :
    ewMu alpha window (rows.map (transformed A s)) = (ewMu alpha window rows).map (transformed A s) := by
  unfold ewMu
  simp only [lastRows_map, List.map_eq_nil_iff]
  by_cases ha : 0 < alpha ∧ alpha ≤ 1
  · rw [if_neg (not_not.2 ha), if_neg (not_not.2 ha)]
    by_cases h : lastRows window rows = []
    · rw [if_pos h, if_pos h]; rfl
    · rw [if_neg h, if_neg h]
      simp only [Except.map]
      congr 1
      have e1 : ∀ i, (ewmMean alpha (((lastRows window rows).map (transformed A s)).map (· i))).getD 0 = ewMeanSpec (1 - alpha) ((lastRows window rows).map (transformed A s)) i := by
        intro i
        rw [ewmMean_spec alpha ha.2 _ (by simpa using h)]; rfl
      have e2 : ∀ i, (ewmMean alpha ((lastRows window rows).map (· i))).getD 0 = ewMeanSpec (1 - alpha) (lastRows window rows) i := by
        intro i
        rw [ewmMean_spec alpha ha.2 _ h]; rfl
      rw [funext e1, funext e2, ewMean_transformed A s (1 - alpha) (by linarith [ha.2]) _ h]
  · rw [if_pos ha, if_pos ha]; rfl

/-! ### Covariances -/

theorem npCov_transformed (A : Matrix (Fin m) (Fin n) ℝ) (s : Fin m → ℝ) (ddof : Int) (rows : List (Fin n → ℝ)) :
    npCov ddof (rows.map (transformed A s)) = (npCov ddof rows).map (transformedCov A) := by
  unfold npCov
  rw [List.length_map]
  by_cases h : (rows.length : Int) - ddof ≤ 0
  · rw [if_pos h, if_pos h]; rfl
  · rw [if_neg h, if_neg h]
    simp only [Option.map]
    congr 1
    funext i j
    by_cases hr : rows = []
    · subst hr
      simp [transformedCov]
    rw [div_eq_mul_inv, colMean_transformed A s rows hr]
    have := cov_transformed A s rows.length (fun _ => 1) (fun t => rows.getD t 0) (colMean rows) i j
    simp only [one_mul] at this
    rw [List.map_map, list_sum_range 0]
    simp only [Function.comp_def]
    rw [this, transformedCov_smul]
    congr 1
    funext k l
    rw [div_eq_mul_inv, list_sum_range 0]

theorem ewCov_transformed (A : Matrix (Fin m) (Fin n) ℝ) (s : Fin m → ℝ) (q : ℝ) (hq : 0 ≤ q) (rows : List (Fin n → ℝ)) (h : rows ≠ []) :
    ewCovSpec q (rows.map (transformed A s)) = transformedCov A (ewCovSpec q rows) := by
  funext i j
  unfold ewCovSpec
  rw [List.length_map, ewMean_transformed A s q hq rows h]
  rw [decayed_congr q rows.length (fun t => ((rows.map (transformed A s)).getD t 0 i - transformed A s (ewMeanSpec q rows) i) * ((rows.map (transformed A s)).getD t 0 j - transformed A s (ewMeanSpec q rows) j))
    (fun t => (transformed A s (rows.getD t 0) i - transformed A s (ewMeanSpec q rows) i) * (transformed A s (rows.getD t 0) j - transformed A s (ewMeanSpec q rows) j))
    fun t ht => by rw [getD_map_rows _ _ _ ht]]
  have := cov_transformed A s rows.length (fun t => q ^ (rows.length - 1 - t)) (fun t => rows.getD t 0) (ewMeanSpec q rows) i j
  rw [show decayed q rows.length (fun t => (transformed A s (rows.getD t 0) i - transformed A s (ewMeanSpec q rows) i) * (transformed A s (rows.getD t 0) j - transformed A s (ewMeanSpec q rows) j)) = _ from this]
  rw [div_eq_mul_inv, transformedCov_smul, transformedCov_smul]
  rfl

theorem covSpec_npCov (ddof : Int) (rows : List (Fin n → ℝ)) (h : ddof < rows.length) : npCov ddof rows = some (covSpec ddof rows) := by
  unfold npCov
  rw [if_neg (by omega)]
  congr 1
  funext i j
  unfold covSpec
  rw [list_sum_range 0, colMean_eq, colMean_eq]

theorem covSpec_transformed (A : Matrix (Fin m) (Fin n) ℝ) (s : Fin m → ℝ) (ddof : Int) (rows : List (Fin n → ℝ)) (h : ddof < rows.length) :
    covSpec ddof (rows.map (transformed A s)) = transformedCov A (covSpec ddof rows) := by
  have := npCov_transformed A s ddof rows
  rw [covSpec_npCov ddof rows h, covSpec_npCov ddof _ (by rw [List.length_map]; exact h)] at this
  exact Option.some.inj this

/-- What `_set_covariance` stores, when nothing has to be repaired. -/
theorem setMaybe_same {isPD : Matrix (Fin n) (Fin n) ℝ → Bool} {eigh : Matrix (Fin n) (Fin n) ℝ → (Fin n → ℝ) × Matrix (Fin n) (Fin n) ℝ} {nearest higham : Bool} {maxIter : Nat}
    {S c : Matrix (Fin n) (Fin n) ℝ} (hS : nearest = true → isPD S = true) (h : setMaybe isPD eigh nearest higham maxIter (some S) = .ok (some c)) : c = S := by
  unfold setMaybe at h
  simp only at h
  cases hc : setCovariance isPD eigh nearest higham maxIter S with
  | error e => rw [hc] at h; cases h
  | ok c' =>
    rw [hc] at h
    cases h
    unfold setCovariance at hc
    split at hc
    · cases hc
    · cases nearest with
      | false => simpa using hc.symm
      | true =>
        simp only [if_true] at hc
        unfold covNearest at hc
        split at hc
        · cases hc
        · rw [if_pos (hS rfl)] at hc
          cases hc
          rfl

/-- **C124.** `EmpiricalCovariance`, with any window: if the estimates need no repair (`nearest=False`, or both positive definite), the covariance of combinations of the assets is the
combination `A S Aᵀ` of their covariances. Constants have no effect. -/
theorem C124_empirical_covariance {isPD : ∀ {k : Nat}, Matrix (Fin k) (Fin k) ℝ → Bool} {eigh : ∀ {k : Nat}, Matrix (Fin k) (Fin k) ℝ → (Fin k → ℝ) × Matrix (Fin k) (Fin k) ℝ}
    (nearest higham : Bool) (maxIter : Nat) (A : Matrix (Fin m) (Fin n) ℝ) (s : Fin m → ℝ) (ddof : Int) (window : Option Int) (rows : List (Fin n → ℝ))
    (hpd : nearest = true → isPD (covSpec ddof (lastRows window rows)) = true ∧ isPD (covSpec ddof (lastRows window (rows.map (transformed A s)))) = true)
    (c : Matrix (Fin n) (Fin n) ℝ) (c' : Matrix (Fin m) (Fin m) ℝ)
    (h : empiricalCovariance isPD eigh nearest higham maxIter ddof window rows = .ok (some c))
    (h' : empiricalCovariance isPD eigh nearest higham maxIter ddof window (rows.map (transformed A s)) = .ok (some c')) : c' = A * c * Aᵀ := by
  unfold empiricalCovariance at h h'
  by_cases hn : n = 1
  · rw [if_pos hn] at h; cases h
  by_cases hm : m = 1
  · rw [if_pos hm] at h'; cases h'
  rw [if_neg hn] at h
  rw [if_neg hm] at h'
  by_cases hT : ddof < (lastRows window rows).length
  · rw [lastRows_map] at h' hpd
    rw [covSpec_npCov ddof _ hT] at h
    rw [covSpec_npCov ddof _ (by rw [List.length_map]; exact hT)] at h'
    rw [setMaybe_same (fun hx => (hpd hx).1) h, setMaybe_same (fun hx => (hpd hx).2) h', covSpec_transformed A s ddof _ hT]
    exact transformedCov_eq A _
  · unfold npCov at h
    rw [if_pos (by omega)] at h
    cases nearest <;> cases h

/-- **C124.** Constants added to the returns of the assets do not change what `EmpiricalCovariance` stores, whatever its parameters, errors included. -/
theorem C124_empirical_covariance_shift (isPD : Matrix (Fin n) (Fin n) ℝ → Bool) (eigh : Matrix (Fin n) (Fin n) ℝ → (Fin n → ℝ) × Matrix (Fin n) (Fin n) ℝ)
    (nearest higham : Bool) (maxIter : Nat) (ddof : Int) (window : Option Int) (s : Fin n → ℝ) (rows : List (Fin n → ℝ)) :
    empiricalCovariance isPD eigh nearest higham maxIter ddof window (rows.map fun r i => r i + s i) = empiricalCovariance isPD eigh nearest higham maxIter ddof window rows := by
  have e : (fun (r : Fin n → ℝ) i => r i + s i) = transformed (1 : Matrix (Fin n) (Fin n) ℝ) s := by
    funext r i
    simp [transformed, Matrix.one_apply]
  have e2 : ∀ S : Matrix (Fin n) (Fin n) ℝ, transformedCov 1 S = S := by
    intro S
    funext i j
    simp [transformedCov, Matrix.one_apply, ite_mul, sum_ite_eq]
  unfold empiricalCovariance
  rw [e, lastRows_map, npCov_transformed]
  congr 2
  cases npCov ddof (lastRows window rows) with
  | none => rfl
  | some S => simp only [Option.map]; exact congrArg some (e2 S)

/-- **C124.** `EWCovariance`, likewise. -/
theorem C124_ew_covariance {isPD : ∀ {k : Nat}, Matrix (Fin k) (Fin k) ℝ → Bool} {eigh : ∀ {k : Nat}, Matrix (Fin k) (Fin k) ℝ → (Fin k → ℝ) × Matrix (Fin k) (Fin k) ℝ}
    (nearest higham : Bool) (maxIter : Nat) (A : Matrix (Fin m) (Fin n) ℝ) (s : Fin m → ℝ) (alpha : ℝ) (window : Option Int) (rows : List (Fin n → ℝ)) (hn : 0 < n) (hm : 0 < m)
    (hpd : nearest = true → isPD (ewCovSpec (1 - alpha) (lastRows window rows)) = true ∧ isPD (ewCovSpec (1 - alpha) (lastRows window (rows.map (transformed A s)))) = true)
    (c : Matrix (Fin n) (Fin n) ℝ) (c' : Matrix (Fin m) (Fin m) ℝ)
    (h : ewCovariance isPD eigh nearest higham maxIter alpha window rows = .ok (some c))
    (h' : ewCovariance isPD eigh nearest higham maxIter alpha window (rows.map (transformed A s)) = .ok (some c')) : c' = A * c * Aᵀ := by
  classical
  unfold ewCovariance at h h'
  simp only [lastRows_map, List.map_eq_nil_iff] at h h' hpd
  by_cases ha : 0 < alpha ∧ alpha ≤ 1
  swap
  · rw [if_pos ha] at h; cases h
  rw [if_neg (not_not.2 ha)] at h h'
  by_cases hr : lastRows window rows = []
  · rw [if_pos hr] at h; cases h
  rw [if_neg hr] at h h'
  have hmap : (lastRows window rows).map (transformed A s) ≠ [] := by simpa using hr
  have e1 := fun i j => ewmCov_spec alpha ha.2 _ hr i j
  have e2 := fun i j => ewmCov_spec alpha ha.2 _ hmap i j
  rw [List.length_map] at e2
  by_cases hz : (decayed (1 - alpha) (lastRows window rows).length fun _ => 1) ^ 2 - decayed ((1 - alpha) ^ 2) (lastRows window rows).length (fun _ => 1) ≤ 0
  · simp only [if_pos hz] at e1
    rw [if_neg (fun hall => by have := hall ⟨0, hn⟩ ⟨0, hn⟩; rw [e1] at this; cases this)] at h
    cases nearest <;> cases h
  · simp only [if_neg hz] at e1 e2
    simp only [e1, Option.isSome_some, implies_true, if_true, Option.getD_some] at h
    simp only [e2, Option.isSome_some, implies_true, if_true, Option.getD_some] at h'
    rw [setMaybe_same (fun hx => (hpd hx).1) h, setMaybe_same (fun hx => (hpd hx).2) h', ewCov_transformed A s _ (by linarith [ha.2]) _ hr]
    exact transformedCov_eq A _

/-! ### GerberCovariance -/

section
variable {T : Nat}

/-- The new assets: the assets `f i`, each in its own unit `c i`. -/
def chosen (f : Fin m → Fin n) (c : Fin m → ℝ) (x : Fin T → Fin n → ℝ) : Fin T → Fin m → ℝ := fun t i => c i * x t (f i)

theorem std_chosen (f : Fin m → Fin n) (c : Fin m → ℝ) (hc : ∀ i, 0 < c i) (x : Fin T → Fin n → ℝ) (i : Fin m) : std (chosen f c x) i = c i * std x (f i) := by
  unfold std chosen
  rw [← mul_sum]
  have e : ∀ t, (c i * x t (f i) - c i * (∑ t, x t (f i)) / T) ^ 2 = c i ^ 2 * (x t (f i) - (∑ t, x t (f i)) / T) ^ 2 := fun t => by ring
  simp only [e]
  rw [← mul_sum, mul_div_assoc, Real.sqrt_mul (sq_nonneg _), Real.sqrt_sq (hc i).le]

theorem up_chosen (f : Fin m → Fin n) (c : Fin m → ℝ) (hc : ∀ i, 0 < c i) (x : Fin T → Fin n → ℝ) (thr : ℝ) (t : Fin T) (i : Fin m) :
    (chosen f c x t i ≥ std (chosen f c x) i * thr ↔ x t (f i) ≥ std x (f i) * thr) ∧ (chosen f c x t i ≤ -(std (chosen f c x) i) * thr ↔ x t (f i) ≤ -(std x (f i)) * thr) := by
  rw [std_chosen f c hc]
  unfold chosen
  constructor
  · rw [mul_assoc]
    exact mul_le_mul_iff_of_pos_left (hc i)
  · rw [show -(c i * std x (f i)) * thr = c i * (-(std x (f i)) * thr) by ring]
    exact mul_le_mul_iff_of_pos_left (hc i)

/-- **C124.** `GerberCovariance`: the estimate for a selection of the assets, in any order and each in its own unit, is the selection of the estimate, in these units (and the correlations do
not depend on the units). -/
theorem C124_gerber (f : Fin m → Fin n) (c : Fin m → ℝ) (hc : ∀ i, 0 < c i) (x : Fin T → Fin n → ℝ) (psdVariant : Bool) (thr : ℝ) (i j : Fin m) :
    gerberCorr psdVariant (chosen f c x) thr i j = gerberCorr psdVariant x thr (f i) (f j) ∧
    corrToCov (gerberCorr psdVariant (chosen f c x) thr) (std (chosen f c x)) i j = c i * c j * corrToCov (gerberCorr psdVariant x thr) (std x) (f i) (f j) := by
  have hu : ∀ t i, up (chosen f c x) thr t i = up x thr t (f i) := by
    intro t i
    unfold up
    simp only [(up_chosen f c hc x thr t i).1]
  have hd : ∀ t i, down (chosen f c x) thr t i = down x thr t (f i) := by
    intro t i
    unfold down
    simp only [(up_chosen f c hc x thr t i).2]
  have hn : ∀ t i, neutral (chosen f c x) thr t i = neutral x thr t (f i) := by
    intro t i
    unfold neutral
    simp only [(up_chosen f c hc x thr t i).1, (up_chosen f c hc x thr t i).2]
  have hh : ∀ i j, hMat (chosen f c x) thr i j = hMat x thr (f i) (f j) := by
    intro i j
    simp only [hMat, Matrix.sub_apply, Matrix.add_apply, mul_apply, transpose_apply, hu, hd]
  have hg : gerberCorr psdVariant (chosen f c x) thr i j = gerberCorr psdVariant x thr (f i) (f j) := by
    simp only [gerberCorr, hh, mul_apply, transpose_apply, hn]
  refine ⟨hg, ?_⟩
  unfold corrToCov
  rw [hg, std_chosen f c hc, std_chosen f c hc]
  ring

/-- **C124.** The same for what `fit` stores with `nearest=False`. -/
theorem C124_gerber_fit {isPD : ∀ {k : Nat}, Matrix (Fin k) (Fin k) ℝ → Bool} {eigh : ∀ {k : Nat}, Matrix (Fin k) (Fin k) ℝ → (Fin k → ℝ) × Matrix (Fin k) (Fin k) ℝ} (higham : Bool) (maxIter : Nat)
    (f : Fin m → Fin n) (c : Fin m → ℝ) (hc : ∀ i, 0 < c i) (x : Fin T → Fin n → ℝ) (psdVariant : Bool) (thr : ℝ) (S : Matrix (Fin n) (Fin n) ℝ) (S' : Matrix (Fin m) (Fin m) ℝ)
    (h : gerberFit isPD eigh false higham maxIter psdVariant thr x = .ok S) (h' : gerberFit isPD eigh false higham maxIter psdVariant thr (chosen f c x) = .ok S') (i j : Fin m) :
    S' i j = c i * c j * S (f i) (f j) := by
  have key : ∀ {k : Nat} (y : Fin T → Fin k → ℝ) (R : Matrix (Fin k) (Fin k) ℝ), gerberFit isPD eigh false higham maxIter psdVariant thr y = .ok R → R = corrToCov (gerberCorr psdVariant y thr) (std y) := by
    intro k y R hR
    unfold gerberFit at hR
    split at hR
    · cases hR
    · unfold setCovariance at hR
      by_cases hv : ∃ i, corrToCov (gerberCorr psdVariant y thr) (std y) i i < 1 / 10 ^ 15
      · rw [if_pos hv] at hR; cases hR
      · rw [if_neg hv] at hR
        simp only [Bool.false_eq_true, if_false] at hR
        cases hR
        rfl
  rw [key x S h, key _ S' h']
  exact (C124_gerber f c hc x psdVariant thr i j).2

end

/-- Two assets over two days, that move together. -/
def together : Fin 2 → Fin 2 → ℝ := ![![1, 1], ![-1, -1]]

/-- **C124** (the exception). A constant added to the returns of one asset changes the estimate of `GerberCovariance`, whose thresholds are not relative to the mean: from a correlation of 1 to 1/2. -/
theorem C124_gerber_shift : gerberCorr true together (1 / 2) 0 1 = 1 ∧ gerberCorr true (fun t i => together t i + ![0, 1] i) (1 / 2) 0 1 = 1 / 2 := by
  have s1 : ∀ i, std together i = 1 := by
    intro i
    unfold std together
    fin_cases i <;> norm_num [Fin.sum_univ_two]
  have s2 : ∀ i, std (fun t i => together t i + ![0, 1] i) i = 1 := by
    intro i
    unfold std together
    fin_cases i <;> norm_num [Fin.sum_univ_two]
  constructor
  · simp only [gerberCorr, hMat, Matrix.sub_apply, Matrix.add_apply, mul_apply, transpose_apply, up, down, neutral, s1, Fin.sum_univ_two]
    norm_num [together]
  · simp only [gerberCorr, hMat, Matrix.sub_apply, Matrix.add_apply, mul_apply, transpose_apply, up, down, neutral, s2, Fin.sum_univ_two]
    norm_num [together]

/-! ### ShrunkMu -/

section
variable {T : Nat}

theorem sampleMu_shift (hT : 0 < T) (x : Fin T → Fin (n + 1) → ℝ) (s : ℝ) : sampleMu (fun t i => x t i + s) = fun i => sampleMu x i + s := by
  funext i
  have : (T : ℝ) ≠ 0 := by positivity
  unfold sampleMu
  rw [sum_add_distrib]
  simp only [sum_const, card_univ, Fintype.card_fin, nsmul_eq_mul]
  field_simp

/-- The fit for returns that are all higher by `s`. -/
def shiftFit (s : ℝ) (r : ShrunkFit ℝ n) : ShrunkFit ℝ n := ⟨fun i => r.mu i + s, fun i => r.target i + s, r.alpha, r.beta⟩

/-- **C124.** `ShrunkMu` with James-Stein or Bayes-Stein: if all returns are higher by `s`, and the covariance is the same, the expected returns are higher by `s` and the shrinkage is the same. -/
theorem C124_shrunk_mu_shift (hT : 0 < T) (method : ShrunkMethod) (hm : method ≠ .bodnarOkhrin) (volWeighted : Bool) (x : Fin T → Fin (n + 1) → ℝ) (cov : Matrix (Fin (n + 1)) (Fin (n + 1)) ℝ)
    (hv : volWeighted = true → (∑ i, ∑ j, cov⁻¹ i j) ≠ 0) (eigs : Fin (n + 1) → ℝ) (s : ℝ) :
    shrunkMu method volWeighted (fun t i => x t i + s) cov eigs = (shrunkMu method volWeighted x cov eigs).map (shiftFit s) := by
  have ht : shrunkTarget volWeighted (fun i => sampleMu x i + s) cov = (shrunkTarget volWeighted (sampleMu x) cov).map fun g i => g i + s := by
    cases volWeighted with
    | false =>
      simp only [shrunkTarget, Bool.false_eq_true, if_false, Option.map]
      congr 1
      funext _
      have : ((n + 1 : Nat) : ℝ) ≠ 0 := by positivity
      rw [sum_add_distrib]
      simp only [sum_const, card_univ, Fintype.card_fin, nsmul_eq_mul]
      field_simp
    | true =>
      simp only [shrunkTarget, if_true, inv?]
      by_cases hd : cov.det = 0
      · rw [if_pos hd]; rfl
      · rw [if_neg hd]
        simp only [Option.map]
        congr 1
        funext _
        simp only [mul_add, sum_add_distrib, ← sum_mul]
        rw [add_div, mul_div_cancel_left₀ _ (hv rfl)]
  unfold shrunkMu
  rw [sampleMu_shift hT, ht]
  cases shrunkTarget volWeighted (sampleMu x) cov with
  | none => rfl
  | some g =>
    simp only [Option.map, Option.bind]
    have hdiff : (fun i => sampleMu x i + s) - (fun i => g i + s) = sampleMu x - g := by
      funext i
      simp
    have hc : shrunkCoefficients method T (fun i => sampleMu x i + s) (fun i => g i + s) cov eigs = shrunkCoefficients method T (sampleMu x) g cov eigs := by
      cases method with
      | bodnarOkhrin => exact absurd rfl hm
      | jamesStein => simp only [shrunkCoefficients, hdiff]
      | bayesStein => simp only [shrunkCoefficients, hdiff]
    have hab : ∀ c, shrunkCoefficients method T (sampleMu x) g cov eigs = some c → c.1 + c.2 = 1 := by
      intro c h
      cases method with
      | bodnarOkhrin => exact absurd rfl hm
      | jamesStein =>
        simp only [shrunkCoefficients] at h
        cases h
        ring
      | bayesStein =>
        simp only [shrunkCoefficients, inv?] at h
        by_cases hd : cov.det = 0
        · rw [if_pos hd] at h; cases h
        · rw [if_neg hd] at h
          cases h
          ring
    rw [hc]
    cases h : shrunkCoefficients method T (sampleMu x) g cov eigs with
    | none => rfl
    | some c =>
      simp only [shiftFit]
      congr 2
      funext i
      have := hab c h
      linear_combination s * this

/-- The fit for returns in another unit. -/
def scaleFit (u : ℝ) (r : ShrunkFit ℝ n) : ShrunkFit ℝ n := ⟨fun i => u * r.mu i, fun i => u * r.target i, r.alpha, r.beta⟩

theorem inv?_smul (u : ℝ) (hu : 0 < u) (cov : Matrix (Fin (n + 1)) (Fin (n + 1)) ℝ) : inv? (u ^ 2 • cov) = (inv? cov).map fun v => (u ^ 2)⁻¹ • v := by
  unfold inv?
  have hu2 : u ^ 2 ≠ 0 := by positivity
  rw [det_smul]
  by_cases hd : cov.det = 0
  · rw [if_pos hd, if_pos (by rw [hd, mul_zero])]; rfl
  · rw [if_neg hd, if_neg (mul_ne_zero (pow_ne_zero _ hu2) hd)]
    simp only [Option.map]
    congr 1
    have := Matrix.inv_smul' (A := cov) (Units.mk0 (u ^ 2) hu2) (isUnit_iff_ne_zero.2 hd)
    simpa [Units.smul_def] using this

/-- **C124.** `ShrunkMu`, all three methods and targets: in another unit of the returns (`u`, with the covariance in `u²`), the expected returns are in that unit and the shrinkage is the same. -/
theorem C124_shrunk_mu_units (u : ℝ) (hu : 0 < u) (method : ShrunkMethod) (volWeighted : Bool) (x : Fin T → Fin (n + 1) → ℝ) (cov : Matrix (Fin (n + 1)) (Fin (n + 1)) ℝ) (eigs : Fin (n + 1) → ℝ) :
    shrunkMu method volWeighted (fun t i => u * x t i) (u ^ 2 • cov) (fun i => u ^ 2 * eigs i) = (shrunkMu method volWeighted x cov eigs).map (scaleFit u) := by
  have hu2 : u ^ 2 ≠ 0 := by positivity
  have hmu : sampleMu (fun t i => u * x t i) = fun i => u * sampleMu x i := by
    funext i
    unfold sampleMu
    rw [← mul_sum, mul_div_assoc]
  have ht : shrunkTarget volWeighted (fun i => u * sampleMu x i) (u ^ 2 • cov) = (shrunkTarget volWeighted (sampleMu x) cov).map fun g i => u * g i := by
    cases volWeighted with
    | false =>
      simp only [shrunkTarget, Bool.false_eq_true, if_false, Option.map]
      congr 1
      funext _
      rw [← mul_sum, mul_div_assoc]
    | true =>
      simp only [shrunkTarget, if_true]
      rw [inv?_smul u hu]
      cases inv? cov with
      | none => rfl
      | some v =>
        simp only [Option.map]
        congr 1
        funext _
        have e1 : ∀ i, (∑ j, ((u ^ 2)⁻¹ • v) i j) = (u ^ 2)⁻¹ * ∑ j, v i j := by
          intro i
          rw [mul_sum]
          rfl
        simp only [e1]
        have e2 : ∀ i, (u ^ 2)⁻¹ * (∑ j, v i j) * (u * sampleMu x i) = (u ^ 2)⁻¹ * (u * ((∑ j, v i j) * sampleMu x i)) := fun i => by ring
        simp only [e2]
        rw [← mul_sum, ← mul_sum, ← mul_sum, mul_div_mul_left _ _ (inv_ne_zero hu2), mul_div_assoc]
  unfold shrunkMu
  rw [hmu, ht]
  cases shrunkTarget volWeighted (sampleMu x) cov with
  | none => rfl
  | some g =>
    simp only [Option.map, Option.bind]
    have hq : ∀ (a b : Fin (n + 1) → ℝ) (v : Matrix (Fin (n + 1)) (Fin (n + 1)) ℝ), (fun i => u * a i) ⬝ᵥ ((u ^ 2)⁻¹ • v) *ᵥ (fun i => u * b i) = a ⬝ᵥ v *ᵥ b := by
      intro a b v
      rw [show (fun i => u * a i) = u • a from rfl, show (fun i => u * b i) = u • b from rfl, smul_mulVec, mulVec_smul, smul_dotProduct, dotProduct_smul, dotProduct_smul]
      simp only [smul_eq_mul]
      field_simp
    have hdiff : (fun i => u * sampleMu x i) - (fun i => u * g i) = fun i => u * (sampleMu x - g) i := by
      funext i
      simp [mul_sub]
    have hc : shrunkCoefficients method T (fun i => u * sampleMu x i) (fun i => u * g i) (u ^ 2 • cov) (fun i => u ^ 2 * eigs i) = shrunkCoefficients method T (sampleMu x) g cov eigs := by
      cases method with
      | jamesStein =>
        have hmax : Finset.univ.sup' ⟨0, Finset.mem_univ 0⟩ (fun i => u ^ 2 * eigs i) = u ^ 2 * Finset.univ.sup' ⟨0, Finset.mem_univ 0⟩ eigs := by
          refine le_antisymm (Finset.sup'_le _ _ fun i hi => mul_le_mul_of_nonneg_left (Finset.le_sup' _ hi) (sq_nonneg u)) ?_
          obtain ⟨i, hi, e⟩ := Finset.exists_mem_eq_sup' (s := Finset.univ) ⟨0, Finset.mem_univ (0 : Fin (n + 1))⟩ eigs
          rw [e]
          exact Finset.le_sup' (fun i => u ^ 2 * eigs i) hi
        simp only [shrunkCoefficients, hdiff, hmax, mul_pow, ← mul_sum]
        rw [show u ^ 2 * ∑ i, eigs i - 2 * (u ^ 2 * Finset.univ.sup' ⟨0, Finset.mem_univ 0⟩ eigs) = u ^ 2 * (∑ i, eigs i - 2 * Finset.univ.sup' ⟨0, Finset.mem_univ 0⟩ eigs) by ring,
          mul_div_mul_left _ _ hu2]
      | bayesStein =>
        simp only [shrunkCoefficients, hdiff]
        rw [inv?_smul u hu]
        cases inv? cov with
        | none => rfl
        | some v =>
          simp only [Option.map]
          rw [hq]
      | bodnarOkhrin =>
        simp only [shrunkCoefficients]
        rw [inv?_smul u hu]
        cases inv? cov with
        | none => rfl
        | some v =>
          simp only [Option.map]
          rw [hq, hq, hq]
    rw [hc]
    cases h : shrunkCoefficients method T (sampleMu x) g cov eigs with
    | none => rfl
    | some c =>
      simp only [scaleFit]
      congr 2
      funext i
      ring

end

/-- Four observations of two assets, with means 1 and 0. -/
def shrunkSample : Fin 4 → Fin 2 → ℝ := ![![2, 1], ![0, 1], ![2, -1], ![0, -1]]

/-- **C124** (the exception). Bodnar-Okhrin shrinks the expected returns towards 0 as well: returns that are all higher by 1 do not give expected returns higher by 1, but 7/10 instead of 1/2 for
the first asset. -/
theorem C124_bodnar_shift : (shrunkMu .bodnarOkhrin false shrunkSample 1 (fun _ => 1)).map (·.mu) = some ![-1 / 2, 1 / 2] ∧
    (shrunkMu .bodnarOkhrin false (fun t i => shrunkSample t i + 1) 1 (fun _ => 1)).map (·.mu) = some ![7 / 10, 17 / 10] := by
  have e1 : sampleMu shrunkSample = ![1, 0] := by
    funext i
    fin_cases i <;> simp [sampleMu, shrunkSample, Fin.sum_univ_four] <;> norm_num
  have e2 : sampleMu (fun t i => shrunkSample t i + 1) = ![2, 1] := by
    funext i
    fin_cases i <;> simp [sampleMu, shrunkSample, Fin.sum_univ_four] <;> norm_num
  constructor
  · simp only [shrunkMu, shrunkTarget, shrunkCoefficients, inv?, e1, det_one, Bool.false_eq_true, if_false, one_ne_zero, Option.map, Option.bind, inv_one, one_mulVec]
    congr 1
    funext i
    fin_cases i <;> simp [dotProduct, Fin.sum_univ_succ] <;> norm_num
  · simp only [shrunkMu, shrunkTarget, shrunkCoefficients, inv?, e2, det_one, Bool.false_eq_true, if_false, one_ne_zero, Option.map, Option.bind, inv_one, one_mulVec]
    congr 1
    funext i
    fin_cases i <;> simp [dotProduct, Fin.sum_univ_succ] <;> norm_num

/-! ### Examples -/

/-- A portfolio of two assets with weights 1/2, and twice the second asset: the expected returns are 3/2 and 2. -/
example : empiricalMu none (exRows.map (transformed !![1 / 2, 1 / 2; 0, 2] 0)) = some ![3 / 2, 2] := by
  rw [C124_empirical_mu]
  have : empiricalMu none exRows = some ![2, 1] := by
    unfold empiricalMu lastRows
    simp only
    rw [if_neg (by simp [exRows])]
    congr 1
    funext i
    fin_cases i <;> norm_num [colMean, exRows]
  rw [this]
  simp only [Option.map]
  congr 1
  funext i
  fin_cases i <;> norm_num [transformed, Fin.sum_univ_two]

/-- Twice the first asset, and the difference of the two: the variances 1 and 1 and the covariance -1 become 4, 4 and 4. -/
example : ∃ (isPD : ∀ {k : Nat}, Matrix (Fin k) (Fin k) ℝ → Bool) (eigh : ∀ {k : Nat}, Matrix (Fin k) (Fin k) ℝ → (Fin k → ℝ) × Matrix (Fin k) (Fin k) ℝ) (c c' : Matrix (Fin 2) (Fin 2) ℝ),
    empiricalCovariance isPD eigh false false 100 1 none exRows = .ok (some c) ∧
    empiricalCovariance isPD eigh false false 100 1 none (exRows.map (transformed !![2, 0; 1, -1] 0)) = .ok (some c') ∧ c' = !![2, 0; 1, -1] * c * !![2, 0; 1, -1]ᵀ ∧ c' 0 1 = 4 := by
  choose isPD eigh hn using fun k => numerics_exist (n := k)
  have hl : (1 : Int) < exRows.length := by simp [exRows]
  have hv : covSpec 1 exRows = !![1, -1; -1, 1] := by
    funext i j
    fin_cases i <;> fin_cases j <;> simp [covSpec, exRows, sum_range_succ] <;> norm_num
  have hv' : covSpec 1 (exRows.map (transformed !![2, 0; 1, -1] 0)) = !![4, 4; 4, 4] := by
    rw [covSpec_transformed _ _ _ _ hl, hv]
    funext i j
    fin_cases i <;> fin_cases j <;> norm_num [transformedCov, Fin.sum_univ_two]
  have h1 := (C82_empirical_covariance (hn 2) false false 100 1 exRows hl).2.1 (by decide) (fun i => by rw [hv]; fin_cases i <;> norm_num) rfl
  have h2 := (C82_empirical_covariance (hn 2) false false 100 1 (exRows.map (transformed !![2, 0; 1, -1] 0)) (by rw [List.length_map]; exact hl)).2.1 (by decide)
    (fun i => by rw [hv']; fin_cases i <;> norm_num) rfl
  refine ⟨fun {k} => isPD k, fun {k} => eigh k, _, _, h1, h2, ?_, ?_⟩
  · exact C124_empirical_covariance (isPD := fun {k} => isPD k) (eigh := fun {k} => eigh k) false false 100 _ _ 1 none exRows (fun h => by cases h) _ _ h1 h2
  · rw [hv']; norm_num

/-- The returns of the two assets in percent and in basis points, in the other order: the same correlation. -/
example : gerberCorr true (chosen ![1, 0] ![100, 10000] together) (1 / 2) 0 1 = gerberCorr true together (1 / 2) 1 0 :=
  (C124_gerber ![1, 0] ![100, 10000] (fun i => by fin_cases i <;> norm_num) together true (1 / 2) 0 1).1

/-- Bayes-Stein for returns that are all higher by 1. -/
example : (shrunkMu .bayesStein true (fun t i => shrunkSample t i + 1) 1 (fun _ => 1)) = (shrunkMu .bayesStein true shrunkSample 1 (fun _ => 1)).map (shiftFit 1) :=
  C124_shrunk_mu_shift (by norm_num) _ (by simp) true shrunkSample 1 (fun _ => by simp [Matrix.one_apply]) _ 1

end Skfolio.Moments
