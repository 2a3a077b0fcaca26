import Verif.Moments.WindowModel
import Verif.Moments.CorrTheorems
import Mathlib.Data.List.Induction
import Mathlib.Data.List.GetD
import Mathlib.Algebra.BigOperators.Field
import Mathlib.Tactic.FieldSimp
import Mathlib.Tactic.LinearCombination

/-!
Claim C82: empirical and exponentially weighted moments.
-/
set_option autoImplicit false

namespace Skfolio.Moments

open Matrix Finset

variable {n : Nat}

/-! ### specification -/

/-- The sum over the observations, the last one with weight 1 and each one with `q` times the weight of the next. -/
noncomputable def decayed (q : ℝ) (T : Nat) (f : Nat → ℝ) : ℝ := ∑ t ∈ range T, q ^ (T - 1 - t) * f t

/-- The exponentially weighted mean of asset `i`. -/
noncomputable def ewMeanSpec (q : ℝ) (rows : List (Fin n → ℝ)) (i : Fin n) : ℝ :=
  decayed q rows.length (fun t => rows.getD t 0 i) / decayed q rows.length fun _ => 1

/-- The exponentially weighted covariance of assets `i` and `j`: with the weights `w` of the observations,
`Σ w (x - m)(y - m) / Σ w · (Σ w)² / ((Σ w)² - Σ w²)`. -/
noncomputable def ewCovSpec (q : ℝ) (rows : List (Fin n → ℝ)) (i j : Fin n) : ℝ :=
  decayed q rows.length (fun t => (rows.getD t 0 i - ewMeanSpec q rows i) * (rows.getD t 0 j - ewMeanSpec q rows j)) / (decayed q rows.length fun _ => 1) *
    ((decayed q rows.length fun _ => 1) ^ 2 / ((decayed q rows.length fun _ => 1) ^ 2 - decayed (q ^ 2) rows.length fun _ => 1))

/-- The sample covariance with `ddof`. -/
noncomputable def covSpec (ddof : Int) (rows : List (Fin n → ℝ)) (i j : Fin n) : ℝ :=
  (∑ t ∈ range rows.length, (rows.getD t 0 i - (∑ s ∈ range rows.length, rows.getD s 0 i) / rows.length) *
    (rows.getD t 0 j - (∑ s ∈ range rows.length, rows.getD s 0 j) / rows.length)) / ((rows.length : ℝ) - ddof)

/-! ### windows -/

theorem lastRows_window {A : Type} (old recent : List A) (h : recent ≠ []) : lastRows (some recent.length) (old ++ recent) = recent := by
  have : 0 < recent.length := List.length_pos_iff.2 h
  unfold lastRows
  simp only
  rw [if_pos (by exact_mod_cast this)]
  simp

theorem lastRows_all {A : Type} (rows : List A) (w : Int) (h : (rows.length : Int) ≤ w ∨ w = 0) : lastRows (some w) rows = rows := by
  unfold lastRows
  simp only
  by_cases hw : 0 < w
  · rw [if_pos hw]
    have : rows.length - w.toNat = 0 := by omega
    rw [this, List.drop_zero]
  · rw [if_neg hw]
    have : (-w).toNat = 0 := by omega
    rw [this, List.drop_zero]

/-- **C82.** With a window size `w`, the four estimators see the last `w` observations only. -/
theorem C82_window {isPD : Matrix (Fin n) (Fin n) ℝ → Bool} {eigh : Matrix (Fin n) (Fin n) ℝ → (Fin n → ℝ) × Matrix (Fin n) (Fin n) ℝ} (nearest higham : Bool)
    (maxIter : Nat) (alpha : ℝ) (ddof : Int) (old recent : List (Fin n → ℝ)) (h : recent ≠ []) :
    empiricalMu (some recent.length) (old ++ recent) = empiricalMu none recent ∧
    ewMu alpha (some recent.length) (old ++ recent) = ewMu alpha none recent ∧
    empiricalCovariance isPD eigh nearest higham maxIter ddof (some recent.length) (old ++ recent) = empiricalCovariance isPD eigh nearest higham maxIter ddof none recent ∧
    ewCovariance isPD eigh nearest higham maxIter alpha (some recent.length) (old ++ recent) = ewCovariance isPD eigh nearest higham maxIter alpha none recent := by
  have e := lastRows_window old recent h
  unfold empiricalMu ewMu empiricalCovariance ewCovariance
  rw [e]
  exact ⟨rfl, rfl, rfl, rfl⟩

/-- **C82.** A window that is larger than the sample, or 0 (*not* an empty window), means all observations. -/
theorem C82_window_all {isPD : Matrix (Fin n) (Fin n) ℝ → Bool} {eigh : Matrix (Fin n) (Fin n) ℝ → (Fin n → ℝ) × Matrix (Fin n) (Fin n) ℝ} (nearest higham : Bool)
    (maxIter : Nat) (alpha : ℝ) (ddof : Int) (rows : List (Fin n → ℝ)) (w : Int) (h : (rows.length : Int) ≤ w ∨ w = 0) :
    empiricalMu (some w) rows = empiricalMu none rows ∧
    ewMu alpha (some w) rows = ewMu alpha none rows ∧
    empiricalCovariance isPD eigh nearest higham maxIter ddof (some w) rows = empiricalCovariance isPD eigh nearest higham maxIter ddof none rows ∧
    ewCovariance isPD eigh nearest higham maxIter alpha (some w) rows = ewCovariance isPD eigh nearest higham maxIter alpha none rows := by
  have e := lastRows_all rows w h
  unfold empiricalMu ewMu empiricalCovariance ewCovariance
  rw [e]
  exact ⟨rfl, rfl, rfl, rfl⟩

/-! ### sums -/

theorem decayed_succ (q : ℝ) (T : Nat) (f : Nat → ℝ) : decayed q (T + 1) f = q * decayed q T f + f T := by
  unfold decayed
  rw [sum_range_succ, mul_sum]
  congr 1
  · refine sum_congr rfl fun t ht => ?_
    have : T + 1 - 1 - t = (T - 1 - t) + 1 := by have := mem_range.1 ht; omega
    rw [this, pow_succ]
    ring
  · simp

theorem decayed_congr (q : ℝ) (T : Nat) (f g : Nat → ℝ) (h : ∀ t < T, f t = g t) : decayed q T f = decayed q T g := by
  unfold decayed
  exact sum_congr rfl fun t ht => by rw [h t (mem_range.1 ht)]

theorem decayed_add (q : ℝ) (T : Nat) (f g : Nat → ℝ) : decayed q T (fun t => f t + g t) = decayed q T f + decayed q T g := by
  unfold decayed
  rw [← sum_add_distrib]
  exact sum_congr rfl fun t _ => by ring

theorem decayed_smul (q c : ℝ) (T : Nat) (f : Nat → ℝ) : decayed q T (fun t => c * f t) = c * decayed q T f := by
  unfold decayed
  rw [mul_sum]
  exact sum_congr rfl fun t _ => by ring

theorem decayed_one_pos (q : ℝ) (hq : 0 ≤ q) : ∀ T, 0 < T → 0 < decayed q T fun _ => 1
  | 0, h => absurd h (lt_irrefl _)
  | T + 1, _ => by
    rw [decayed_succ]
    have : 0 ≤ decayed q T fun _ => 1 := sum_nonneg fun t _ => by positivity
    have := mul_nonneg hq this
    linarith

/-- The square of the sum of the weights exceeds the sum of their squares. -/
theorem decayed_gap (q : ℝ) (hq : 0 ≤ q) (T : Nat) : 0 ≤ (decayed q T fun _ => 1) ^ 2 - decayed (q ^ 2) T fun _ => 1 := by
  induction T with
  | zero => simp [decayed]
  | succ T ih =>
    rw [decayed_succ, decayed_succ]
    have h0 : 0 ≤ decayed q T fun _ => 1 := sum_nonneg fun t _ => by positivity
    have h1 := mul_nonneg hq h0
    have h2 := mul_nonneg (sq_nonneg q) ih
    nlinarith

theorem decayed_gap_pos (q : ℝ) (hq : 0 < q) (T : Nat) (hT : 2 ≤ T) : 0 < (decayed q T fun _ => 1) ^ 2 - decayed (q ^ 2) T fun _ => 1 := by
  obtain ⟨m, rfl⟩ : ∃ m, T = m + 2 := ⟨T - 2, by omega⟩
  rw [decayed_succ, decayed_succ (q ^ 2)]
  have h0 : 0 < decayed q (m + 1) fun _ => 1 := decayed_one_pos q hq.le _ (by omega)
  have h1 := mul_pos hq h0
  have h2 := mul_nonneg (sq_nonneg q) (decayed_gap q hq.le (m + 1))
  nlinarith

theorem decayed_gap_zero (T : Nat) : (decayed 0 (T + 1) fun _ => 1) ^ 2 - decayed (0 ^ 2) (T + 1) (fun _ => 1) = 0 := by
  rw [decayed_succ, decayed_succ]
  simp

theorem decayed_gap_single (q : ℝ) : (decayed q 1 fun _ => 1) ^ 2 - decayed (q ^ 2) 1 (fun _ => 1) = 0 := by
  simp [decayed]

/-! ### the recursions -/

theorem getD_snoc_lt {A : Type} (l : List A) (a d : A) (t : Nat) (h : t < l.length) : (l ++ [a]).getD t d = l.getD t d := by
  rw [List.getD_append _ _ _ _ h]

theorem getD_snoc {A : Type} (l : List A) (a d : A) : (l ++ [a]).getD l.length d = a := by
  rw [List.getD_append_right _ _ _ _ (le_refl _)]
  simp

theorem ewm_fold (q : ℝ) (hq : 0 ≤ q) (x : ℝ) (xs : List ℝ) :
    let s := xs.foldl (ewmStep q) (1, x)
    s.1 = decayed q (x :: xs).length (fun _ => 1) ∧ s.1 * s.2 = decayed q (x :: xs).length fun t => (x :: xs).getD t 0 := by
  induction xs using List.reverseRecOn with
  | nil => simp [decayed]
  | append_singleton xs y ih =>
    simp only at ih ⊢
    rw [List.foldl_concat, ← List.cons_append]
    generalize xs.foldl (ewmStep q) (1, x) = s at ih
    obtain ⟨h1, h2⟩ := ih
    have hl : (x :: xs ++ [y]).length = (x :: xs).length + 1 := by simp
    rw [hl, decayed_succ, decayed_succ, getD_snoc]
    rw [decayed_congr q (x :: xs).length (fun t => (x :: xs ++ [y]).getD t 0) (fun t => (x :: xs).getD t 0) fun t ht => getD_snoc_lt _ _ _ _ ht]
    rw [← h1, ← h2]
    have hpos : 0 < s.1 * q + 1 := by
      have := decayed_one_pos q hq (x :: xs).length (by simp)
      rw [← h1] at this
      have := mul_nonneg this.le hq
      linarith
    simp only [ewmStep]
    constructor
    · ring
    · field_simp

theorem ewm_cov_fold (q : ℝ) (hq : 0 ≤ q) (x : ℝ × ℝ) (xs : List (ℝ × ℝ)) :
    let s := xs.foldl (ewmCovStep q) ⟨x.1, x.2, 0, 1, 1, 1⟩
    let T := (x :: xs).length
    s.oldWt = decayed q T (fun _ => 1) ∧ s.sumWt = decayed q T (fun _ => 1) ∧ s.sumWt2 = decayed (q ^ 2) T (fun _ => 1) ∧
    s.oldWt * s.meanX = decayed q T (fun t => ((x :: xs).getD t 0).1) ∧ s.oldWt * s.meanY = decayed q T (fun t => ((x :: xs).getD t 0).2) ∧
    s.oldWt * s.cov = decayed q T (fun t => ((x :: xs).getD t 0).1 * ((x :: xs).getD t 0).2) - s.oldWt * s.meanX * s.meanY := by
  induction xs using List.reverseRecOn with
  | nil => simp [decayed]
  | append_singleton xs y ih =>
    simp only at ih ⊢
    rw [List.foldl_concat, ← List.cons_append]
    generalize xs.foldl (ewmCovStep q) ⟨x.1, x.2, 0, 1, 1, 1⟩ = s at ih
    obtain ⟨h1, h2, h3, h4, h5, h6⟩ := ih
    have hl : (x :: xs ++ [y]).length = (x :: xs).length + 1 := by simp
    rw [hl]
    simp only [decayed_succ, getD_snoc]
    rw [decayed_congr q (x :: xs).length (fun t => ((x :: xs ++ [y]).getD t 0).1) (fun t => ((x :: xs).getD t 0).1) fun t ht => by rw [getD_snoc_lt _ _ _ _ ht],
      decayed_congr q (x :: xs).length (fun t => ((x :: xs ++ [y]).getD t 0).2) (fun t => ((x :: xs).getD t 0).2) fun t ht => by rw [getD_snoc_lt _ _ _ _ ht],
      decayed_congr q (x :: xs).length (fun t => ((x :: xs ++ [y]).getD t 0).1 * ((x :: xs ++ [y]).getD t 0).2)
        (fun t => ((x :: xs).getD t 0).1 * ((x :: xs).getD t 0).2) fun t ht => by rw [getD_snoc_lt _ _ _ _ ht]]
    have hpos : 0 < s.oldWt * q + 1 := by
      have := decayed_one_pos q hq (x :: xs).length (by simp)
      rw [← h1] at this
      have := mul_nonneg this.le hq
      linarith
    have h7 : decayed q (x :: xs).length (fun t => ((x :: xs).getD t 0).1 * ((x :: xs).getD t 0).2) = s.oldWt * s.cov + s.oldWt * s.meanX * s.meanY := by
      rw [h6]; ring
    rw [← h3, ← h4, ← h5, h7]
    rw [← h2]
    rw [← h1] at h2
    simp only [ewmCovStep]
    refine ⟨by rw [h2]; ring, by ring, by ring, ?_, ?_, ?_⟩
    · field_simp
    · field_simp
    · field_simp
      ring

theorem list_sum_range {A : Type} (d : A) (f : A → ℝ) (l : List A) : (l.map f).sum = ∑ t ∈ range l.length, f (l.getD t d) := by
  induction l using List.reverseRecOn with
  | nil => simp
  | append_singleton l a ih =>
    rw [List.map_append, List.sum_append, ih]
    have hl : (l ++ [a]).length = l.length + 1 := by simp
    rw [hl, sum_range_succ, getD_snoc]
    congr 1
    · exact sum_congr rfl fun t ht => by rw [getD_snoc_lt _ _ _ _ (mem_range.1 ht)]
    · simp

theorem getD_map_zero {A : Type} (f : A → ℝ) (l : List A) (d : A) (t : Nat) (h : t < l.length) : (l.map f).getD t 0 = f (l.getD t d) := by
  rw [List.getD_eq_getElem _ _ (by simpa using h), List.getD_eq_getElem _ _ h, List.getElem_map]

theorem colMean_eq (rows : List (Fin n → ℝ)) (i : Fin n) : colMean rows i = (∑ s ∈ range rows.length, rows.getD s 0 i) / rows.length := by
  unfold colMean
  rw [list_sum_range 0]

/-- A weighted sum of squares of the deviations is a positive semidefinite form. -/
theorem weighted_psd (T : Nat) (w : Nat → ℝ) (hw : ∀ t, 0 ≤ w t) (d : Nat → Fin n → ℝ) (c : ℝ) (hc : 0 ≤ c) :
    PSD fun i j => c * ∑ t ∈ range T, w t * (d t i * d t j) := by
  refine ⟨fun i j => by simp only [mul_comm (d _ i)], fun x => ?_⟩
  have : ∑ i, ∑ j, x i * (c * ∑ t ∈ range T, w t * (d t i * d t j)) * x j = c * ∑ t ∈ range T, w t * (∑ i, x i * d t i) ^ 2 := by
    have e : ∀ t, w t * (∑ i, x i * d t i) ^ 2 = ∑ i, ∑ j, w t * ((x i * d t i) * (x j * d t j)) := by
      intro t
      rw [sq, sum_mul_sum, mul_sum]
      exact sum_congr rfl fun i _ => by rw [mul_sum]
    simp only [e]
    rw [sum_comm (s := range T), mul_sum]
    refine sum_congr rfl fun i _ => ?_
    rw [sum_comm (s := range T), mul_sum]
    refine sum_congr rfl fun j _ => ?_
    simp only [mul_sum, sum_mul]
    exact sum_congr rfl fun t _ => by ring
  rw [this]
  exact mul_nonneg hc (sum_nonneg fun t _ => mul_nonneg (hw t) (sq_nonneg _))

/-! ### means -/

/-- **C82.** `EmpiricalMu` is the mean of each column; without observations it is NaN. -/
theorem C82_empirical_mu (rows : List (Fin n → ℝ)) :
    (rows ≠ [] → empiricalMu none rows = some fun i => (∑ t ∈ range rows.length, rows.getD t 0 i) / rows.length) ∧
    (rows = [] → empiricalMu none rows = none) := by
  constructor
  · intro h
    unfold empiricalMu lastRows
    simp only [if_neg h]
    congr 1
    funext i
    exact colMean_eq rows i
  · rintro rfl
    rfl

theorem ewmMean_spec (alpha : ℝ) (ha : alpha ≤ 1) (rows : List (Fin n → ℝ)) (h : rows ≠ []) (i : Fin n) :
    ewmMean alpha (rows.map (· i)) = some (ewMeanSpec (1 - alpha) rows i) := by
  obtain ⟨r, rs, rfl⟩ := List.exists_cons_of_ne_nil h
  have hq : 0 ≤ 1 - alpha := by linarith
  obtain ⟨h1, h2⟩ := ewm_fold (1 - alpha) hq (r i) (rs.map (· i))
  rw [List.map_cons, ewmMean]
  congr 1
  unfold ewMeanSpec
  have hl : (r i :: rs.map (· i)).length = (r :: rs).length := by simp
  rw [hl] at h1 h2
  have hp := decayed_one_pos (1 - alpha) hq (r :: rs).length (by simp)
  rw [eq_div_iff hp.ne', ← h1, mul_comm, h2]
  refine decayed_congr _ _ _ _ fun t ht => ?_
  exact getD_map_zero (fun x : Fin n → ℝ => x i) (r :: rs) 0 t ht

/-- **C82.** `EWMu` is the mean with weights that decrease by `1 - alpha` per period into the past; other values of `alpha` are refused. -/
theorem C82_ew_mu (alpha : ℝ) (rows : List (Fin n → ℝ)) :
    (0 < alpha → alpha ≤ 1 → rows ≠ [] → ∃ mu, ewMu alpha none rows = .ok mu ∧ ∀ i, mu i = ewMeanSpec (1 - alpha) rows i) ∧
    ((alpha ≤ 0 ∨ 1 < alpha) → ewMu alpha none rows = .error .alpha) := by
  constructor
  · intro h0 h1 hr
    refine ⟨_, by unfold ewMu lastRows; simp only; rw [if_neg (not_not.2 ⟨h0, h1⟩), if_neg hr], fun i => ?_⟩
    rw [ewmMean_spec alpha h1 rows hr i]
    rfl
  · intro h
    unfold ewMu
    simp only
    rw [if_pos]
    rintro ⟨a, b⟩
    rcases h with h | h <;> linarith

/-- **C82.** The weights of `EWMu` are positive (for `alpha < 1`) and sum to 1: if all returns of an asset are equal, that is its expected return. -/
theorem C82_ew_mu_constant (alpha c : ℝ) (h0 : 0 < alpha) (h1 : alpha ≤ 1) (rows : List (Fin n → ℝ)) (hr : rows ≠ []) (i : Fin n) (hc : ∀ r ∈ rows, r i = c)
    (mu : Fin n → ℝ) (h : ewMu alpha none rows = .ok mu) : mu i = c := by
  obtain ⟨mu', h', e⟩ := (C82_ew_mu alpha rows).1 h0 h1 hr
  rw [h] at h'
  cases h'
  rw [e]
  unfold ewMeanSpec
  have hp := decayed_one_pos (1 - alpha) (by linarith) rows.length (List.length_pos_iff.2 hr)
  rw [div_eq_iff hp.ne', ← decayed_smul]
  refine decayed_congr _ _ _ _ fun t ht => ?_
  rw [List.getD_eq_getElem _ _ ht, hc _ (List.getElem_mem ht), mul_one]

/-- **C82.** A new observation moves `EWMu` towards itself by the fraction `1 / Σ w`. -/
theorem C82_ew_mu_update (alpha : ℝ) (h0 : 0 < alpha) (h1 : alpha ≤ 1) (rows : List (Fin n → ℝ)) (hr : rows ≠ []) (r mu mu' : Fin n → ℝ)
    (h : ewMu alpha none rows = .ok mu) (h' : ewMu alpha none (rows ++ [r]) = .ok mu') (i : Fin n) :
    mu' i = mu i + (r i - mu i) / decayed (1 - alpha) (rows.length + 1) fun _ => 1 := by
  obtain ⟨m, hm, e⟩ := (C82_ew_mu alpha rows).1 h0 h1 hr
  obtain ⟨m', hm', e'⟩ := (C82_ew_mu alpha (rows ++ [r])).1 h0 h1 (by simp)
  rw [h] at hm; cases hm
  rw [h'] at hm'; cases hm'
  rw [e', e]
  have hq : 0 ≤ 1 - alpha := by linarith
  have hp := decayed_one_pos (1 - alpha) hq rows.length (List.length_pos_iff.2 hr)
  have hp' := decayed_one_pos (1 - alpha) hq (rows.length + 1) (by simp)
  unfold ewMeanSpec
  have hl : (rows ++ [r]).length = rows.length + 1 := by simp
  rw [hl]
  rw [decayed_succ _ _ (fun t => (rows ++ [r]).getD t 0 i), getD_snoc,
    decayed_congr _ rows.length (fun t => (rows ++ [r]).getD t 0 i) (fun t => rows.getD t 0 i) fun t ht => by rw [getD_snoc_lt _ _ _ _ ht]]
  rw [decayed_succ] at hp' ⊢
  field_simp
  ring

/-! ### covariances -/

/-- What `_set_covariance` stores. -/
theorem setMaybe_some {isPD : Matrix (Fin n) (Fin n) ℝ → Bool} {eigh : Matrix (Fin n) (Fin n) ℝ → (Fin n → ℝ) × Matrix (Fin n) (Fin n) ℝ} (hnum : Numerics isPD eigh)
    (nearest higham : Bool) (maxIter : Nat) (s : Matrix (Fin n) (Fin n) ℝ) (r : Option (Matrix (Fin n) (Fin n) ℝ)) (h : setMaybe isPD eigh nearest higham maxIter (some s) = .ok r) :
    ∃ c, r = some c ∧ (∀ i, 0 < c i i ∧ c i i = s i i) ∧ (nearest = true → PD c) ∧ (nearest = false → c = s) := by
  unfold setMaybe at h
  simp only at h
  cases hc : setCovariance isPD eigh nearest higham maxIter s with
  | error e => rw [hc] at h; cases h
  | ok c =>
    rw [hc] at h
    cases h
    exact ⟨c, rfl, C50_set_covariance hnum nearest higham maxIter s c hc⟩

/-- **C82.** `EmpiricalCovariance` estimates the sample covariance with `ddof`, which is symmetric and positive semidefinite; what it stores has the same
variances, is that matrix for `nearest=False` and positive definite for `nearest=True`. -/
theorem C82_empirical_covariance {isPD : Matrix (Fin n) (Fin n) ℝ → Bool} {eigh : Matrix (Fin n) (Fin n) ℝ → (Fin n → ℝ) × Matrix (Fin n) (Fin n) ℝ} (hnum : Numerics isPD eigh)
    (nearest higham : Bool) (maxIter : Nat) (ddof : Int) (rows : List (Fin n → ℝ)) (hT : ddof < rows.length) :
    PSD (covSpec ddof rows) ∧
    (n ≠ 1 → (∀ i, 1 / 10 ^ 15 ≤ covSpec ddof rows i i) → nearest = false →
      empiricalCovariance isPD eigh nearest higham maxIter ddof none rows = .ok (some (covSpec ddof rows))) ∧
    ∀ r, empiricalCovariance isPD eigh nearest higham maxIter ddof none rows = .ok r →
      ∃ c, r = some c ∧ (∀ i, 0 < c i i ∧ c i i = covSpec ddof rows i i) ∧ (nearest = true → PD c) ∧ (nearest = false → c = covSpec ddof rows) := by
  have hTr : (0 : ℝ) < (rows.length : ℝ) - ddof := by
    have : (ddof : ℝ) < ((rows.length : Int) : ℝ) := by exact_mod_cast hT
    push_cast at this
    linarith
  have e : npCov ddof rows = some (covSpec ddof rows) := by
    unfold npCov
    rw [if_neg (by omega)]
    congr 1
    funext i j
    unfold covSpec
    rw [list_sum_range 0, colMean_eq, colMean_eq]
  refine ⟨?_, fun hn hv hf => ?_, fun r hr => ?_⟩
  · have := weighted_psd rows.length (fun _ => 1) (fun _ => zero_le_one) (fun t i => rows.getD t 0 i - (∑ s ∈ range rows.length, rows.getD s 0 i) / rows.length)
      (1 / ((rows.length : ℝ) - ddof)) (by positivity)
    refine (congrArg PSD (a₁ := covSpec ddof rows) (funext fun i => funext fun j => ?_)).mpr this
    unfold covSpec
    rw [div_eq_mul_one_div, mul_comm]
    simp
  · unfold empiricalCovariance lastRows
    simp only
    rw [if_neg hn, e, hf]
    unfold setMaybe setCovariance
    simp only
    rw [if_neg (by push Not; exact hv)]
    rfl
  · unfold empiricalCovariance lastRows at hr
    simp only at hr
    by_cases hn : n = 1
    · rw [if_pos hn] at hr; cases hr
    · rw [if_neg hn, e] at hr
      exact setMaybe_some hnum nearest higham maxIter _ r hr

/-- **C82** (negated for one asset). With a single asset, `EmpiricalCovariance.fit` fails whatever the data. -/
theorem C82_one_asset (isPD : Matrix (Fin 1) (Fin 1) ℝ → Bool) (eigh : Matrix (Fin 1) (Fin 1) ℝ → (Fin 1 → ℝ) × Matrix (Fin 1) (Fin 1) ℝ)
    (nearest higham : Bool) (maxIter : Nat) (ddof : Int) (window : Option Int) (rows : List (Fin 1 → ℝ)) :
    empiricalCovariance isPD eigh nearest higham maxIter ddof window rows = .error .shape := rfl

theorem ewmCov_spec (alpha : ℝ) (ha : alpha ≤ 1) (rows : List (Fin n → ℝ)) (h : rows ≠ []) (i j : Fin n) :
    ewmCov alpha (rows.map fun r => (r i, r j)) =
      open Classical in
      if (decayed (1 - alpha) rows.length fun _ => 1) ^ 2 - decayed ((1 - alpha) ^ 2) rows.length (fun _ => 1) ≤ 0 then none
      else some (ewCovSpec (1 - alpha) rows i j) := by
  obtain ⟨r, rs, rfl⟩ := List.exists_cons_of_ne_nil h
  have hq : 0 ≤ 1 - alpha := by linarith
  obtain ⟨h1, h2, h3, h4, h5, h6⟩ := ewm_cov_fold (1 - alpha) hq (r i, r j) (rs.map fun r => (r i, r j))
  have hl : ((r i, r j) :: rs.map fun r => (r i, r j)).length = (r :: rs).length := by simp
  have hg : ∀ t < (r :: rs).length, ((r i, r j) :: rs.map fun r => (r i, r j)).getD t 0 = ((r :: rs).getD t 0 i, (r :: rs).getD t 0 j) := by
    intro t ht
    rw [← List.map_cons (f := fun r : Fin n → ℝ => (r i, r j)), List.getD_eq_getElem _ _ (by simpa using ht), List.getD_eq_getElem _ _ ht, List.getElem_map]
  rw [hl] at h1 h2 h3 h4 h5 h6
  rw [decayed_congr _ _ _ (fun t => (r :: rs).getD t 0 i) fun t ht => by rw [hg t ht]] at h4
  rw [decayed_congr _ _ _ (fun t => (r :: rs).getD t 0 j) fun t ht => by rw [hg t ht]] at h5
  rw [decayed_congr _ _ _ (fun t => (r :: rs).getD t 0 i * (r :: rs).getD t 0 j) fun t ht => by rw [hg t ht]] at h6
  rw [List.map_cons, ewmCov]
  simp only at h1 h2 h3 h4 h5 h6 ⊢
  generalize (rs.map fun r => (r i, r j)).foldl (ewmCovStep (1 - alpha)) ⟨r i, r j, 0, 1, 1, 1⟩ = s at *
  have hp := decayed_one_pos (1 - alpha) hq (r :: rs).length (by simp)
  rw [h2, h3, ← sq]
  by_cases hz : (decayed (1 - alpha) (r :: rs).length fun _ => 1) ^ 2 - decayed ((1 - alpha) ^ 2) (r :: rs).length (fun _ => 1) ≤ 0
  · rw [if_pos hz, if_pos hz]
  · rw [if_neg hz, if_neg hz]
    congr 1
    unfold ewCovSpec
    rw [mul_comm]
    congr 1
    have hmx : ewMeanSpec (1 - alpha) (r :: rs) i = s.meanX := by
      unfold ewMeanSpec; rw [div_eq_iff hp.ne', ← h4, h1, mul_comm]
    have hmy : ewMeanSpec (1 - alpha) (r :: rs) j = s.meanY := by
      unfold ewMeanSpec; rw [div_eq_iff hp.ne', ← h5, h1, mul_comm]
    rw [eq_div_iff hp.ne', hmx, hmy]
    have hexp : (fun t => ((r :: rs).getD t 0 i - s.meanX) * ((r :: rs).getD t 0 j - s.meanY)) =
        fun t => (r :: rs).getD t 0 i * (r :: rs).getD t 0 j + ((-s.meanY) * (r :: rs).getD t 0 i + ((-s.meanX) * (r :: rs).getD t 0 j + s.meanX * s.meanY * 1)) := by
      funext t; ring
    rw [hexp, decayed_add, decayed_add, decayed_add, decayed_smul, decayed_smul, decayed_smul, ← h1, ← h4, ← h5, mul_comm, h6]
    ring

/-- **C82.** For `0 < alpha < 1` and at least two observations, `EWCovariance` estimates the exponentially weighted covariance corrected for its bias, which is
symmetric and positive semidefinite; what it stores has the same variances, is that matrix for `nearest=False` and positive definite for `nearest=True`. -/
theorem C82_ew_covariance {isPD : Matrix (Fin n) (Fin n) ℝ → Bool} {eigh : Matrix (Fin n) (Fin n) ℝ → (Fin n → ℝ) × Matrix (Fin n) (Fin n) ℝ} (hnum : Numerics isPD eigh)
    (nearest higham : Bool) (maxIter : Nat) (alpha : ℝ) (h0 : 0 < alpha) (h1 : alpha < 1) (rows : List (Fin n → ℝ)) (hT : 2 ≤ rows.length) :
    PSD (ewCovSpec (1 - alpha) rows) ∧
    ((∀ i, 1 / 10 ^ 15 ≤ ewCovSpec (1 - alpha) rows i i) → nearest = false →
      ewCovariance isPD eigh nearest higham maxIter alpha none rows = .ok (some (ewCovSpec (1 - alpha) rows))) ∧
    ∀ r, ewCovariance isPD eigh nearest higham maxIter alpha none rows = .ok r →
      ∃ c, r = some c ∧ (∀ i, 0 < c i i ∧ c i i = ewCovSpec (1 - alpha) rows i i) ∧ (nearest = true → PD c) ∧ (nearest = false → c = ewCovSpec (1 - alpha) rows) := by
  classical
  have hr : rows ≠ [] := by rintro rfl; simp at hT
  have hq : 0 < 1 - alpha := by linarith
  have hg := decayed_gap_pos (1 - alpha) hq rows.length hT
  have hp := decayed_one_pos (1 - alpha) hq.le rows.length (by omega)
  have hs : ∀ i j, ewmCov alpha (rows.map fun r => (r i, r j)) = some (ewCovSpec (1 - alpha) rows i j) := by
    intro i j
    rw [ewmCov_spec alpha h1.le rows hr i j, if_neg (not_le.2 hg)]
  have e : ewCovariance isPD eigh nearest higham maxIter alpha none rows = setMaybe isPD eigh nearest higham maxIter (some (ewCovSpec (1 - alpha) rows)) := by
    unfold ewCovariance lastRows
    simp only
    rw [if_neg (not_not.2 ⟨h0, h1.le⟩), if_neg hr, if_pos (fun i j => by rw [hs]; rfl)]
    congr 2
    funext i j
    rw [hs]
    rfl
  refine ⟨?_, fun hv hf => ?_, fun r h => setMaybe_some hnum nearest higham maxIter _ r (e ▸ h)⟩
  · have := weighted_psd rows.length (fun t => (1 - alpha) ^ (rows.length - 1 - t)) (fun t => by positivity)
      (fun t i => rows.getD t 0 i - ewMeanSpec (1 - alpha) rows i)
      (((decayed (1 - alpha) rows.length fun _ => 1) ^ 2 / ((decayed (1 - alpha) rows.length fun _ => 1) ^ 2 - decayed ((1 - alpha) ^ 2) rows.length fun _ => 1)) /
        (decayed (1 - alpha) rows.length fun _ => 1)) (by positivity)
    refine (congrArg PSD (a₁ := ewCovSpec (1 - alpha) rows) (funext fun i => funext fun j => ?_)).mpr this
    unfold ewCovSpec
    conv_lhs => arg 1; arg 1; unfold decayed
    ring
  · rw [e, hf]
    unfold setMaybe setCovariance
    simp only
    rw [if_neg (by push Not; exact hv)]
    rfl

/-- **C82** (negated at the end of the documented range). `alpha = 1` is documented and accepted by `EWMu`, but leaves `EWCovariance` without an estimate:
`fit` fails, or stores NaN with `nearest=False`. The same for a single observation with any `alpha`. -/
theorem C82_ew_alpha_one (isPD : Matrix (Fin n) (Fin n) ℝ → Bool) (eigh : Matrix (Fin n) (Fin n) ℝ → (Fin n → ℝ) × Matrix (Fin n) (Fin n) ℝ) (hn : 0 < n)
    (higham : Bool) (maxIter : Nat) (alpha : ℝ) (h0 : 0 < alpha) (h1 : alpha ≤ 1) (rows : List (Fin n → ℝ)) (hr : rows ≠ []) (h : alpha = 1 ∨ rows.length = 1) :
    ewCovariance isPD eigh true higham maxIter alpha none rows = .error .notSymmetric ∧
    ewCovariance isPD eigh false higham maxIter alpha none rows = .ok none ∧
    (alpha = 1 → ∃ mu, ewMu alpha none rows = .ok mu ∧ ∀ i, mu i = rows.getD (rows.length - 1) 0 i) := by
  classical
  have hg : (decayed (1 - alpha) rows.length fun _ => 1) ^ 2 - decayed ((1 - alpha) ^ 2) rows.length (fun _ => 1) ≤ 0 := by
    obtain ⟨T, hT⟩ : ∃ T, rows.length = T + 1 := ⟨rows.length - 1, by have := List.length_pos_iff.2 hr; omega⟩
    rcases h with rfl | h
    · rw [hT, sub_self]; exact (decayed_gap_zero T).le
    · rw [h]; exact (decayed_gap_single _).le
  have e : ∀ nearest, ewCovariance isPD eigh nearest higham maxIter alpha none rows = setMaybe isPD eigh nearest higham maxIter none := by
    intro nearest
    unfold ewCovariance lastRows
    simp only
    rw [if_neg (not_not.2 ⟨h0, h1⟩), if_neg hr, if_neg]
    intro hall
    have := hall ⟨0, hn⟩ ⟨0, hn⟩
    rw [ewmCov_spec alpha h1 rows hr, if_pos hg] at this
    cases this
  refine ⟨by rw [e]; rfl, by rw [e]; rfl, ?_⟩
  rintro rfl
  obtain ⟨mu, hm, hmu⟩ := (C82_ew_mu 1 rows).1 one_pos le_rfl hr
  refine ⟨mu, hm, fun i => ?_⟩
  rw [hmu]
  obtain ⟨T, hT⟩ : ∃ T, rows.length = T + 1 := ⟨rows.length - 1, by have := List.length_pos_iff.2 hr; omega⟩
  unfold ewMeanSpec
  rw [hT, decayed_succ, decayed_succ]
  simp

/-- Three observations of two assets. -/
noncomputable def exRows : List (Fin 2 → ℝ) := [fun i => if i = 0 then 1 else 2, fun i => if i = 0 then 3 else 0, fun i => if i = 0 then 2 else 1]

/-- The claims are not vacuous: `EWMu` with `alpha = 1/2` gives `(1 · 1/4 + 3 · 1/2 + 2) / (7/4) = 15/7` for the first asset. -/
example : ∃ mu, ewMu (1 / 2) none exRows = .ok mu ∧ mu 0 = 15 / 7 := by
  obtain ⟨mu, h, e⟩ := (C82_ew_mu (1 / 2) exRows).1 (by norm_num) (by norm_num) (by simp [exRows])
  refine ⟨mu, h, ?_⟩
  rw [e]
  simp [ewMeanSpec, decayed, exRows, sum_range_succ]
  norm_num

example : ∃ (isPD : Matrix (Fin 2) (Fin 2) ℝ → Bool) (eigh : Matrix (Fin 2) (Fin 2) ℝ → (Fin 2 → ℝ) × Matrix (Fin 2) (Fin 2) ℝ) (c : Matrix (Fin 2) (Fin 2) ℝ),
    empiricalCovariance isPD eigh false false 100 1 none exRows = .ok (some c) ∧ c 0 0 = 1 ∧ c 0 1 = -1 := by
  obtain ⟨isPD, eigh, hn⟩ := numerics_exist (n := 2)
  have hv : ∀ i, covSpec 1 exRows i i = 1 := by
    intro i
    match i with
    | 0 => simp [covSpec, exRows, sum_range_succ]; norm_num
    | 1 => simp [covSpec, exRows, sum_range_succ]; norm_num
  refine ⟨isPD, eigh, _, (C82_empirical_covariance hn false false 100 1 exRows (by simp [exRows])).2.1 (by decide) (fun i => by rw [hv]; norm_num) rfl, hv 0, ?_⟩
  simp [covSpec, exRows, sum_range_succ]
  norm_num

end Skfolio.Moments
