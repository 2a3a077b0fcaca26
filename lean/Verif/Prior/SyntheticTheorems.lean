import Verif.Prior.SyntheticModel
import Verif.Moments.WindowTheorems
import Mathlib.Data.Fin.VecNotation
import Mathlib.Tactic.FinCases
import Mathlib.Tactic.IntervalCases

/-! Claim C93: the prior of `SyntheticData` is that of the sample, with a small noise on the constant columns. -/
set_option autoImplicit false

namespace Skfolio.Prior

open Matrix Finset Skfolio.Moments

variable {n : Nat} {isPD : Matrix (Fin n) (Fin n) ℝ → Bool} {eigh : Matrix (Fin n) (Fin n) ℝ → (Fin n → ℝ) × Matrix (Fin n) (Fin n) ℝ}

/-! ### specification -/

/-- The mean of `T` numbers. -/
noncomputable def avg (T : Nat) (f : Nat → ℝ) : ℝ := (∑ t ∈ range T, f t) / T

/-- The sample covariance of `T` pairs of numbers. -/
noncomputable def scov (T : Nat) (f g : Nat → ℝ) : ℝ := (∑ t ∈ range T, (f t - avg T f) * (g t - avg T g)) / (T - 1)

/-- Column `i` of a table. -/
def column (rows : List (Fin n → ℝ)) (i : Fin n) (t : Nat) : ℝ := rows.getD t 0 i

/-- The column has a variance below 1e-14. -/
def Quiet (rows : List (Fin n → ℝ)) (i : Fin n) : Prop :=
  (∑ t ∈ range rows.length, (column rows i t - avg rows.length (column rows i)) ^ 2) / rows.length < 1 / 10 ^ 14

/-! ### lemmas -/

theorem covSpec_eq (rows : List (Fin n → ℝ)) (i j : Fin n) : covSpec 1 rows i j = scov rows.length (column rows i) (column rows j) := by
  unfold covSpec scov avg column
  simp

theorem colVar_lt (rows : List (Fin n → ℝ)) (i : Fin n) : colVar rows i < 1 / 10 ^ 14 ↔ Quiet rows i := by
  unfold colVar Quiet column avg
  rw [list_sum_range 0, colMean_eq]

theorem addNoise_length (noise : Nat → ℝ) (rows : List (Fin n → ℝ)) : (addNoise noise rows).length = rows.length := by
  classical
  unfold addNoise
  split <;> simp

theorem addNoise_loud (noise : Nat → ℝ) (rows : List (Fin n → ℝ)) (i : Fin n) (h : ¬ Quiet rows i) (t : Nat) : column (addNoise noise rows) i t = column rows i t := by
  classical
  rw [← colVar_lt] at h
  unfold addNoise column
  split
  · by_cases ht : t < rows.length
    · rw [List.getD_eq_getElem _ _ (by simpa using ht), List.getD_eq_getElem _ _ ht, List.getElem_mapIdx]
      exact if_neg h
    · rw [List.getD_eq_default _ _ (by simpa using ht), List.getD_eq_default _ _ (by simpa using ht)]
  · rfl

theorem addNoise_quiet (noise : Nat → ℝ) (rows : List (Fin n → ℝ)) (i : Fin n) (h : Quiet rows i) (t : Nat) (ht : t < rows.length) :
    column (addNoise noise rows) i t = column rows i t + 1 / 10 ^ 6 * noise t := by
  classical
  rw [← colVar_lt] at h
  unfold addNoise column
  rw [if_pos ⟨i, h⟩, List.getD_eq_getElem _ _ (by simpa using ht), List.getD_eq_getElem _ _ ht, List.getElem_mapIdx]
  exact if_pos h

theorem avg_congr (T : Nat) (f g : Nat → ℝ) (h : ∀ t < T, f t = g t) : avg T f = avg T g := by
  unfold avg
  rw [sum_congr rfl fun t ht => h t (mem_range.1 ht)]

theorem scov_congr (T : Nat) (f f' g g' : Nat → ℝ) (h : ∀ t < T, f t = f' t) (h' : ∀ t < T, g t = g' t) : scov T f g = scov T f' g' := by
  unfold scov
  rw [avg_congr T f f' h, avg_congr T g g' h', sum_congr rfl fun t ht => by rw [h t (mem_range.1 ht), h' t (mem_range.1 ht)]]

theorem avg_affine (T : Nat) (hT : 0 < T) (c a : ℝ) (f : Nat → ℝ) : avg T (fun t => c + a * f t) = c + a * avg T f := by
  have : (T : ℝ) ≠ 0 := by exact_mod_cast hT.ne'
  unfold avg
  rw [sum_add_distrib, ← mul_sum]
  simp only [sum_const, card_range, nsmul_eq_mul]
  field_simp

theorem scov_affine (T : Nat) (hT : 0 < T) (c a : ℝ) (f g : Nat → ℝ) : scov T (fun t => c + a * f t) g = a * scov T f g := by
  unfold scov
  rw [avg_affine T hT, ← mul_div_assoc, mul_sum]
  congr 1
  exact sum_congr rfl fun t _ => by ring

theorem scov_comm (T : Nat) (f g : Nat → ℝ) : scov T f g = scov T g f := by
  unfold scov
  congr 1
  exact sum_congr rfl fun t _ => by ring

theorem covSpec_symm (rows : List (Fin n → ℝ)) (i j : Fin n) : covSpec 1 rows i j = covSpec 1 rows j i := by
  rw [covSpec_eq, covSpec_eq, scov_comm]

theorem npCov_eq (rows : List (Fin n → ℝ)) (hT : 2 ≤ rows.length) : npCov 1 rows = some (covSpec 1 rows) := by
  unfold npCov
  rw [if_neg (by omega)]
  congr 1
  funext i j
  unfold covSpec
  rw [list_sum_range 0, colMean_eq, colMean_eq]

theorem syntheticFit_ok (d : Distribution n) (nSamples : Nat) (noise : Nat → ℝ) (x : List (Fin n → ℝ)) (p : SyntheticPrior n)
    (h : syntheticFit isPD eigh d nSamples noise x = .ok p) :
    ∃ rows, d.fitSample x nSamples = some rows ∧ defaultPrior isPD eigh (addNoise noise rows) = .ok p := by
  unfold syntheticFit at h
  cases hc : checkSampleMethod d with
  | error e => rw [hc] at h; cases h
  | ok u =>
    rw [hc] at h
    simp only at h
    cases hr : d.fitSample x nSamples with
    | none => rw [hr] at h; cases h
    | some rows => rw [hr] at h; exact ⟨rows, rfl, h⟩

theorem defaultPrior_ok (rows : List (Fin n → ℝ)) (p : SyntheticPrior n) (h : defaultPrior isPD eigh rows = .ok p) :
    rows ≠ [] ∧ p.returns = rows ∧ (∀ i, p.mu i = avg rows.length (column rows i)) ∧ empiricalCovariance isPD eigh true false 100 1 none rows = .ok p.covariance := by
  unfold defaultPrior at h
  cases hm : empiricalMu none rows with
  | none => rw [hm] at h; cases h
  | some mu =>
    rw [hm] at h
    simp only at h
    cases hc : empiricalCovariance isPD eigh true false 100 1 none rows with
    | error e => rw [hc] at h; cases h
    | ok cov =>
      rw [hc] at h
      cases h
      have hr : rows ≠ [] := fun e => by rw [(C82_empirical_mu rows).2 e] at hm; cases hm
      rw [(C82_empirical_mu rows).1 hr] at hm
      cases hm
      exact ⟨hr, rfl, fun i => rfl, rfl⟩

/-! ### the claim -/

/-- **C93.** The returns of the prior are those the fitted distribution has sampled, one row for each; a column is unchanged unless its variance is below 1e-14, and then 1e-6 times the
noise is added. -/
theorem C93_returns (d : Distribution n) (nSamples : Nat) (noise : Nat → ℝ) (x : List (Fin n → ℝ)) (p : SyntheticPrior n)
    (h : syntheticFit isPD eigh d nSamples noise x = .ok p) :
    ∃ rows, d.fitSample x nSamples = some rows ∧ p.returns.length = rows.length ∧
      ∀ i, (¬ Quiet rows i → ∀ t, column p.returns i t = column rows i t) ∧
        (Quiet rows i → ∀ t < rows.length, column p.returns i t = column rows i t + 1 / 10 ^ 6 * noise t) := by
  obtain ⟨rows, h1, h2⟩ := syntheticFit_ok d nSamples noise x p h
  obtain ⟨-, e, -, -⟩ := defaultPrior_ok _ p h2
  rw [e]
  exact ⟨rows, h1, addNoise_length noise rows, fun i => ⟨addNoise_loud noise rows i, addNoise_quiet noise rows i⟩⟩

/-- **C93.** The moments of the prior are the sample moments of its returns: the means; the variances; and the covariances if the sample covariance is positive definite, otherwise
a positive definite covariance with the same variances. -/
theorem C93_moments (hnum : Numerics isPD eigh) (d : Distribution n) (nSamples : Nat) (noise : Nat → ℝ) (x : List (Fin n → ℝ)) (p : SyntheticPrior n)
    (h : syntheticFit isPD eigh d nSamples noise x = .ok p) :
    2 ≤ p.returns.length ∧ (∀ i, p.mu i = avg p.returns.length (column p.returns i)) ∧
    ∃ c, p.covariance = some c ∧ PD c ∧ (∀ i, c i i = scov p.returns.length (column p.returns i) (column p.returns i)) ∧
      (PD (fun i j => scov p.returns.length (column p.returns i) (column p.returns j)) → ∀ i j, c i j = scov p.returns.length (column p.returns i) (column p.returns j)) := by
  obtain ⟨rows, -, h2⟩ := syntheticFit_ok d nSamples noise x p h
  obtain ⟨hne, e, hmu, hcov⟩ := defaultPrior_ok _ p h2
  rw [← e] at hne hmu hcov
  have hn : n ≠ 1 := fun hn => by unfold empiricalCovariance at hcov; rw [if_pos hn] at hcov; cases hcov
  have hT : 2 ≤ p.returns.length := by
    by_contra hT
    unfold empiricalCovariance lastRows npCov at hcov
    simp only at hcov
    rw [if_neg hn, if_pos (by omega)] at hcov
    cases hcov
  refine ⟨hT, hmu, ?_⟩
  obtain ⟨c, h3, h4, h5, -⟩ := (C82_empirical_covariance hnum true false 100 1 p.returns (by omega)).2.2 _ hcov
  refine ⟨c, h3, h5 rfl, fun i => by rw [(h4 i).2, covSpec_eq], fun hpd i j => ?_⟩
  have e2 : (fun i j => scov p.returns.length (column p.returns i) (column p.returns j)) = covSpec 1 p.returns := funext fun i => funext fun j => (covSpec_eq p.returns i j).symm
  rw [e2] at hpd
  have hpos : ∀ i, 0 < covSpec 1 p.returns i i := fun i => by rw [← (h4 i).2]; exact (h4 i).1
  unfold empiricalCovariance lastRows at hcov
  simp only at hcov
  rw [if_neg hn, npCov_eq _ hT, h3] at hcov
  unfold setMaybe setCovariance at hcov
  simp only at hcov
  split at hcov
  · cases hcov
  · rename_i r hr
    split at hr
    · cases hr
    · simp only [if_true] at hr
      rw [(C50_nearest hnum false 100 (covSpec 1 p.returns) hpos).2.1 hpd] at hr
      cases hr
      cases hcov
      rw [covSpec_eq]

/-- **C93.** `fit` succeeds if the estimator has a method `sample` with a parameter `n_samples`, samples at least two observations of at least two assets, and the variances are at least 1e-15
after the noise has been added. -/
theorem C93_fits (hnum : Numerics isPD eigh) (hn : n ≠ 1) (d : Distribution n) (nSamples : Nat) (noise : Nat → ℝ) (x : List (Fin n → ℝ)) (ps : List String)
    (hs : d.sampleParameters = some ps) (hp : "n_samples" ∈ ps) (rows : List (Fin n → ℝ)) (hr : d.fitSample x nSamples = some rows) (hT : 2 ≤ rows.length)
    (hv : ∀ i, 1 / 10 ^ 15 ≤ scov rows.length (column (addNoise noise rows) i) (column (addNoise noise rows) i)) :
    ∃ p, syntheticFit isPD eigh d nSamples noise x = .ok p := by
  have hlen := addNoise_length noise rows
  have hT' : 2 ≤ (addNoise noise rows).length := by omega
  have hv' : ∀ i, 1 / 10 ^ 15 ≤ covSpec 1 (addNoise noise rows) i i := fun i => by rw [covSpec_eq, hlen]; exact hv i
  obtain ⟨c, hc⟩ := (C50_nearest hnum false 100 (covSpec 1 (addNoise noise rows)) fun i => lt_of_lt_of_le (by positivity) (hv' i)).2.2.2 (covSpec_symm _) rfl
  refine ⟨⟨fun i => (∑ t ∈ range (addNoise noise rows).length, (addNoise noise rows).getD t 0 i) / (addNoise noise rows).length, some c, addNoise noise rows⟩, ?_⟩
  unfold syntheticFit checkSampleMethod
  rw [hs]
  simp only [if_pos hp, hr]
  unfold defaultPrior
  rw [(C82_empirical_mu _).1 (fun e => by rw [e] at hT'; simp at hT')]
  unfold empiricalCovariance lastRows
  simp only
  rw [if_neg hn, npCov_eq _ hT']
  unfold setMaybe setCovariance
  simp only
  rw [if_neg (by push Not; exact hv')]
  simp only [if_true, hc]

/-- **C93.** Without a method `sample`, or with one that has no parameter named `n_samples`, `fit` raises. -/
theorem C93_refused (d : Distribution n) (nSamples : Nat) (noise : Nat → ℝ) (x : List (Fin n → ℝ)) :
    (d.sampleParameters = none → syntheticFit isPD eigh d nSamples noise x = .error .noSample) ∧
    (∀ ps, d.sampleParameters = some ps → "n_samples" ∉ ps → syntheticFit isPD eigh d nSamples noise x = .error .noSampleSize) := by
  constructor
  · intro h
    unfold syntheticFit checkSampleMethod
    rw [h]
  · intro ps h hp
    unfold syntheticFit checkSampleMethod
    rw [h]
    simp only [if_neg hp]

theorem constant_quiet (rows : List (Fin n → ℝ)) (i : Fin n) (c : ℝ) (hT : 2 ≤ rows.length) (hc : ∀ t < rows.length, column rows i t = c) : Quiet rows i := by
  have hp : (rows.length : ℝ) ≠ 0 := by exact_mod_cast (by omega : rows.length ≠ 0)
  have e : avg rows.length (column rows i) = c := by
    unfold avg
    rw [sum_congr rfl fun t ht => hc t (mem_range.1 ht)]
    simp only [sum_const, card_range, nsmul_eq_mul]
    field_simp
  unfold Quiet
  rw [e, sum_congr rfl fun t ht => by rw [hc t (mem_range.1 ht)]]
  simp

/-- **C93.** A column that is constant in the sample, as those of conditioned assets are, has in the prior the mean of that constant plus 1e-6 times the mean of the noise, and 1e-12 times the
variance of the noise; its sample covariance with an unchanged column is 1e-6 times that of the noise. -/
theorem C93_constant (hnum : Numerics isPD eigh) (d : Distribution n) (nSamples : Nat) (noise : Nat → ℝ) (x : List (Fin n → ℝ)) (p : SyntheticPrior n)
    (h : syntheticFit isPD eigh d nSamples noise x = .ok p) (rows : List (Fin n → ℝ)) (hr : d.fitSample x nSamples = some rows) (i : Fin n) (c : ℝ)
    (hc : ∀ t < rows.length, column rows i t = c) :
    p.mu i = c + 1 / 10 ^ 6 * avg rows.length noise ∧
    (∃ m, p.covariance = some m ∧ m i i = 1 / 10 ^ 12 * scov rows.length noise noise) ∧
    ∀ j, ¬ Quiet rows j → scov rows.length (column p.returns i) (column p.returns j) = 1 / 10 ^ 6 * scov rows.length noise (column rows j) := by
  obtain ⟨rows', h1, hl, h2⟩ := C93_returns d nSamples noise x p h
  rw [hr] at h1
  cases h1
  obtain ⟨hT, hmu, m, hm, -, hd, -⟩ := C93_moments hnum d nSamples noise x p h
  rw [hl] at hT hmu hd
  have hq := constant_quiet rows i c hT hc
  have e : ∀ t < rows.length, column p.returns i t = c + 1 / 10 ^ 6 * noise t := fun t ht => by rw [(h2 i).2 hq t ht, hc t ht]
  have hT0 : 0 < rows.length := by omega
  refine ⟨?_, ⟨m, hm, ?_⟩, fun j hj => ?_⟩
  · rw [hmu, avg_congr _ _ _ e, avg_affine _ hT0]
  · rw [hd, scov_congr _ _ _ _ _ e e, scov_affine _ hT0, scov_comm, scov_affine _ hT0]
    ring
  · rw [scov_congr _ _ _ _ _ e fun t _ => (h2 j).1 hj t, scov_affine _ hT0]

/-- The noise is needed: the empirical prior of a sample with a constant column raises. -/
theorem constant_raises (hn : n ≠ 1) (rows : List (Fin n → ℝ)) (hT : 2 ≤ rows.length) (i : Fin n) (c : ℝ) (hc : ∀ t < rows.length, column rows i t = c) :
    defaultPrior isPD eigh rows = .error (.moment (.moment .nonPositiveVariance)) := by
  classical
  have hv : covSpec 1 rows i i < 1 / 10 ^ 15 := by
    rw [covSpec_eq, scov_congr _ _ (fun t => c + 0 * (0 : ℝ)) _ _ (fun t ht => by rw [hc t ht]; ring) (fun t _ => rfl), scov_affine _ (by omega) c 0 fun _ => 0, zero_mul]
    positivity
  unfold defaultPrior
  rw [(C82_empirical_mu _).1 (fun e => by rw [e] at hT; simp at hT)]
  unfold empiricalCovariance lastRows
  simp only
  rw [if_neg hn, npCov_eq _ hT]
  unfold setMaybe setCovariance
  simp only
  rw [if_pos ⟨i, hv⟩]

/-- Finding (C93): two constant columns get the same noise, so they are perfectly correlated in the prior: their returns differ by a constant, and the sample covariance is singular, whatever the noise. -/
theorem C93_same_noise (d : Distribution n) (nSamples : Nat) (noise : Nat → ℝ) (x : List (Fin n → ℝ)) (p : SyntheticPrior n)
    (h : syntheticFit isPD eigh d nSamples noise x = .ok p) (rows : List (Fin n → ℝ)) (hr : d.fitSample x nSamples = some rows) (i j : Fin n) (hij : i ≠ j) (a b : ℝ)
    (ha : ∀ t < rows.length, column rows i t = a) (hb : ∀ t < rows.length, column rows j t = b) (hT : 2 ≤ rows.length) :
    (∀ t < rows.length, column p.returns i t - column p.returns j t = a - b) ∧
    ¬ PD (fun i j => scov p.returns.length (column p.returns i) (column p.returns j)) := by
  obtain ⟨rows', h1, hl, h2⟩ := C93_returns d nSamples noise x p h
  rw [hr] at h1
  cases h1
  have e1 : ∀ t < rows.length, column p.returns i t = a + 1 / 10 ^ 6 * noise t := fun t ht => by rw [(h2 i).2 (constant_quiet rows i a hT ha) t ht, ha t ht]
  have e2 : ∀ t < rows.length, column p.returns j t = b + 1 / 10 ^ 6 * noise t := fun t ht => by rw [(h2 j).2 (constant_quiet rows j b hT hb) t ht, hb t ht]
  refine ⟨fun t ht => by rw [e1 t ht, e2 t ht]; ring, fun hpd => ?_⟩
  have hT0 : 0 < rows.length := by omega
  have hrow : ∀ k, scov p.returns.length (column p.returns i) (column p.returns k) = scov p.returns.length (column p.returns j) (column p.returns k) := fun k => by
    rw [hl, scov_congr _ _ _ _ _ e1 fun t _ => rfl, scov_congr _ (column p.returns j) _ _ _ e2 fun t _ => rfl, scov_affine _ hT0, scov_affine _ hT0]
  have hz : ∀ k, ∑ l, (if l = i then (1 : ℝ) else if l = j then -1 else 0) * scov p.returns.length (column p.returns l) (column p.returns k) = 0 := by
    intro k
    rw [sum_eq_add i j hij]
    · rw [if_pos rfl, if_neg hij.symm, if_pos rfl, hrow k]; ring
    · intro l _ hl2
      rw [if_neg hl2.1, if_neg hl2.2, zero_mul]
    · intro hc; exact absurd (mem_univ _) hc
    · intro hc; exact absurd (mem_univ _) hc
  have := hpd.2 (fun k => if k = i then 1 else if k = j then -1 else 0) (fun hc => by
    have := congrFun hc i
    simp at this)
  rw [sum_comm] at this
  simp only [← sum_mul] at this
  rw [sum_eq_zero fun k _ => by rw [hz k, zero_mul]] at this
  exact lt_irrefl _ this

/-! ### an example -/

/-- A distribution that samples two observations of two assets, the first asset being conditioned on a value. -/
def conditioned (a b b' : ℝ) : Distribution 2 := ⟨some ["n_samples", "conditioning"], fun _ _ => some [![a, b], ![a, b']]⟩

theorem conditioned_fits {isPD : Matrix (Fin 2) (Fin 2) ℝ → Bool} {eigh : Matrix (Fin 2) (Fin 2) ℝ → (Fin 2 → ℝ) × Matrix (Fin 2) (Fin 2) ℝ} (hnum : Numerics isPD eigh) (a b b' : ℝ)
    (h : b = b' ∨ 1 / 10 ^ 6 ≤ |b - b'|) (x : List (Fin 2 → ℝ)) : ∃ p, syntheticFit isPD eigh (conditioned a b b') 2 (fun t => if t = 0 then 1 else -1) x = .ok p := by
  have c0 : ∀ t < 2, column [![a, b], ![a, b']] 0 t = a := fun t ht => by interval_cases t <;> rfl
  refine C93_fits hnum (by decide) _ 2 _ x _ rfl (by simp) [![a, b], ![a, b']] rfl (le_refl _) fun i => ?_
  have hq : Quiet [![a, b], ![a, b']] 0 := constant_quiet _ 0 a (le_refl _) c0
  have e : ∀ j, Quiet [![a, b], ![a, b']] j → scov 2 (column (addNoise (fun t => if t = 0 then 1 else -1) [![a, b], ![a, b']]) j)
      (column (addNoise (fun t => if t = 0 then 1 else -1) [![a, b], ![a, b']]) j) = ((column [![a, b], ![a, b']] j 0 - column [![a, b], ![a, b']] j 1) + 2 / 10 ^ 6) ^ 2 / 2 := fun j hj => by
    rw [scov_congr 2 _ _ _ _ (addNoise_quiet _ _ j hj) (addNoise_quiet _ _ j hj)]
    unfold scov avg
    simp only [sum_range_succ, sum_range_zero, if_true]
    norm_num
    ring
  fin_cases i
  · have := e 0 hq
    simp only [List.length_cons, List.length_nil, Nat.zero_add, Nat.reduceAdd, Fin.zero_eta]
    rw [this, c0 0 (by omega), c0 1 (by omega)]
    norm_num
  · simp only [List.length_cons, List.length_nil, Nat.zero_add, Nat.reduceAdd, Fin.mk_one]
    by_cases hb : Quiet [![a, b], ![a, b']] 1
    · rw [e 1 hb]
      rcases h with h | h
      · have : column [![a, b], ![a, b']] 1 0 - column [![a, b], ![a, b']] 1 1 = 0 := sub_eq_zero.2 h
        rw [this]
        norm_num
      · exfalso
        unfold Quiet avg at hb
        simp only [List.length_cons, List.length_nil, sum_range_succ, sum_range_zero] at hb
        have e0 : column [![a, b], ![a, b']] 1 0 = b := rfl
        have e1 : column [![a, b], ![a, b']] 1 1 = b' := rfl
        rw [e0, e1] at hb
        have h3 : (1 / 10 ^ 6) ^ 2 ≤ (b - b') ^ 2 := by rw [← sq_abs (b - b')]; exact pow_le_pow_left₀ (by positivity) h 2
        norm_num at hb h3
        nlinarith
    · rw [scov_congr 2 _ _ _ _ (fun t _ => addNoise_loud _ _ 1 hb t) fun t _ => addNoise_loud _ _ 1 hb t]
      unfold Quiet avg at hb
      unfold scov avg
      simp only [List.length_cons, List.length_nil, sum_range_succ, sum_range_zero, not_lt] at hb ⊢
      norm_num at hb ⊢
      nlinarith

/-- The first asset is conditioned on a loss of 20 %, the second is free: the hypotheses of `C93_returns`, `C93_moments` and `C93_constant` hold. -/
example : ∃ isPD eigh p, Numerics (n := 2) isPD eigh ∧ syntheticFit isPD eigh (conditioned (-0.2) 0.01 0.03) 2 (fun t => if t = 0 then 1 else -1) [] = .ok p ∧
    ∀ t < 2, column [![(-0.2 : ℝ), 0.01], ![-0.2, 0.03]] 0 t = -0.2 := by
  obtain ⟨isPD, eigh, hnum⟩ := numerics_exist (n := 2)
  obtain ⟨p, hp⟩ := conditioned_fits hnum (-0.2) 0.01 0.03 (Or.inr (by rw [show (0.01 : ℝ) - 0.03 = -0.02 by norm_num, abs_neg, abs_of_pos] <;> norm_num)) []
  exact ⟨isPD, eigh, p, hnum, hp, fun t ht => by interval_cases t <;> rfl⟩

/-- Both assets are conditioned: the prior makes them perfectly correlated. -/
example : ∃ isPD eigh p, Numerics (n := 2) isPD eigh ∧ syntheticFit isPD eigh (conditioned (-0.2) 0.01 0.01) 2 (fun t => if t = 0 then 1 else -1) [] = .ok p ∧
    ¬ PD (fun i j => scov p.returns.length (column p.returns i) (column p.returns j)) := by
  obtain ⟨isPD, eigh, hnum⟩ := numerics_exist (n := 2)
  obtain ⟨p, hp⟩ := conditioned_fits hnum (-0.2) 0.01 0.01 (Or.inl rfl) []
  exact ⟨isPD, eigh, p, hnum, hp, (C93_same_noise _ _ _ _ p hp [![(-0.2 : ℝ), 0.01], ![-0.2, 0.01]] rfl 0 1 (by decide) (-0.2) 0.01
    (fun t ht => by (replace ht : t < 2 := ht; interval_cases t <;> rfl)) (fun t ht => by (replace ht : t < 2 := ht; interval_cases t <;> rfl)) (le_refl _)).2⟩

end Skfolio.Prior
