import Verif.Moments.GerberModel
import Verif.Moments.CorrTheorems
import Mathlib.Analysis.SpecificLimits.Basic
import Mathlib.Topology.Order.Basic

/-! C35. -/
set_option autoImplicit false

namespace Skfolio.Moments

open Matrix

variable {T n : Nat}

/-- Specification: the Gerber statistic counts joint moves of two assets beyond their bands. -/
def MoveUp (s thr : ℝ) (r : ℝ) : Prop := s * thr ≤ r
def MoveDown (s thr : ℝ) (r : ℝ) : Prop := r ≤ -(s * thr)

open Classical in
/-- Observations at which both assets move beyond their bands in the same direction. -/
noncomputable def concordant (x : Fin T → Fin n → ℝ) (s : Fin n → ℝ) (thr : ℝ) (i j : Fin n) : Nat :=
  (Finset.univ.filter fun t => (MoveUp (s i) thr (x t i) ∧ MoveUp (s j) thr (x t j)) ∨ (MoveDown (s i) thr (x t i) ∧ MoveDown (s j) thr (x t j))).card

open Classical in
/-- … in opposite directions. -/
noncomputable def discordant (x : Fin T → Fin n → ℝ) (s : Fin n → ℝ) (thr : ℝ) (i j : Fin n) : Nat :=
  (Finset.univ.filter fun t => (MoveUp (s i) thr (x t i) ∧ MoveDown (s j) thr (x t j)) ∨ (MoveDown (s i) thr (x t i) ∧ MoveUp (s j) thr (x t j))).card

open Classical in
/-- Observations at which at least one of the two assets moves beyond its band. -/
noncomputable def moving (x : Fin T → Fin n → ℝ) (s : Fin n → ℝ) (thr : ℝ) (i j : Fin n) : Nat :=
  (Finset.univ.filter fun t => (MoveUp (s i) thr (x t i) ∨ MoveDown (s i) thr (x t i)) ∨ (MoveUp (s j) thr (x t j) ∨ MoveDown (s j) thr (x t j))).card

variable (x : Fin T → Fin n → ℝ) (thr : ℝ)

/-- The sign of a move. -/
noncomputable def sgn (t : Fin T) (i : Fin n) : ℝ := up x thr t i - down x thr t i

theorem hMat_eq (i j : Fin n) : hMat x thr i j = ∑ t, sgn x thr t i * sgn x thr t j := by
  simp only [hMat, Matrix.sub_apply, Matrix.add_apply, Matrix.mul_apply, Matrix.transpose_apply, ← Finset.sum_add_distrib, ← Finset.sum_sub_distrib, sgn]
  exact Finset.sum_congr rfl fun t _ => by ring

variable {x} {thr}

theorem up_down (hs : ∀ i, 0 < std x i) (h0 : 0 < thr) (t : Fin T) (i : Fin n) : ¬ (x t i ≥ std x i * thr ∧ x t i ≤ -(std x i) * thr) := by
  rintro ⟨h1, h2⟩
  have := mul_pos (hs i) h0
  nlinarith

/-- `1 - neutral = sgn²`. -/
theorem sgn_sq (hs : ∀ i, 0 < std x i) (h0 : 0 < thr) (t : Fin T) (i : Fin n) : sgn x thr t i * sgn x thr t i = 1 - neutral x thr t i := by
  have := up_down hs h0 t i
  unfold sgn up down neutral
  by_cases h1 : x t i ≥ std x i * thr <;> by_cases h2 : x t i ≤ -(std x i) * thr
  · exact absurd ⟨h1, h2⟩ this
  all_goals
    simp only [h1, h2, if_true, if_false, not_true_eq_false, not_false_eq_true, and_self, and_true, and_false]
    norm_num

theorem neutral_cases (t : Fin T) (i : Fin n) : neutral x thr t i = 0 ∨ neutral x thr t i = 1 := by
  unfold neutral
  split_ifs
  · exact Or.inr rfl
  · exact Or.inl rfl

theorem neutral_le (t : Fin T) (i : Fin n) : 0 ≤ neutral x thr t i ∧ neutral x thr t i ≤ 1 := by
  rcases neutral_cases (x := x) (thr := thr) t i with h | h <;> rw [h] <;> norm_num

/-- Some observation lies outside the band: the standard deviation is at most the largest absolute return. -/
theorem exists_move (hs : ∀ i, 0 < std x i) (h0 : 0 < thr) (h1 : thr < 1) (i : Fin n) : ∃ t, neutral x thr t i = 0 := by
  by_contra hc
  push Not at hc
  have hT : 0 < T := by
    rcases Nat.eq_zero_or_pos T with h | h
    · subst h
      have := hs i
      simp [std] at this
    · exact h
  have hT' : (0 : ℝ) < T := by exact_mod_cast hT
  have hlt : ∀ t, (x t i) ^ 2 < std x i ^ 2 := by
    intro t
    have hn := hc t
    unfold neutral at hn
    split_ifs at hn with h
    · obtain ⟨ha, hb⟩ := h
      push Not at ha hb
      have := mul_pos (hs i) h0
      have h3 : std x i * thr < std x i := by nlinarith [hs i]
      apply sq_lt_sq'
      · nlinarith
      · linarith
    · exact absurd rfl hn
  have hvar : std x i ^ 2 = (∑ t, (x t i - (∑ t, x t i) / T) ^ 2) / T := by
    unfold std
    rw [Real.sq_sqrt]
    positivity
  have hle : ∑ t, (x t i - (∑ t, x t i) / T) ^ 2 ≤ ∑ t, x t i ^ 2 := by
    obtain ⟨m, hm⟩ : ∃ m, m = (∑ t, x t i) / T := ⟨_, rfl⟩
    have hs' : ∑ t, x t i = T * m := by rw [hm]; field_simp
    rw [← hm]
    have : ∑ t, (x t i - m) ^ 2 = ∑ t, x t i ^ 2 - T * m ^ 2 := by
      calc _ = ∑ t, (x t i ^ 2 - 2 * m * x t i + m ^ 2) := Finset.sum_congr rfl fun t _ => by ring
        _ = ∑ t, x t i ^ 2 - 2 * m * ∑ t, x t i + T * m ^ 2 := by
          rw [Finset.sum_add_distrib, Finset.sum_sub_distrib, ← Finset.mul_sum, Finset.sum_const, Finset.card_univ, Fintype.card_fin, nsmul_eq_mul]
        _ = _ := by rw [hs']; ring
    rw [this]
    nlinarith [mul_nonneg hT'.le (sq_nonneg m)]
  have hsum : ∑ t, x t i ^ 2 < ∑ _t : Fin T, std x i ^ 2 :=
    Finset.sum_lt_sum_of_nonempty (by have : NeZero T := ⟨hT.ne'⟩; exact Finset.univ_nonempty) fun t _ => hlt t
  rw [Finset.sum_const, Finset.card_univ, Fintype.card_fin, nsmul_eq_mul] at hsum
  rw [eq_div_iff hT'.ne'] at hvar
  linarith

/-- The denominator of the first variant is positive. -/
theorem denom_pos (hs : ∀ i, 0 < std x i) (h0 : 0 < thr) (h1 : thr < 1) (i j : Fin n) : ((neutral x thr)ᵀ * neutral x thr) i j < T := by
  obtain ⟨t0, ht0⟩ := exists_move hs h0 h1 i
  rw [Matrix.mul_apply]
  have : (T : ℝ) = ∑ _t : Fin T, 1 := by simp
  rw [this]
  refine Finset.sum_lt_sum (fun t _ => ?_) ⟨t0, Finset.mem_univ _, ?_⟩
  · rw [Matrix.transpose_apply]
    have a := neutral_le (x := x) (thr := thr) t i
    have b := neutral_le (x := x) (thr := thr) t j
    nlinarith
  · rw [Matrix.transpose_apply, ht0]
    norm_num

theorem hMat_diag (hs : ∀ i, 0 < std x i) (h0 : 0 < thr) (i : Fin n) : hMat x thr i i = T - ((neutral x thr)ᵀ * neutral x thr) i i := by
  rw [hMat_eq, Matrix.mul_apply]
  have : (T : ℝ) = ∑ _t : Fin T, 1 := by simp
  rw [this, ← Finset.sum_sub_distrib]
  refine Finset.sum_congr rfl fun t _ => ?_
  rw [sgn_sq hs h0, Matrix.transpose_apply]
  rcases neutral_cases (x := x) (thr := thr) t i with h | h <;> rw [h] <;> norm_num

/-- The matrix of joint moves is a Gram matrix. -/
theorem hMat_psd : PSD (hMat x thr) := by
  refine ⟨fun i j => ?_, fun y => ?_⟩
  · rw [hMat_eq, hMat_eq]
    exact Finset.sum_congr rfl fun t _ => by ring
  · have : ∑ i, ∑ j, y i * hMat x thr i j * y j = ∑ t, (∑ i, y i * sgn x thr t i) ^ 2 := by
      simp only [hMat_eq, sq, Finset.mul_sum, Finset.sum_mul]
      rw [Finset.sum_comm]
      conv_rhs => rw [Finset.sum_comm]
      refine Finset.sum_congr rfl fun j _ => ?_
      rw [Finset.sum_comm]
      exact Finset.sum_congr rfl fun t _ => Finset.sum_congr rfl fun i _ => by ring
    rw [this]
    exact Finset.sum_nonneg fun t _ => sq_nonneg _

/-- Entrywise product with the Gram matrix of the neutral indicators. -/
theorem PSD.schur {s : Matrix (Fin n) (Fin n) ℝ} (h : PSD s) (a : Matrix (Fin T) (Fin n) ℝ) : PSD (fun i j => s i j * (aᵀ * a) i j) := by
  refine ⟨fun i j => ?_, fun y => ?_⟩
  · simp only [Matrix.mul_apply, Matrix.transpose_apply]
    rw [h.1 i j]
    congr 1
    exact Finset.sum_congr rfl fun t _ => by ring
  · have : ∑ i, ∑ j, y i * (s i j * (aᵀ * a) i j) * y j = ∑ t, ∑ i, ∑ j, (y i * a t i) * s i j * (y j * a t j) := by
      simp only [Matrix.mul_apply, Matrix.transpose_apply, Finset.mul_sum, Finset.sum_mul]
      rw [Finset.sum_comm (s := (Finset.univ : Finset (Fin T)))]
      refine Finset.sum_congr rfl fun i _ => ?_
      rw [Finset.sum_comm]
      exact Finset.sum_congr rfl fun t _ => Finset.sum_congr rfl fun j _ => by ring
    rw [this]
    exact Finset.sum_nonneg fun t _ => h.2 _

theorem PSD.schur_pow {s : Matrix (Fin n) (Fin n) ℝ} (h : PSD s) (a : Matrix (Fin T) (Fin n) ℝ) : ∀ k : Nat, PSD (fun i j => s i j * (aᵀ * a) i j ^ k)
  | 0 => by simpa using h
  | k + 1 => by
    have := (PSD.schur_pow h a k).schur a
    simpa [pow_succ, mul_assoc] using this

/-- `1/(T - N) = Σ N^k / T^(k+1)`: the quotient by `T - N` of a positive semidefinite matrix is positive semidefinite. -/
theorem psd_quotient {s : Matrix (Fin n) (Fin n) ℝ} (h : PSD s) (a : Matrix (Fin T) (Fin n) ℝ) (c : ℝ) (h0 : ∀ i j, 0 ≤ (aᵀ * a) i j) (hc : ∀ i j, (aᵀ * a) i j < c) :
    PSD (fun i j => s i j / (c - (aᵀ * a) i j)) := by
  refine ⟨fun i j => ?_, fun y => ?_⟩
  · have h1 : (aᵀ * a) i j = (aᵀ * a) j i := by
      simp only [Matrix.mul_apply, Matrix.transpose_apply]
      exact Finset.sum_congr rfl fun t _ => by ring
    simp only
    rw [h1, h.1 i j]
  · have hsum : HasSum (fun k : Nat => ∑ i, ∑ j, y i * (s i j * (aᵀ * a) i j ^ k) * y j * (1 / c ^ (k + 1))) (∑ i, ∑ j, y i * (s i j / (c - (aᵀ * a) i j)) * y j) := by
      refine hasSum_sum fun i _ => hasSum_sum fun j _ => ?_
      have hcp : 0 < c := lt_of_le_of_lt (h0 i j) (hc i j)
      have hd : 0 < c - (aᵀ * a) i j := sub_pos.2 (hc i j)
      have hg := (hasSum_geometric_of_lt_one (r := (aᵀ * a) i j / c) (div_nonneg (h0 i j) hcp.le) ((div_lt_one hcp).2 (hc i j))).mul_left (y i * s i j * y j / c)
      have e1 : (fun k : Nat => y i * (s i j * (aᵀ * a) i j ^ k) * y j * (1 / c ^ (k + 1))) = fun k => y i * s i j * y j / c * ((aᵀ * a) i j / c) ^ k := by
        funext k
        rw [div_pow, pow_succ]
        field_simp
      have e2 : y i * (s i j / (c - (aᵀ * a) i j)) * y j = y i * s i j * y j / c * (1 - (aᵀ * a) i j / c)⁻¹ := by
        rw [one_sub_div hcp.ne', inv_div]
        field_simp
      rw [e1, e2]
      exact hg
    refine hsum.nonneg fun k => ?_
    have := (h.schur_pow a k).2 y
    by_cases hn : Nonempty (Fin n)
    · obtain ⟨i⟩ := hn
      have hcp : 0 < c := lt_of_le_of_lt (h0 i i) (hc i i)
      simp only [← Finset.sum_mul]
      exact mul_nonneg this (by positivity)
    · rw [not_nonempty_iff] at hn
      simp

/-- **C35.** For assets of positive variance and an admissible threshold no denominator of the Gerber correlation vanishes. -/
theorem C35_well_defined (hs : ∀ i, 0 < std x i) (h0 : 0 < thr) (h1 : thr < 1) (i j : Fin n) :
    (T : ℝ) - ((neutral x thr)ᵀ * neutral x thr) i j ≠ 0 ∧ Real.sqrt (hMat x thr i i) * Real.sqrt (hMat x thr j j) ≠ 0 := by
  have hp : ∀ i, 0 < hMat x thr i i := fun i => by rw [hMat_diag hs h0]; exact sub_pos.2 (denom_pos hs h0 h1 i i)
  exact ⟨(sub_pos.2 (denom_pos hs h0 h1 i j)).ne', mul_ne_zero (Real.sqrt_pos.2 (hp i)).ne' (Real.sqrt_pos.2 (hp j)).ne'⟩

/-- **C35.** Both variants of the Gerber correlation are correlation matrices — symmetric, positive semidefinite, with unit diagonal — with entries between -1 and 1. -/
theorem C35_correlation (hs : ∀ i, 0 < std x i) (h0 : 0 < thr) (h1 : thr < 1) (psdVariant : Bool) :
    IsCorrelation (gerberCorr psdVariant x thr) ∧ ∀ i j, -1 ≤ gerberCorr psdVariant x thr i j ∧ gerberCorr psdVariant x thr i j ≤ 1 := by
  have hp : ∀ i, 0 < hMat x thr i i := fun i => by rw [hMat_diag hs h0]; exact sub_pos.2 (denom_pos hs h0 h1 i i)
  have key : IsCorrelation (gerberCorr psdVariant x thr) := by
    cases psdVariant with
    | true =>
      constructor
      · refine psd_quotient hMat_psd _ _ (fun i j => ?_) (denom_pos hs h0 h1)
        rw [Matrix.mul_apply]
        exact Finset.sum_nonneg fun t _ => mul_nonneg (neutral_le _ _).1 (neutral_le _ _).1
      · intro i
        simp only [gerberCorr, if_true]
        rw [← hMat_diag hs h0, div_self (hp i).ne']
    | false =>
      have e : gerberCorr false x thr = (covToCorr (hMat x thr)).1 := by
        funext i j
        simp only [gerberCorr, covToCorr, Bool.false_eq_true, if_false]
        rw [div_div, mul_comm]
      rw [e]
      exact ((C37_correlation _ hp).2.2 hMat_psd).1
  refine ⟨key, fun i j => ?_⟩
  have := key.1.sq_le i j
  rw [key.2, key.2] at this
  exact abs_le.1 ((sq_le_one_iff_abs_le_one _).1 (by linarith))

/-- **C35.** The first variant is the Gerber statistic: concordant minus discordant joint moves, over the observations at which at least one of the two assets moves. -/
theorem C35_statistic (hs : ∀ i, 0 < std x i) (h0 : 0 < thr) (i j : Fin n) :
    gerberCorr true x thr i j = ((concordant x (std x) thr i j : ℝ) - discordant x (std x) thr i j) / moving x (std x) thr i j := by
  classical
  have hnum : hMat x thr i j = (concordant x (std x) thr i j : ℝ) - discordant x (std x) thr i j := by
    rw [hMat_eq, concordant, discordant, Finset.card_filter, Finset.card_filter]
    push_cast
    rw [← Finset.sum_sub_distrib]
    refine Finset.sum_congr rfl fun t _ => ?_
    have a := up_down hs h0 t i
    have b := up_down hs h0 t j
    unfold sgn up down MoveUp MoveDown
    simp only [neg_mul, ge_iff_le] at a b ⊢
    by_cases p1 : std x i * thr ≤ x t i <;> by_cases p2 : x t i ≤ -(std x i * thr) <;> by_cases p3 : std x j * thr ≤ x t j <;> by_cases p4 : x t j ≤ -(std x j * thr) <;>
      simp [p1, p2, p3, p4] at a b ⊢
  have hden : (T : ℝ) - ((neutral x thr)ᵀ * neutral x thr) i j = moving x (std x) thr i j := by
    rw [moving, Finset.card_filter, Matrix.mul_apply]
    push_cast
    have : (T : ℝ) = ∑ _t : Fin T, 1 := by simp
    rw [this, ← Finset.sum_sub_distrib]
    refine Finset.sum_congr rfl fun t _ => ?_
    unfold MoveUp MoveDown
    rw [Matrix.transpose_apply]
    unfold neutral
    simp only [neg_mul, ge_iff_le]
    by_cases p1 : std x i * thr ≤ x t i <;> by_cases p2 : x t i ≤ -(std x i * thr) <;> by_cases p3 : std x j * thr ≤ x t j <;> by_cases p4 : x t j ≤ -(std x j * thr) <;>
      simp [p1, p2, p3, p4]
  simp only [gerberCorr, if_true]
  rw [hnum, hden]

/-- **C35.** What `fit` stores has the sample variances of the assets; it is positive definite unless `nearest=False`, and then still positive semidefinite. Thresholds outside (0, 1) are rejected. -/
theorem C35_fit {isPD : Matrix (Fin n) (Fin n) ℝ → Bool} {eigh : Matrix (Fin n) (Fin n) ℝ → (Fin n → ℝ) × Matrix (Fin n) (Fin n) ℝ} (hnum : Numerics isPD eigh) (nearest higham : Bool) (maxIter : Nat)
    (psdVariant : Bool) (hs : ∀ i, 0 < std x i) :
    (∀ r, gerberFit isPD eigh nearest higham maxIter psdVariant thr x = .ok r → PSD r ∧ (nearest = true → PD r) ∧ ∀ i, r i i = std x i ^ 2) ∧
    (¬ (0 < thr ∧ thr < 1) → gerberFit isPD eigh nearest higham maxIter psdVariant thr x = .error .threshold) := by
  refine ⟨fun r hr => ?_, fun h => ?_⟩
  · unfold gerberFit at hr
    split_ifs at hr with hthr
    obtain ⟨h1, h0⟩ := hthr
    have hc := (C35_correlation hs h0 h1 psdVariant).1
    have hcov := C37_covariance _ (std x) hc
    cases hset : setCovariance isPD eigh nearest higham maxIter (corrToCov (gerberCorr psdVariant x thr) (std x)) with
    | error e => rw [hset] at hr; cases hr
    | ok c =>
      rw [hset] at hr
      cases hr
      obtain ⟨a, b, d⟩ := C50_set_covariance hnum nearest higham maxIter _ _ hset
      refine ⟨?_, b, fun i => by rw [(a i).2, hcov.2]⟩
      cases nearest with
      | true => exact (b rfl).psd
      | false => rw [d rfl]; exact hcov.1
  · unfold gerberFit
    rw [if_pos]
    rintro ⟨h1, h2⟩
    exact h ⟨h2, h1⟩

/-- Returns with positive standard deviation, for which the hypotheses above hold. -/
example : ∀ i, 0 < std (![![1, 1], ![-1, 1], ![1, -2]] : Fin 3 → Fin 2 → ℝ) i := by
  intro i
  unfold std
  apply Real.sqrt_pos.2
  fin_cases i <;> simp [Fin.sum_univ_three] <;> norm_num

end Skfolio.Moments
