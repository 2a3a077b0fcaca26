import Verif.Moments.DistanceModel
import Verif.Moments.CorrTheorems

/-! C38. -/
set_option autoImplicit false

namespace Skfolio.Moments

variable {n : Nat}

/-- The usual formulas: odd powers without absolute value. -/
theorem distance_odd (c : Fin n → Fin n → ℝ) (p : Nat) (hp : Odd p) (i j : Fin n) (h : -1 ≤ c i j ∧ c i j ≤ 1) :
    (corrToDistance false p c).2 i j = Real.sqrt ((1 - c i j ^ p) / 2) := by
  have hp0 : p ≠ 0 := fun h => by subst h; exact absurd hp (by decide)
  have hle : c i j ^ p ≤ 1 := by
    rcases le_or_gt 0 (c i j) with h0 | h0
    · exact pow_le_one₀ h0 h.2
    · exact (hp.pow_neg h0).le.trans zero_le_one
  have hge : -1 ≤ c i j ^ p := by
    have : (-1 : ℝ) ^ p ≤ c i j ^ p := hp.strictMono_pow.monotone h.1
    rwa [hp.neg_one_pow] at this
  simp only [corrToDistance, Bool.false_eq_true, if_false, Real.rpow_natCast]
  have e : min (min ((![-1, 0, 1] : Fin 3 → ℝ) 0 ^ p) ((![-1, 0, 1] : Fin 3 → ℝ) 1 ^ p)) ((![-1, 0, 1] : Fin 3 → ℝ) 2 ^ p) = -1 := by
    simp [hp.neg_one_pow, hp0]
  rw [e]
  congr 1
  rw [max_eq_left (by linarith), min_eq_left (by linarith)]
  ring

/-- … even powers. -/
theorem distance_even (c : Fin n → Fin n → ℝ) (p : Nat) (hp : Even p) (hp0 : p ≠ 0) (i j : Fin n) (h : -1 ≤ c i j ∧ c i j ≤ 1) :
    (corrToDistance false p c).2 i j = Real.sqrt (1 - c i j ^ p) := by
  have hle : c i j ^ p ≤ 1 := by
    rw [← hp.pow_abs]
    exact pow_le_one₀ (abs_nonneg _) (abs_le.2 h)
  have hge : 0 ≤ c i j ^ p := hp.pow_nonneg _
  simp only [corrToDistance, Bool.false_eq_true, if_false, Real.rpow_natCast]
  have e : min (min ((![-1, 0, 1] : Fin 3 → ℝ) 0 ^ p) ((![-1, 0, 1] : Fin 3 → ℝ) 1 ^ p)) ((![-1, 0, 1] : Fin 3 → ℝ) 2 ^ p) = 0 := by
    simp [hp.neg_one_pow, hp0]
  rw [e]
  congr 1
  rw [max_eq_left (by linarith), min_eq_left (by linarith)]
  ring

/-- … absolute values, any positive power. -/
theorem distance_abs (c : Fin n → Fin n → ℝ) (p : ℝ) (hp : 0 < p) (i j : Fin n) (h : -1 ≤ c i j ∧ c i j ≤ 1) :
    (corrToDistance true p c).2 i j = Real.sqrt (1 - |c i j| ^ p) := by
  have hle : |c i j| ^ p ≤ 1 := Real.rpow_le_one (abs_nonneg _) (abs_le.2 h) hp.le
  have hge : 0 ≤ |c i j| ^ p := Real.rpow_nonneg (abs_nonneg _) _
  simp only [corrToDistance, if_true]
  have e : min (min (|(![-1, 0, 1] : Fin 3 → ℝ) 0| ^ p) (|(![-1, 0, 1] : Fin 3 → ℝ) 1| ^ p)) (|(![-1, 0, 1] : Fin 3 → ℝ) 2| ^ p) = 0 := by
    simp [Real.zero_rpow hp.ne']
  rw [e]
  congr 1
  rw [max_eq_left (by linarith), min_eq_left (by linarith)]
  ring

/-- Admissible settings: a positive integer power, or a positive power of absolute values. -/
def Admissible (absolute : Bool) (power : ℝ) : Prop := (∃ p : Nat, power = p ∧ 0 < p) ∨ (absolute = true ∧ 0 < power)

theorem distance_cases (c : Fin n → Fin n → ℝ) (absolute : Bool) (power : ℝ) (hadm : Admissible absolute power) (i j : Fin n) (h : -1 ≤ c i j ∧ c i j ≤ 1) :
    (absolute = false ∧ ∃ p : Nat, power = p ∧ Odd p ∧ (corrToDistance absolute power c).2 i j = Real.sqrt ((1 - c i j ^ p) / 2)) ∨
    (absolute = false ∧ ∃ p : Nat, power = p ∧ Even p ∧ p ≠ 0 ∧ (corrToDistance absolute power c).2 i j = Real.sqrt (1 - c i j ^ p)) ∨
    (absolute = true ∧ 0 < power ∧ (corrToDistance absolute power c).2 i j = Real.sqrt (1 - |c i j| ^ power)) := by
  cases absolute with
  | true =>
    have hp : 0 < power := by
      rcases hadm with ⟨p, rfl, hp⟩ | ⟨-, hp⟩
      · exact_mod_cast hp
      · exact hp
    exact Or.inr (Or.inr ⟨rfl, hp, distance_abs c power hp i j h⟩)
  | false =>
    rcases hadm with ⟨p, rfl, hp⟩ | ⟨h, -⟩
    · rcases Nat.even_or_odd p with he | ho
      · exact Or.inr (Or.inl ⟨rfl, p, rfl, he, hp.ne', distance_even c p he hp.ne' i j h⟩)
      · exact Or.inl ⟨rfl, p, rfl, ho, distance_odd c p ho i j h⟩
    · cases h

/-- **C38.** For every matrix of values in [-1, 1] that is symmetric with unit diagonal and every admissible setting the distance lies in [0, 1], vanishes on the diagonal and is symmetric. -/
theorem C38_distance (c : Fin n → Fin n → ℝ) (absolute : Bool) (power : ℝ) (hadm : Admissible absolute power) (hc : ∀ i j, -1 ≤ c i j ∧ c i j ≤ 1) (hone : ∀ i, c i i = 1)
    (hsym : ∀ i j, c i j = c j i) :
    (∀ i j, 0 ≤ (corrToDistance absolute power c).2 i j ∧ (corrToDistance absolute power c).2 i j ≤ 1) ∧
    (∀ i, (corrToDistance absolute power c).2 i i = 0) ∧ ∀ i j, (corrToDistance absolute power c).2 i j = (corrToDistance absolute power c).2 j i := by
  refine ⟨fun i j => ?_, fun i => ?_, fun i j => ?_⟩
  · unfold corrToDistance
    exact ⟨Real.sqrt_nonneg _, Real.sqrt_le_one.2 (min_le_right _ _)⟩
  · rcases distance_cases c absolute power hadm i i (hc i i) with ⟨-, p, -, -, e⟩ | ⟨-, p, -, -, -, e⟩ | ⟨-, hp, e⟩ <;> rw [e, hone] <;> simp
  · have := hsym i j
    cases absolute <;> simp [corrToDistance, this]

/-- **C38.** The distance decreases with the correlation: with the correlation itself for odd powers, with its absolute value otherwise. -/
theorem C38_decreasing (c : Fin n → Fin n → ℝ) (absolute : Bool) (power : ℝ) (hadm : Admissible absolute power) (hc : ∀ i j, -1 ≤ c i j ∧ c i j ≤ 1) (i j k l : Fin n) :
    ((absolute = false ∧ ∃ p : Nat, power = p ∧ Odd p) → c i j ≤ c k l → (corrToDistance absolute power c).2 k l ≤ (corrToDistance absolute power c).2 i j) ∧
    ((absolute = true ∨ ∃ p : Nat, power = p ∧ Even p) → |c i j| ≤ |c k l| → (corrToDistance absolute power c).2 k l ≤ (corrToDistance absolute power c).2 i j) := by
  constructor
  · rintro ⟨rfl, p, rfl, hp⟩ hle
    rw [distance_odd c p hp i j (hc i j), distance_odd c p hp k l (hc k l)]
    apply Real.sqrt_le_sqrt
    have := hp.strictMono_pow.monotone hle
    linarith
  · intro hs hle
    cases absolute with
    | true =>
      have hp : 0 < power := by
        rcases hadm with ⟨p, rfl, hp⟩ | ⟨-, hp⟩
        · exact_mod_cast hp
        · exact hp
      rw [distance_abs c power hp i j (hc i j), distance_abs c power hp k l (hc k l)]
      apply Real.sqrt_le_sqrt
      have := Real.rpow_le_rpow (abs_nonneg _) hle hp.le
      linarith
    | false =>
      obtain ⟨p, rfl, hp⟩ := hs.resolve_left (by simp)
      have hp0 : p ≠ 0 := by
        rcases hadm with ⟨q, hq, hq0⟩ | ⟨h, -⟩
        · have : p = q := by exact_mod_cast hq
          omega
        · cases h
      rw [distance_even c p hp hp0 i j (hc i j), distance_even c p hp hp0 k l (hc k l)]
      apply Real.sqrt_le_sqrt
      have := pow_le_pow_left₀ (abs_nonneg _) hle p
      rw [hp.pow_abs, hp.pow_abs] at this
      linarith

/-! ### Triangle inequality -/

/-- Entrywise powers of a positive semidefinite matrix are positive semidefinite (Schur). -/
theorem psd_mul {a b : Matrix (Fin n) (Fin n) ℝ} (ha : PSD a) (hb : PSD b) : PSD (fun i j => a i j * b i j) := by
  obtain ⟨isPD, eigh, hnum⟩ := numerics_exist (n := n)
  obtain ⟨hv, he⟩ := hnum.eig b hb.1
  obtain ⟨l, hl⟩ : ∃ l, l = (eigh b).1 := ⟨_, rfl⟩
  obtain ⟨v, hvv⟩ : ∃ v, v = (eigh b).2 := ⟨_, rfl⟩
  rw [← hl, ← hvv] at he
  rw [← hvv] at hv
  have hvT : v.transpose * v = 1 := mul_eq_one_comm.1 hv
  have hl0 : ∀ k, 0 ≤ l k := by
    intro k
    have := hb.2 fun i => v i k
    have e : ∑ i, ∑ j, v i k * b i j * v j k = l k := by
      have h1 : ∀ m, ∑ i, v i k * v i m = if k = m then 1 else 0 := by
        intro m
        have := congrFun (congrFun hvT k) m
        rwa [Matrix.mul_apply, Matrix.one_apply] at this
      calc ∑ i, ∑ j, v i k * b i j * v j k = ∑ i, ∑ j, ∑ m, l m * (v i k * v i m) * (v j k * v j m) := by
            refine Finset.sum_congr rfl fun i _ => Finset.sum_congr rfl fun j _ => ?_
            rw [he i j, Finset.mul_sum, Finset.sum_mul]
            exact Finset.sum_congr rfl fun m _ => by ring
        _ = ∑ m, l m * (∑ i, v i k * v i m) * (∑ j, v j k * v j m) := by
            have : ∀ i, ∑ j, ∑ m, l m * (v i k * v i m) * (v j k * v j m) = ∑ m, l m * (v i k * v i m) * ∑ j, (v j k * v j m) := by
              intro i
              rw [Finset.sum_comm]
              exact Finset.sum_congr rfl fun m _ => by rw [Finset.mul_sum]
            simp only [this]
            rw [Finset.sum_comm]
            refine Finset.sum_congr rfl fun m _ => ?_
            rw [← Finset.sum_mul, ← Finset.mul_sum]
        _ = l k := by
            simp only [h1]
            simp
    rwa [e] at this
  refine ⟨fun i j => by simp only; rw [ha.1, hb.1], fun y => ?_⟩
  have e : ∑ i, ∑ j, y i * (a i j * b i j) * y j = ∑ k, l k * ∑ i, ∑ j, (y i * v i k) * a i j * (y j * v j k) := by
    have h2 : ∀ i, ∑ j, y i * (a i j * b i j) * y j = ∑ k, ∑ j, l k * ((y i * v i k) * a i j * (y j * v j k)) := by
      intro i
      rw [Finset.sum_comm]
      refine Finset.sum_congr rfl fun j _ => ?_
      rw [he i j, Finset.mul_sum, Finset.mul_sum, Finset.sum_mul]
      exact Finset.sum_congr rfl fun k _ => by ring
    simp only [h2]
    rw [Finset.sum_comm]
    refine Finset.sum_congr rfl fun k _ => ?_
    rw [Finset.mul_sum]
    exact Finset.sum_congr rfl fun i _ => by rw [Finset.mul_sum]
  rw [e]
  exact Finset.sum_nonneg fun k _ => mul_nonneg (hl0 k) (ha.2 _)

theorem correlation_pow {c : Matrix (Fin n) (Fin n) ℝ} (h : IsCorrelation c) : ∀ p : Nat, 0 < p → IsCorrelation (fun i j => c i j ^ p)
  | 1, _ => by simpa using h
  | p + 2, _ => by
    obtain ⟨h1, h2⟩ := correlation_pow h (p + 1) (by omega)
    refine ⟨?_, fun i => by simp only [h.2 i, one_pow]⟩
    have := psd_mul h1 h.1
    simpa [pow_succ] using this

/-- Three coordinates of the quadratic form. -/
theorem PSD.three {s : Matrix (Fin n) (Fin n) ℝ} (h : PSD s) (i j k : Fin n) (a b c : ℝ) :
    0 ≤ a ^ 2 * s i i + b ^ 2 * s j j + c ^ 2 * s k k + 2 * a * b * s i j + 2 * a * c * s i k + 2 * b * c * s j k := by
  have := h.2 (fun m => (if m = i then a else 0) + (if m = j then b else 0) + if m = k then c else 0)
  simp only [add_mul, mul_add, Finset.sum_add_distrib, ite_mul, zero_mul, mul_ite, mul_zero, Finset.sum_ite_eq', Finset.mem_univ, if_true] at this
  rw [h.1 j i, h.1 k i, h.1 k j] at this
  linarith

theorem chord_key (a b c : ℝ) (h : ∀ s t : ℝ, 0 ≤ s ^ 2 + (t - s) ^ 2 + t ^ 2 + 2 * s * (t - s) * a - 2 * s * t * c - 2 * (t - s) * t * b) :
    Real.sqrt (1 - c) ≤ Real.sqrt (1 - a) + Real.sqrt (1 - b) := by
  have ha : 0 ≤ 1 - a := by have := h 1 0; linarith
  have hb : 0 ≤ 1 - b := by have := h 0 1; linarith
  obtain ⟨u, hu⟩ : ∃ u, u = Real.sqrt (1 - a) := ⟨_, rfl⟩
  obtain ⟨w, hw⟩ : ∃ w, w = Real.sqrt (1 - b) := ⟨_, rfl⟩
  have hu0 : 0 ≤ u := hu ▸ Real.sqrt_nonneg _
  have hw0 : 0 ≤ w := hw ▸ Real.sqrt_nonneg _
  have hu2 : u ^ 2 = 1 - a := by rw [hu, Real.sq_sqrt ha]
  have hw2 : w ^ 2 = 1 - b := by rw [hw, Real.sq_sqrt hb]
  rw [← hu, ← hw]
  apply Real.sqrt_le_iff.2
  refine ⟨by linarith, ?_⟩
  have key : ∀ s t : ℝ, 0 ≤ s ^ 2 * u ^ 2 + t ^ 2 * w ^ 2 + s * t * (1 - c - u ^ 2 - w ^ 2) := by
    intro s t
    have := h s t
    rw [hu2, hw2]
    nlinarith
  rcases hu0.eq_or_lt with h0 | h0
  · rw [← h0] at key ⊢
    rcases hw0.eq_or_lt with h1 | h1
    · rw [← h1] at key ⊢
      have := key 1 (-1)
      nlinarith
    · have h2 := key (-(1 + w ^ 2 + (1 - c - w ^ 2) ^ 2)) (1 - c - w ^ 2)
      by_contra hc
      push Not at hc
      nlinarith [sq_nonneg (1 - c - w ^ 2)]
  · have := key (w) (-u)
    have h3 : u * w * (1 - c) ≤ u * w * (u + w) ^ 2 := by nlinarith
    rcases hw0.eq_or_lt with h1 | h1
    · rw [← h1] at key ⊢
      have h2 := key (1 - c - u ^ 2) (-(1 + u ^ 2 + (1 - c - u ^ 2) ^ 2))
      by_contra hc
      push Not at hc
      nlinarith [sq_nonneg (1 - c - u ^ 2)]
    · exact le_of_mul_le_mul_left h3 (mul_pos h0 h1)

/-- The chord distance of a correlation matrix satisfies the triangle inequality, also after changing signs of assets. -/
theorem chord_triangle {r : Matrix (Fin n) (Fin n) ℝ} (h : IsCorrelation r) (i j k : Fin n) (e f : ℝ) (he : e ^ 2 = 1) (hf : f ^ 2 = 1) :
    Real.sqrt (1 - e * f * r i k) ≤ Real.sqrt (1 - e * r i j) + Real.sqrt (1 - f * r j k) := by
  apply chord_key
  intro s t
  have := h.1.three i j k (e * s) (t - s) (-(f * t))
  rw [h.2, h.2, h.2, mul_pow, neg_sq, mul_pow, he, hf] at this
  linarith

theorem exists_sign (x : ℝ) : ∃ e : ℝ, e ^ 2 = 1 ∧ e * x = |x| := by
  rcases le_total 0 x with h | h
  · exact ⟨1, by norm_num, by rw [one_mul, abs_of_nonneg h]⟩
  · exact ⟨-1, by norm_num, by rw [neg_one_mul, abs_of_nonpos h]⟩

/-- … and for absolute correlations. -/
theorem chord_triangle_abs {r : Matrix (Fin n) (Fin n) ℝ} (h : IsCorrelation r) (i j k : Fin n) : Real.sqrt (1 - |r i k|) ≤ Real.sqrt (1 - |r i j|) + Real.sqrt (1 - |r j k|) := by
  obtain ⟨e, he, h1⟩ := exists_sign (r i j)
  obtain ⟨f, hf, h2⟩ := exists_sign (r j k)
  rw [← h1, ← h2]
  refine le_trans (Real.sqrt_le_sqrt ?_) (chord_triangle h i j k e f he hf)
  have hef : |e * f| = 1 := by
    have : (e * f) ^ 2 = 1 := by rw [mul_pow, he, hf, one_mul]
    rcases mul_self_eq_one_iff.1 ((sq (e * f)).symm.trans this) with h | h <;> rw [h] <;> norm_num
  have : e * f * r i k ≤ |r i k| := by
    calc e * f * r i k ≤ |e * f * r i k| := le_abs_self _
      _ = |r i k| := by rw [abs_mul, hef, one_mul]
  linarith

/-- **C38.** For every correlation matrix, every positive integer power and with or without absolute values, the distance satisfies the triangle inequality. -/
theorem C38_triangle (c : Matrix (Fin n) (Fin n) ℝ) (h : IsCorrelation c) (absolute : Bool) (p : Nat) (hp : 0 < p) (i j k : Fin n) :
    (corrToDistance absolute p c).2 i k ≤ (corrToDistance absolute p c).2 i j + (corrToDistance absolute p c).2 j k := by
  have hc : ∀ i j, -1 ≤ c i j ∧ c i j ≤ 1 := by
    intro i j
    have := h.1.sq_le i j
    rw [h.2, h.2] at this
    exact abs_le.1 ((sq_le_one_iff_abs_le_one _).1 (by linarith))
  have hpow := correlation_pow h p hp
  cases absolute with
  | true =>
    have hp' : (0 : ℝ) < p := by exact_mod_cast hp
    rw [distance_abs c p hp' _ _ (hc _ _), distance_abs c p hp' _ _ (hc _ _), distance_abs c p hp' _ _ (hc _ _)]
    simp only [Real.rpow_natCast, ← abs_pow]
    exact chord_triangle_abs hpow i j k
  | false =>
    have key := chord_triangle hpow i j k 1 1 (by norm_num) (by norm_num)
    simp only [one_mul] at key
    rcases Nat.even_or_odd p with he | ho
    · rw [distance_even c p he hp.ne' _ _ (hc _ _), distance_even c p he hp.ne' _ _ (hc _ _), distance_even c p he hp.ne' _ _ (hc _ _)]
      exact key
    · rw [distance_odd c p ho _ _ (hc _ _), distance_odd c p ho _ _ (hc _ _), distance_odd c p ho _ _ (hc _ _)]
      have e : ∀ x : ℝ, Real.sqrt (x / 2) = Real.sqrt x * Real.sqrt (1 / 2) := by
        intro x
        rw [← Real.sqrt_mul' x (by norm_num), mul_one_div]
      rw [e (1 - c i k ^ p), e (1 - c i j ^ p), e (1 - c j k ^ p), ← add_mul]
      exact mul_le_mul_of_nonneg_right key (Real.sqrt_nonneg _)

/-- A correlation matrix meets the hypotheses, with the default setting. -/
example : IsCorrelation (!![1, 1 / 2; 1 / 2, 1] : Matrix (Fin 2) (Fin 2) ℝ) ∧ Admissible false 1 := by
  refine ⟨⟨⟨fun i j => ?_, fun x => ?_⟩, fun i => ?_⟩, Or.inl ⟨1, by simp, by norm_num⟩⟩
  · fin_cases i <;> fin_cases j <;> simp
  · simp [Fin.sum_univ_two]
    nlinarith [sq_nonneg (x 0 + x 1), sq_nonneg (x 0), sq_nonneg (x 1)]
  · fin_cases i <;> simp

end Skfolio.Moments
