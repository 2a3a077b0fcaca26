import Verif.Distance.SampleModel
import Verif.Moments.DistanceTheorems
import Verif.Copula.SampleTau

/-! Correlations as cosines, and ranks. -/
set_option autoImplicit false

namespace Skfolio.Distance

open Skfolio.Moments

variable {T n : Nat} {ι : Type} [Fintype ι]

/-! ### cosines -/

noncomputable def dot (a b : ι → ℝ) : ℝ := ∑ t, a t * b t

theorem dot_nonneg (a : ι → ℝ) : 0 ≤ dot a a := Finset.sum_nonneg fun _ _ => mul_self_nonneg _

theorem dot_zero {a : ι → ℝ} : dot a a = 0 ↔ ∀ t, a t = 0 := by
  unfold dot
  rw [Finset.sum_eq_zero_iff_of_nonneg fun _ _ => mul_self_nonneg _]
  simp

theorem dot_comm (a b : ι → ℝ) : dot a b = dot b a := Finset.sum_congr rfl fun _ _ => mul_comm _ _

/-- The cosine of the angle of two vectors. -/
noncomputable def cosine (a b : ι → ℝ) : ℝ := dot a b / (Real.sqrt (dot a a) * Real.sqrt (dot b b))

theorem cosine_comm (a b : ι → ℝ) : cosine a b = cosine b a := by
  unfold cosine
  rw [dot_comm, mul_comm (Real.sqrt _)]

theorem cosine_eq_sum (a b : ι → ℝ) : cosine a b = ∑ t, a t / Real.sqrt (dot a a) * (b t / Real.sqrt (dot b b)) := by
  unfold cosine dot
  rw [Finset.sum_div]
  refine Finset.sum_congr rfl fun t _ => ?_
  rw [div_mul_div_comm]

theorem cosine_self {a : ι → ℝ} (ha : dot a a ≠ 0) : cosine a a = 1 := by
  unfold cosine
  rw [Real.mul_self_sqrt (dot_nonneg a), div_self ha]

/-- The matrix of the cosines of vectors that are not zero is a correlation matrix. -/
theorem cosine_correlation (a : Fin n → ι → ℝ) (h : ∀ i, dot (a i) (a i) ≠ 0) : IsCorrelation (Matrix.of fun i j => cosine (a i) (a j)) := by
  refine ⟨⟨fun i j => cosine_comm _ _, fun x => ?_⟩, fun i => cosine_self (h i)⟩
  have : ∑ i, ∑ j, x i * cosine (a i) (a j) * x j = ∑ t, (∑ i, x i * (a i t / Real.sqrt (dot (a i) (a i)))) ^ 2 := by
    have e : ∀ t, (∑ i, x i * (a i t / Real.sqrt (dot (a i) (a i)))) ^ 2 =
        ∑ i, ∑ j, x i * (a i t / Real.sqrt (dot (a i) (a i)) * (a j t / Real.sqrt (dot (a j) (a j)))) * x j := by
      intro t
      rw [sq, Finset.sum_mul_sum]
      refine Finset.sum_congr rfl fun i _ => Finset.sum_congr rfl fun j _ => ?_
      ring
    simp only [e]
    conv_rhs => rw [Finset.sum_comm]
    refine Finset.sum_congr rfl fun i _ => ?_
    conv_rhs => rw [Finset.sum_comm]
    refine Finset.sum_congr rfl fun j _ => ?_
    rw [cosine_eq_sum, Finset.mul_sum, Finset.sum_mul]
  change 0 ≤ ∑ i, ∑ j, x i * cosine (a i) (a j) * x j
  rw [this]
  exact Finset.sum_nonneg fun _ _ => sq_nonneg _

theorem unit_sum {a : ι → ℝ} (ha : dot a a ≠ 0) : ∑ t, (a t / Real.sqrt (dot a a)) * (a t / Real.sqrt (dot a a)) = 1 := by
  rw [← cosine_eq_sum, cosine_self ha]

theorem cosine_sub {a b : ι → ℝ} (ha : dot a a ≠ 0) (hb : dot b b ≠ 0) (e : ℝ) (he : e ^ 2 = 1) :
    ∑ t, (a t / Real.sqrt (dot a a) - e * (b t / Real.sqrt (dot b b))) ^ 2 = 2 - 2 * e * cosine a b := by
  have h1 : ∑ t, (a t / Real.sqrt (dot a a) - e * (b t / Real.sqrt (dot b b))) ^ 2 =
      ∑ t, (a t / Real.sqrt (dot a a)) * (a t / Real.sqrt (dot a a)) + e ^ 2 * ∑ t, (b t / Real.sqrt (dot b b)) * (b t / Real.sqrt (dot b b)) - 2 * e * ∑ t, a t / Real.sqrt (dot a a) * (b t / Real.sqrt (dot b b)) := by
    rw [Finset.mul_sum, Finset.mul_sum, ← Finset.sum_add_distrib, ← Finset.sum_sub_distrib]
    refine Finset.sum_congr rfl fun t _ => ?_
    ring
  rw [h1, unit_sum ha, unit_sum hb, he, ← cosine_eq_sum]
  ring

theorem dot_smul (k : ℝ) (b : ι → ℝ) : dot (fun t => k * b t) (fun t => k * b t) = k ^ 2 * dot b b := by
  unfold dot
  rw [Finset.mul_sum]
  exact Finset.sum_congr rfl fun t _ => by ring

/-- The cosine is `e = ± 1` exactly for vectors that are multiples of each other, of that sign. -/
theorem cosine_extreme {a b : ι → ℝ} (ha : dot a a ≠ 0) (hb : dot b b ≠ 0) {e : ℝ} (he : e = 1 ∨ e = -1) : cosine a b = e ↔ ∃ k > 0, ∀ t, a t = e * k * b t := by
  have he2 : e ^ 2 = 1 := by rcases he with h | h <;> rw [h] <;> norm_num
  have hee : e * e = 1 := by rw [← sq]; exact he2
  have pa : 0 < Real.sqrt (dot a a) := Real.sqrt_pos.2 (lt_of_le_of_ne (dot_nonneg a) (Ne.symm ha))
  have pb : 0 < Real.sqrt (dot b b) := Real.sqrt_pos.2 (lt_of_le_of_ne (dot_nonneg b) (Ne.symm hb))
  constructor
  · intro h
    have h0 := cosine_sub ha hb e he2
    rw [h, mul_assoc, hee, mul_one, sub_self, Finset.sum_eq_zero_iff_of_nonneg fun _ _ => sq_nonneg _] at h0
    refine ⟨Real.sqrt (dot a a) / Real.sqrt (dot b b), div_pos pa pb, fun t => ?_⟩
    have := h0 t (Finset.mem_univ t)
    have h1 : a t / Real.sqrt (dot a a) = e * (b t / Real.sqrt (dot b b)) := by
      have := pow_eq_zero_iff (two_ne_zero) |>.1 this
      linarith
    field_simp at h1 ⊢
    linarith
  · rintro ⟨k, hk, h⟩
    have e1 : dot a b = e * k * dot b b := by
      unfold dot
      rw [Finset.mul_sum]
      exact Finset.sum_congr rfl fun t _ => by rw [h]; ring
    have e2 : dot a a = k ^ 2 * dot b b := by
      unfold dot
      rw [Finset.mul_sum]
      refine Finset.sum_congr rfl fun t _ => ?_
      rw [h]
      linear_combination k ^ 2 * b t * b t * he2
    unfold cosine
    rw [e1, e2, Real.sqrt_mul (sq_nonneg k), Real.sqrt_sq hk.le, mul_assoc k, Real.mul_self_sqrt (dot_nonneg b)]
    field_simp

theorem cosine_bounds {a b : ι → ℝ} (ha : dot a a ≠ 0) (hb : dot b b ≠ 0) : -1 ≤ cosine a b ∧ cosine a b ≤ 1 := by
  have h1 := cosine_sub ha hb 1 (by norm_num)
  have h2 := cosine_sub ha hb (-1) (by norm_num)
  have p1 : 0 ≤ ∑ t, (a t / Real.sqrt (dot a a) - 1 * (b t / Real.sqrt (dot b b))) ^ 2 := Finset.sum_nonneg fun _ _ => sq_nonneg _
  have p2 : 0 ≤ ∑ t, (a t / Real.sqrt (dot a a) - (-1) * (b t / Real.sqrt (dot b b))) ^ 2 := Finset.sum_nonneg fun _ _ => sq_nonneg _
  constructor <;> linarith

/-! ### Pearson -/

/-- The returns less their mean. -/
noncomputable def centred (x : Fin T → ℝ) (t : Fin T) : ℝ := x t - colMean x

theorem mean_const {x : Fin T → ℝ} {c : ℝ} (h : ∀ t, x t = c) (hT : 0 < T) : colMean x = c := by
  unfold colMean
  have : (T : ℝ) ≠ 0 := by exact_mod_cast hT.ne'
  simp only [h, Finset.sum_const, Finset.card_univ, Fintype.card_fin, nsmul_eq_mul]
  field_simp

theorem centred_zero {x : Fin T → ℝ} : dot (centred x) (centred x) = 0 ↔ ∀ s t, x s = x t := by
  rw [dot_zero]
  constructor
  · intro h s t
    have hs := h s
    have ht := h t
    unfold centred at hs ht
    linarith
  · intro h t
    unfold centred
    rw [mean_const (fun s => h s t) (Nat.pos_of_ne_zero fun h0 => by subst h0; exact t.elim0), sub_self]

theorem colCov_eq (x y : Fin T → ℝ) : colCov x y = dot (centred x) (centred y) / ((T : ℝ) - 1) := rfl

theorem two_le_of_ne {x : Fin T → ℝ} (h : dot (centred x) (centred x) ≠ 0) : 2 ≤ T := by
  by_contra hT
  apply h
  rw [centred_zero]
  intro s t
  have : s = t := Fin.ext (by omega)
  rw [this]

theorem clip_id {r : ℝ} (h : -1 ≤ r ∧ r ≤ 1) : min (max r (-1)) 1 = r := by rw [max_eq_left h.1, min_eq_left h.2]

theorem pearson_eq (x y : Fin T → ℝ) :
    pearson x y = if dot (centred x) (centred x) = 0 ∨ dot (centred y) (centred y) = 0 then none else some (cosine (centred x) (centred y)) := by
  unfold pearson
  by_cases h : dot (centred x) (centred x) = 0 ∨ dot (centred y) (centred y) = 0
  · rw [if_pos h, if_pos]
    rcases h with h | h
    · exact Or.inr (Or.inl (by rw [colCov_eq, h, zero_div]))
    · exact Or.inr (Or.inr (by rw [colCov_eq, h, zero_div]))
  · rw [if_neg h]
    push Not at h
    have hT := two_le_of_ne h.1
    have hp : (0 : ℝ) < (T : ℝ) - 1 := by
      have : (2 : ℝ) ≤ T := by exact_mod_cast hT
      linarith
    rw [if_neg]
    · congr 1
      have hs : 0 < Real.sqrt ((T : ℝ) - 1) := Real.sqrt_pos.2 hp
      have e : colCov x y / Real.sqrt (colCov x x) / Real.sqrt (colCov y y) = cosine (centred x) (centred y) := by
        rw [colCov_eq, colCov_eq, colCov_eq, Real.sqrt_div (dot_nonneg _), Real.sqrt_div (dot_nonneg _)]
        unfold cosine
        have pa : 0 < Real.sqrt (dot (centred x) (centred x)) := Real.sqrt_pos.2 (lt_of_le_of_ne (dot_nonneg _) (Ne.symm h.1))
        have pb : 0 < Real.sqrt (dot (centred y) (centred y)) := Real.sqrt_pos.2 (lt_of_le_of_ne (dot_nonneg _) (Ne.symm h.2))
        have q : (T : ℝ) - 1 = Real.sqrt ((T : ℝ) - 1) * Real.sqrt ((T : ℝ) - 1) := (Real.mul_self_sqrt hp.le).symm
        rw [show dot (centred x) (centred y) / ((T : ℝ) - 1) = dot (centred x) (centred y) / (Real.sqrt ((T : ℝ) - 1) * Real.sqrt ((T : ℝ) - 1)) by rw [← q]]
        field_simp
      rw [e, clip_id (cosine_bounds h.1 h.2)]
    · push Not
      exact ⟨by omega, by rw [colCov_eq]; exact div_ne_zero h.1 hp.ne', by rw [colCov_eq]; exact div_ne_zero h.2 hp.ne'⟩

/-! ### ranks -/

/-- Two columns order the observations in the same way. -/
def SameOrder (x y : Fin T → ℝ) : Prop := ∀ s t, x s < x t ↔ y s < y t

/-- … in opposite ways. -/
def OppositeOrder (x y : Fin T → ℝ) : Prop := ∀ s t, x s < x t ↔ y t < y s

theorem rank_lt (x : Fin T → ℝ) {s t : Fin T} : rank x s < rank x t ↔ x s < x t := by
  classical
  have key : ∀ s t, x s < x t → rank x s < rank x t := by
    intro s t h
    unfold rank
    have hsub : (Finset.univ.filter fun r => x r < x s) ∪ (Finset.univ.filter fun r => x r = x s) ⊆ Finset.univ.filter fun r => x r < x t := by
      intro r hr
      simp only [Finset.mem_union, Finset.mem_filter, Finset.mem_univ, true_and] at hr ⊢
      rcases hr with hr | hr <;> linarith
    have hd : Disjoint (Finset.univ.filter fun r => x r < x s) (Finset.univ.filter fun r => x r = x s) := by
      rw [Finset.disjoint_filter]
      intro r _ h1 h2
      linarith
    have hc := Finset.card_le_card hsub
    rw [Finset.card_union_of_disjoint hd] at hc
    have h1 : 1 ≤ (Finset.univ.filter fun r => x r = x s).card := Finset.card_pos.2 ⟨s, by simp⟩
    have h2 : 1 ≤ (Finset.univ.filter fun r => x r = x t).card := Finset.card_pos.2 ⟨t, by simp⟩
    have c1 : ((Finset.univ.filter fun r => x r < x s).card : ℝ) + (Finset.univ.filter fun r => x r = x s).card ≤ (Finset.univ.filter fun r => x r < x t).card := by exact_mod_cast hc
    have c2 : (1 : ℝ) ≤ (Finset.univ.filter fun r => x r = x s).card := by exact_mod_cast h1
    have c3 : (1 : ℝ) ≤ (Finset.univ.filter fun r => x r = x t).card := by exact_mod_cast h2
    linarith
  constructor
  · intro h
    by_contra h'
    push Not at h'
    rcases eq_or_lt_of_le h' with e | e
    · have : rank x t = rank x s := by unfold rank; rw [e]
      linarith
    · have := key t s e
      linarith
  · exact key s t

theorem SameOrder.eq {x y : Fin T → ℝ} (h : SameOrder x y) (s t : Fin T) : x s = x t ↔ y s = y t := by
  constructor
  · intro e
    by_contra hne
    rcases lt_or_gt_of_ne hne with k | k
    · have := (h s t).2 k; linarith
    · have := (h t s).2 k; linarith
  · intro e
    by_contra hne
    rcases lt_or_gt_of_ne hne with k | k
    · have := (h s t).1 k; linarith
    · have := (h t s).1 k; linarith

theorem SameOrder.rank {x y : Fin T → ℝ} (h : SameOrder x y) : rank x = rank y := by
  classical
  funext t
  unfold Distance.rank
  have e1 : (Finset.univ.filter fun s => x s < x t) = Finset.univ.filter fun s => y s < y t := Finset.filter_congr fun s _ => h s t
  have e2 : (Finset.univ.filter fun s => x s = x t) = Finset.univ.filter fun s => y s = y t := Finset.filter_congr fun s _ => h.eq s t
  rw [e1, e2]

/-- The ranks in the opposite order. -/
theorem rank_neg (x : Fin T → ℝ) (t : Fin T) : rank (fun s => -x s) t = T + 1 - rank x t := by
  classical
  unfold rank
  have e1 : (Finset.univ.filter fun s => -x s < -x t) = Finset.univ.filter fun s => x t < x s := Finset.filter_congr fun s _ => neg_lt_neg_iff
  have e2 : (Finset.univ.filter fun s => -x s = -x t) = Finset.univ.filter fun s => x s = x t := Finset.filter_congr fun s _ => neg_inj
  rw [e1, e2]
  have tot : (Finset.univ.filter fun s => x s < x t).card + (Finset.univ.filter fun s => x s = x t).card + (Finset.univ.filter fun s => x t < x s).card = T := by
    have a1 : (Finset.univ.filter fun s => x s ≤ x t).card = (Finset.univ.filter fun s => x s < x t).card + (Finset.univ.filter fun s => x s = x t).card := by
      rw [← Finset.card_union_of_disjoint]
      · congr 1
        ext s
        simp [le_iff_lt_or_eq]
      · rw [Finset.disjoint_filter]
        intro s _ h1 h2
        linarith
    have a2 := Finset.card_filter_add_card_filter_not (s := (Finset.univ : Finset (Fin T))) (fun s => x s ≤ x t)
    rw [a1] at a2
    simpa using a2
  have tot' : ((Finset.univ.filter fun s => x s < x t).card : ℝ) + (Finset.univ.filter fun s => x s = x t).card + (Finset.univ.filter fun s => x t < x s).card = T := by exact_mod_cast tot
  linarith

theorem OppositeOrder.rank {x y : Fin T → ℝ} (h : OppositeOrder x y) (t : Fin T) : rank x t = T + 1 - rank y t := by
  have : SameOrder x fun s => -y s := fun s t => by rw [h s t, neg_lt_neg_iff]
  rw [this.rank, rank_neg]

/-- The ranks less their mean. -/
noncomputable def centredRank (x : Fin T → ℝ) (t : Fin T) : ℝ := rank x t - ((T : ℝ) + 1) / 2

theorem centredRank_zero {x : Fin T → ℝ} : dot (centredRank x) (centredRank x) = 0 ↔ ∀ s t, x s = x t := by
  rw [dot_zero]
  constructor
  · intro h s t
    have hs := h s
    have ht := h t
    unfold centredRank at hs ht
    by_contra hne
    rcases lt_or_gt_of_ne hne with k | k
    · have := (rank_lt x).2 k; linarith
    · have := (rank_lt x).2 k; linarith
  · intro h t
    have hr : OppositeOrder x x := fun s t => by rw [h s t]
    have := hr.rank t
    unfold centredRank
    linarith

theorem spearman_eq (x y : Fin T → ℝ) :
    spearman x y = if dot (centredRank x) (centredRank x) = 0 ∨ dot (centredRank y) (centredRank y) = 0 then none else some (cosine (centredRank x) (centredRank y)) := by
  have e : spearman x y = if Real.sqrt (dot (centredRank x) (centredRank x) * dot (centredRank y) (centredRank y)) ≠ 0 then
      some (dot (centredRank x) (centredRank y) / Real.sqrt (dot (centredRank x) (centredRank x) * dot (centredRank y) (centredRank y))) else none := rfl
  rw [e, Real.sqrt_mul (dot_nonneg _), ← ite_not]
  have hz : ∀ z : Fin T → ℝ, Real.sqrt (dot z z) = 0 ↔ dot z z = 0 := fun z => Real.sqrt_eq_zero (dot_nonneg z)
  simp only [ne_eq, mul_eq_zero, hz, not_not]
  rfl

/-! ### Kendall -/

/-- The signs of the differences. -/
noncomputable def signs (x : Fin T → ℝ) (p : Fin T × Fin T) : ℝ := Copula.sgn (x p.1) (x p.2)

theorem sgn_swap (a b : ℝ) : Copula.sgn b a = -Copula.sgn a b := by
  unfold Copula.sgn
  rcases lt_trichotomy a b with h | h | h
  · simp [h, not_lt.2 h.le]
  · simp [h]
  · simp [h, not_lt.2 h.le]

theorem sgn_one {a b : ℝ} : Copula.sgn a b = 1 ↔ a < b := by
  unfold Copula.sgn
  rcases lt_trichotomy a b with h | h | h
  · simp [h]
  · simp [h]
  · simp only [not_lt.2 h.le, if_false, h, if_true, iff_false]
    norm_num

theorem sgn_pos {a b : ℝ} : 0 < Copula.sgn a b ↔ a < b := by
  unfold Copula.sgn
  rcases lt_trichotomy a b with h | h | h
  · simp [h]
  · simp [h]
  · simp only [not_lt.2 h.le, if_false, h, if_true, iff_false]
    norm_num

/-- A sum over the pairs of places of a symmetric function that vanishes on the diagonal is half that over all pairs. -/
theorem pairSum_half (f : ℝ × ℝ → ℝ × ℝ → ℝ) (hs : ∀ a b, f a b = f b a) (hd : ∀ a, f a a = 0) (g : Fin T → ℝ × ℝ) :
    2 * Copula.pairSum f (List.ofFn g) = ∑ p : Fin T × Fin T, f (g p.1) (g p.2) := by
  induction T with
  | zero => simp [Copula.pairSum]
  | succ T ih =>
    rw [List.ofFn_succ, Copula.pairSum, mul_add, ih, Fintype.sum_prod_type, Fintype.sum_prod_type]
    simp only [Fin.sum_univ_succ, hd, zero_add, List.map_ofFn, List.sum_ofFn, Function.comp_apply, Finset.sum_add_distrib]
    have : ∑ i : Fin T, f (g i.succ) (g 0) = ∑ i : Fin T, f (g 0) (g i.succ) := Finset.sum_congr rfl fun i _ => hs _ _
    rw [this]
    ring

theorem signs_zero {x : Fin T → ℝ} : dot (signs x) (signs x) = 0 ↔ ∀ s t, x s = x t := by
  rw [dot_zero]
  constructor
  · intro h s t
    have h1 := h (s, t)
    by_contra hne
    have := Copula.sgn_sq (x s) (x t)
    rw [if_pos hne] at this
    rw [show Copula.sgn (x s) (x t) = 0 from h1] at this
    norm_num at this
  · intro h p
    have := Copula.sgn_sq (x p.1) (x p.2)
    rw [if_neg (by simpa using h p.1 p.2)] at this
    exact pow_eq_zero_iff (two_ne_zero) |>.1 this

theorem kendall_eq (x y : Fin T → ℝ) :
    kendall x y = if dot (signs x) (signs x) = 0 ∨ dot (signs y) (signs y) = 0 then none else some (cosine (signs x) (signs y)) := by
  have h0 := pairSum_half (fun a b => Copula.sgn a.1 b.1 * Copula.sgn a.2 b.2) (fun a b => by rw [sgn_swap b.1, sgn_swap b.2]; ring) (fun a => by simp [Copula.sgn]) fun t => (x t, y t)
  have h1 := pairSum_half (fun a b => Copula.sgn a.1 b.1 ^ 2) (fun a b => by rw [sgn_swap b.1]; ring) (fun a => by simp [Copula.sgn]) fun t => (x t, y t)
  have h2 := pairSum_half (fun a b => Copula.sgn a.2 b.2 ^ 2) (fun a b => by rw [sgn_swap b.2]; ring) (fun a => by simp [Copula.sgn]) fun t => (x t, y t)
  have e0 : dot (signs x) (signs y) = 2 * Copula.pairSum (fun a b => Copula.sgn a.1 b.1 * Copula.sgn a.2 b.2) (List.ofFn fun t => (x t, y t)) := h0.symm
  have e1 : dot (signs x) (signs x) = 2 * Copula.pairSum (fun a b => Copula.sgn a.1 b.1 ^ 2) (List.ofFn fun t => (x t, y t)) := by
    rw [h1]; exact Finset.sum_congr rfl fun p _ => (sq _).symm
  have e2 : dot (signs y) (signs y) = 2 * Copula.pairSum (fun a b => Copula.sgn a.2 b.2 ^ 2) (List.ofFn fun t => (x t, y t)) := by
    rw [h2]; exact Finset.sum_congr rfl fun p _ => (sq _).symm
  unfold kendall Copula.kendalltau
  generalize Copula.pairSum (fun a b => Copula.sgn a.1 b.1 * Copula.sgn a.2 b.2) (List.ofFn fun t => (x t, y t)) = s at e0 ⊢
  generalize Copula.pairSum (fun a b => Copula.sgn a.1 b.1 ^ 2) (List.ofFn fun t => (x t, y t)) = nx at e1 ⊢
  generalize Copula.pairSum (fun a b => Copula.sgn a.2 b.2 ^ 2) (List.ofFn fun t => (x t, y t)) = ny at e2 ⊢
  have i1 : dot (signs x) (signs x) = 0 ↔ nx = 0 := by rw [e1]; simp
  have i2 : dot (signs y) (signs y) = 0 ↔ ny = 0 := by rw [e2]; simp
  by_cases h : nx = 0 ∨ ny = 0
  · simp only [if_pos h]
    rw [if_pos (by rw [i1, i2]; exact h)]
  · have h' : ¬(dot (signs x) (signs x) = 0 ∨ dot (signs y) (signs y) = 0) := by rw [i1, i2]; exact h
    simp only [if_neg h, if_neg h']
    congr 1
    push Not at h'
    have hb := cosine_bounds h'.1 h'.2
    have nx0 : 0 < nx := by
      have := lt_of_le_of_ne (dot_nonneg (signs x)) (Ne.symm h'.1)
      linarith
    have ny0 : 0 < ny := by
      have := lt_of_le_of_ne (dot_nonneg (signs y)) (Ne.symm h'.2)
      linarith
    have e : cosine (signs x) (signs y) = s / Real.sqrt nx / Real.sqrt ny := by
      unfold cosine
      rw [e0, e1, e2, Real.sqrt_mul (by norm_num), Real.sqrt_mul (by norm_num)]
      have q : Real.sqrt 2 * Real.sqrt 2 = 2 := Real.mul_self_sqrt (by norm_num)
      rw [show Real.sqrt 2 * Real.sqrt nx * (Real.sqrt 2 * Real.sqrt ny) = (Real.sqrt 2 * Real.sqrt 2) * (Real.sqrt nx * Real.sqrt ny) by ring, q,
        mul_div_mul_left _ _ (by norm_num), div_div]
    rw [← e, min_eq_right hb.2, max_eq_right hb.1]

end Skfolio.Distance
