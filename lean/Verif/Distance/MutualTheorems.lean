import Verif.Distance.MutualModel
import Verif.Distance.Entropy
import Mathlib.Data.List.GetD
import Mathlib.Tactic.FinCases
import Mathlib.Algebra.Order.Floor.Semifield

/-!
Claim C84: mutual information and the variation of information.
-/
set_option autoImplicit false

namespace Skfolio.Distance

open Finset

variable {N n : Nat}

/-! ### specification -/

/-- `I(X, Y) = H(X) + H(Y) - H(X, Y)`. -/
noncomputable def info {ι A B : Type} [Fintype ι] [DecidableEq A] [DecidableEq B] (f : ι → A) (g : ι → B) : ℝ := H f + H g - H (joint f g)

/-- The variation of information, `H(X, Y) - I(X, Y)`. -/
noncomputable def variation {ι A B : Type} [Fintype ι] [DecidableEq A] [DecidableEq B] (f : ι → A) (g : ι → B) : ℝ := H (joint f g) - info f g

section
variable {ι A B C : Type} [Fintype ι] [DecidableEq A] [DecidableEq B] [DecidableEq C]

theorem info_nonneg [Nonempty ι] (f : ι → A) (g : ι → B) : 0 ≤ info f g := by
  have := H_joint_le_add f g
  unfold info
  linarith

theorem info_le (f : ι → A) (g : ι → B) : info f g ≤ min (H f) (H g) := by
  have h1 := H_le_joint f g
  have h2 := H_le_joint' f g
  unfold info
  exact le_min (by linarith) (by linarith)

theorem variation_eq (f : ι → A) (g : ι → B) : variation f g = (H (joint f g) - H f) + (H (joint f g) - H g) := by
  unfold variation info; ring

theorem variation_nonneg (f : ι → A) (g : ι → B) : 0 ≤ variation f g := by
  have h1 := H_le_joint f g
  have h2 := H_le_joint' f g
  rw [variation_eq]; linarith

theorem variation_le (f : ι → A) (g : ι → B) [Nonempty ι] : variation f g ≤ H (joint f g) := by
  have := info_nonneg f g
  unfold variation; linarith

theorem variation_comm (f : ι → A) (g : ι → B) : variation f g = variation g f := by
  rw [variation_eq, variation_eq, H_joint_comm]; ring

theorem info_comm (f : ι → A) (g : ι → B) : info f g = info g f := by
  unfold info; rw [H_joint_comm]; ring

theorem variation_triangle (f : ι → A) (g : ι → B) (h : ι → C) : variation f h ≤ variation f g + variation g h := by
  have := H_triangle f g h
  rw [variation_eq, variation_eq, variation_eq]
  linarith

theorem variation_eq_zero_iff (f : ι → A) (g : ι → B) : variation f g = 0 ↔ ∀ s t, f s = f t ↔ g s = g t := by
  have h1 := H_le_joint f g
  have h2 := H_le_joint' f g
  have e1 := H_joint_eq_iff f g
  have e2 := H_joint_eq_iff g f
  rw [← H_joint_comm] at e2
  rw [variation_eq]
  constructor
  · intro h s t
    exact ⟨e1.1 (by linarith) s t, e2.1 (by linarith) s t⟩
  · intro h
    have a := e1.2 fun s t => (h s t).1
    have b := e2.2 fun s t => (h s t).2
    linarith

/-- Half of the normalised variation satisfies the triangle inequality. -/
theorem half_triangle (f : ι → A) (g : ι → B) (h : ι → C) :
    (H (joint f h) - H h) / H (joint f h) ≤ (H (joint f g) - H g) / H (joint f g) + (H (joint g h) - H h) / H (joint g h) := by
  have t := H_triangle f g h
  have a0 : 0 ≤ H (joint f g) - H g := sub_nonneg.2 (H_le_joint' f g)
  have b0 : 0 ≤ H (joint g h) - H h := sub_nonneg.2 (H_le_joint' g h)
  have u0 : 0 ≤ H (joint f h) - H h := sub_nonneg.2 (H_le_joint' f h)
  have c0 : 0 ≤ H h := H_nonneg h
  have g0 : 0 ≤ H g := H_nonneg g
  have gh : H g ≤ H (joint g h) := H_le_joint g h
  generalize H (joint f h) = fh at *
  generalize H (joint f g) = fg at *
  generalize H (joint g h) = gh' at *
  generalize H g = hg at *
  generalize H h = hh at *
  have r1 : 0 ≤ (fg - hg) / fg := div_nonneg a0 (by linarith)
  have r2 : 0 ≤ (gh' - hh) / gh' := div_nonneg b0 (by linarith)
  rcases (by linarith : 0 ≤ fh).eq_or_lt with hz | hfh
  · rw [← hz, div_zero]; linarith
  set S := (fg - hg) + gh' with hS
  have hSpos : 0 < S := by rw [hS]; linarith
  have k1 : (fh - hh) / fh ≤ (fg - hg) / S + (gh' - hh) / S := by
    rw [← add_div, div_le_div_iff₀ hfh hSpos]
    nlinarith
  have k2 : (fg - hg) / S ≤ (fg - hg) / fg := by
    rcases (by linarith : 0 ≤ fg).eq_or_lt with h0 | hp
    · have : fg - hg = 0 := by linarith
      rw [this]; simp
    · exact div_le_div_of_nonneg_left a0 hp (by linarith)
  have k3 : (gh' - hh) / S ≤ (gh' - hh) / gh' := by
    rcases (by linarith : 0 ≤ gh').eq_or_lt with h0 | hp
    · have : gh' - hh = 0 := by linarith
      rw [this]; simp
    · exact div_le_div_of_nonneg_left b0 hp (by linarith)
  linarith

theorem normalised_triangle (f : ι → A) (g : ι → B) (h : ι → C) :
    variation f h / H (joint f h) ≤ variation f g / H (joint f g) + variation g h / H (joint g h) := by
  have h1 := half_triangle f g h
  have h2 := half_triangle h g f
  rw [H_joint_comm h f, H_joint_comm h g, H_joint_comm g f] at h2
  rw [variation_eq, variation_eq, variation_eq, add_div, add_div, add_div]
  linarith

end

/-! ### histograms -/

theorem binOf_lt (bins : Nat) (hb : 0 < bins) (x : Fin (N + 1) → ℝ) (t : Fin (N + 1)) : binOf bins x t < bins := by
  unfold binOf
  simp only
  exact lt_of_le_of_lt (min_le_left _ _) (by omega)

theorem histogram_cls (bins : Nat) (x : Fin (N + 1) → ℝ) (t : Fin (N + 1)) : histogram bins x (binOf bins x t) = cls (binOf bins x) t := rfl

theorem histogram2d_cls (bins : Nat) (x y : Fin (N + 1) → ℝ) (t : Fin (N + 1)) :
    histogram2d bins x y (binOf bins x t) (binOf bins y t) = cls (joint (binOf bins x) (binOf bins y)) t := by
  unfold histogram2d cls joint
  simp [Prod.mk.injEq]

/-- A sum over the observations is a sum over the bins. -/
theorem sum_bins (bins : Nat) (hb : 0 < bins) (x : Fin (N + 1) → ℝ) (F : Nat → ℝ) :
    ∑ t, F (binOf bins x t) = ∑ a ∈ range bins, (histogram bins x a : ℝ) * F a := by
  rw [← sum_fiberwise_of_maps_to (s := univ) (t := range bins) (g := binOf bins x) (fun t _ => mem_range.2 (binOf_lt bins hb x t))]
  refine sum_congr rfl fun a _ => ?_
  have : ∑ t ∈ univ.filter (fun t => binOf bins x t = a), F (binOf bins x t) = ∑ t ∈ univ.filter (fun t => binOf bins x t = a), F a :=
    sum_congr rfl fun t ht => by rw [(mem_filter.1 ht).2]
  rw [this, sum_const, nsmul_eq_mul]
  rfl

theorem sum_histogram (bins : Nat) (hb : 0 < bins) (x : Fin (N + 1) → ℝ) : ∑ a ∈ range bins, (histogram bins x a : ℝ) = (N + 1 : Nat) := by
  have := sum_bins bins hb x fun _ => 1
  simp only [mul_one] at this
  rw [← this]
  simp

theorem histogram2d_row (bins : Nat) (hb : 0 < bins) (x y : Fin (N + 1) → ℝ) (a : Nat) :
    ∑ b ∈ range bins, (histogram2d bins x y a b : ℝ) = histogram bins x a := by
  have h := sum_fiberwise_of_maps_to (s := univ.filter fun t => binOf bins x t = a) (t := range bins) (g := binOf bins y)
    (fun t _ => mem_range.2 (binOf_lt bins hb y t)) (fun _ => (1 : ℝ))
  rw [sum_const, nsmul_eq_mul, mul_one] at h
  unfold histogram
  rw [← h]
  refine sum_congr rfl fun b _ => ?_
  rw [sum_const, nsmul_eq_mul, mul_one, filter_filter]
  rfl

theorem histogram2d_col (bins : Nat) (hb : 0 < bins) (x y : Fin (N + 1) → ℝ) (b : Nat) :
    ∑ a ∈ range bins, (histogram2d bins x y a b : ℝ) = histogram bins y b := by
  rw [← histogram2d_row bins hb y x b]
  refine sum_congr rfl fun a _ => ?_
  unfold histogram2d
  simp only [and_comm]

theorem sum_bins2 (bins : Nat) (hb : 0 < bins) (x y : Fin (N + 1) → ℝ) (F : Nat → Nat → ℝ) :
    ∑ t, F (binOf bins x t) (binOf bins y t) = ∑ a ∈ range bins, ∑ b ∈ range bins, (histogram2d bins x y a b : ℝ) * F a b := by
  rw [← sum_fiberwise_of_maps_to (s := univ) (t := range bins) (g := binOf bins x) (fun t _ => mem_range.2 (binOf_lt bins hb x t))]
  refine sum_congr rfl fun a _ => ?_
  rw [← sum_fiberwise_of_maps_to (t := range bins) (g := binOf bins y) (fun t _ => mem_range.2 (binOf_lt bins hb y t))]
  refine sum_congr rfl fun b _ => ?_
  rw [filter_filter]
  have : ∑ t ∈ univ.filter (fun t => binOf bins x t = a ∧ binOf bins y t = b), F (binOf bins x t) (binOf bins y t) =
      ∑ t ∈ univ.filter (fun t => binOf bins x t = a ∧ binOf bins y t = b), F a b :=
    sum_congr rfl fun t ht => by rw [(mem_filter.1 ht).2.1, (mem_filter.1 ht).2.2]
  rw [this, sum_const, nsmul_eq_mul]
  rfl

/-- The entropy of the counts is that of the labelling by bins. -/
theorem entropy_spec (bins : Nat) (hb : 0 < bins) (x : Fin (N + 1) → ℝ) : entropyOf bins (histogram bins x) = H (binOf bins x) := by
  unfold entropyOf H
  rw [sum_histogram bins hb]
  simp only [Fintype.card_fin, ← histogram_cls]
  rw [sum_bins bins hb x fun a => -Real.log ((histogram bins x a : ℝ) / (N + 1 : Nat)), sum_div]
  refine sum_congr rfl fun a _ => ?_
  unfold Real.negMulLog
  ring

/-- The score of the contingency table is the mutual information of the labellings by bins. -/
theorem mutual_spec (bins : Nat) (hb : 0 < bins) (x y : Fin (N + 1) → ℝ) :
    mutualInfoScore bins (histogram2d bins x y) = info (binOf bins x) (binOf bins y) := by
  have hI := info_nonneg (binOf bins x) (binOf bins y)
  unfold mutualInfoScore
  simp only [histogram2d_row bins hb, histogram2d_col bins hb, sum_histogram bins hb]
  by_cases h1 : bins = 1
  · rw [if_pos h1]
    have hc : ∀ z : Fin (N + 1) → ℝ, H (binOf bins z) = 0 := by
      intro z
      rw [H_eq_zero_iff]
      intro s t
      have a := binOf_lt bins hb z s
      have b := binOf_lt bins hb z t
      omega
    have := info_le (binOf bins x) (binOf bins y)
    rw [hc, hc, min_self] at this
    linarith
  · rw [if_neg h1]
    have key : ∑ a ∈ range bins, ∑ b ∈ range bins, (if histogram2d bins x y a b = 0 then (0 : ℝ) else
        (histogram2d bins x y a b : ℝ) / (N + 1 : Nat) * (Real.log (histogram2d bins x y a b) - Real.log (N + 1 : Nat)) +
          (histogram2d bins x y a b : ℝ) / (N + 1 : Nat) *
            (-Real.log ((histogram bins x a : ℝ) * histogram bins y b) + Real.log (N + 1 : Nat) + Real.log (N + 1 : Nat))) =
        info (binOf bins x) (binOf bins y) := by
      have hterm : ∀ a ∈ range bins, ∀ b ∈ range bins, (if histogram2d bins x y a b = 0 then (0 : ℝ) else
        (histogram2d bins x y a b : ℝ) / (N + 1 : Nat) * (Real.log (histogram2d bins x y a b) - Real.log (N + 1 : Nat)) +
          (histogram2d bins x y a b : ℝ) / (N + 1 : Nat) *
            (-Real.log ((histogram bins x a : ℝ) * histogram bins y b) + Real.log (N + 1 : Nat) + Real.log (N + 1 : Nat))) =
          (histogram2d bins x y a b : ℝ) * (Real.log (histogram2d bins x y a b) + Real.log (N + 1 : Nat) - Real.log ((histogram bins x a : ℝ) * histogram bins y b)) / (N + 1 : Nat) := by
        intro a _ b _
        by_cases hz : histogram2d bins x y a b = 0
        · rw [if_pos hz, hz]; simp
        · rw [if_neg hz]; ring
      rw [sum_congr rfl fun a ha => sum_congr rfl (hterm a ha)]
      simp only [← sum_div]
      rw [← sum_bins2 bins hb x y fun a b => Real.log (histogram2d bins x y a b) + Real.log (N + 1 : Nat) - Real.log ((histogram bins x a : ℝ) * histogram bins y b)]
      unfold info H
      rw [← add_div, ← sub_div, ← sum_add_distrib, ← sum_sub_distrib]
      simp only [Fintype.card_fin, histogram2d_cls, histogram_cls]
      congr 1
      refine sum_congr rfl fun t _ => ?_
      have hN : ((N + 1 : Nat) : ℝ) ≠ 0 := Nat.cast_ne_zero.2 (by omega)
      have c1 : (cls (binOf bins x) t : ℝ) ≠ 0 := Nat.cast_ne_zero.2 (cls_pos _ t).ne'
      have c2 : (cls (binOf bins y) t : ℝ) ≠ 0 := Nat.cast_ne_zero.2 (cls_pos _ t).ne'
      have c3 : (cls (joint (binOf bins x) (binOf bins y)) t : ℝ) ≠ 0 := Nat.cast_ne_zero.2 (cls_pos _ t).ne'
      rw [Real.log_mul c1 c2, Real.log_div c1 hN, Real.log_div c2 hN, Real.log_div c3 hN]
      ring
    rw [key]
    exact max_eq_right hI

/-- The entries for two assets. -/
theorem pair_spec (normalize : Bool) (bins : Nat) (hb : 0 < bins) (x y : Fin (N + 1) → ℝ) :
    let f := binOf bins x
    let g := binOf bins y
    pairEntry normalize bins x y =
      if normalize then (if min (H f) (H g) = 0 then none else some (info f g / min (H f) (H g)), variation f g / H (joint f g)) else (some (info f g), variation f g) := by
  intro f g
  have e1 : H f + H g - info f g = H (joint f g) := by unfold info; ring
  have e2 : H f + H g - 2 * info f g = variation f g := by rw [variation_eq]; unfold info; ring
  unfold pairEntry
  simp only [entropy_spec bins hb, mutual_spec bins hb]
  change (if normalize then (if min (H f) (H g) = 0 then none else some (info f g / min (H f) (H g)),
    if H f + H g - info f g = 0 then 0 else max 0 ((H f + H g - 2 * info f g) / (H f + H g - info f g))) else (some (info f g), max 0 (H f + H g - 2 * info f g))) = _
  rw [e1, e2, max_eq_right (variation_nonneg f g), max_eq_right (div_nonneg (variation_nonneg f g) (H_nonneg _))]
  by_cases hz : H (joint f g) = 0
  · rw [if_pos hz, hz, div_zero]
  · rw [if_neg hz]

/-! ### the claims -/

/-- The number of bins for two assets. -/
noncomputable def pairBins (knuth : (Fin (N + 1) → ℝ) → Nat) (method : NBinsMethod) (nBins : Option Nat) (X : Fin n → Fin (N + 1) → ℝ) (i j : Fin n) : Nat :=
  max (nBinsOf knuth method nBins (X i)) (nBinsOf knuth method nBins (X j))

theorem fit_entries {knuth : (Fin (N + 1) → ℝ) → Nat} {method : NBinsMethod} {nBins : Option Nat} {normalize : Bool} {X : Fin n → Fin (N + 1) → ℝ}
    {corr : Fin n → Fin n → Option ℝ} {dist : Fin n → Fin n → ℝ} (h : mutualFit knuth method nBins normalize X = .ok (corr, dist)) (i j : Fin n) :
    0 < pairBins knuth method nBins X i j ∧
    (corr i j, dist i j) = pairEntry normalize (pairBins knuth method nBins X i j) (X i) (X j) := by
  unfold mutualFit at h
  simp only at h
  by_cases he : ∃ i j, max (nBinsOf knuth method nBins (X i)) (nBinsOf knuth method nBins (X j)) = 0
  · rw [if_pos he] at h; cases h
  · rw [if_neg he] at h
    push Not at he
    have hpos : ∀ i j, 0 < pairBins knuth method nBins X i j := fun i j => Nat.pos_of_ne_zero (he i j)
    cases h
    refine ⟨hpos i j, ?_⟩
    simp only
    by_cases hij : i ≤ j
    · rw [if_pos hij]; rfl
    · rw [if_neg hij]
      have e : max (nBinsOf knuth method nBins (X j)) (nBinsOf knuth method nBins (X i)) = pairBins knuth method nBins X i j := max_comm _ _
      rw [e]
      have hb := hpos i j
      generalize pairBins knuth method nBins X i j = b at hb
      rw [pair_spec normalize b hb (X i) (X j)]
      have := pair_spec normalize b hb (X j) (X i)
      rw [this, variation_comm, info_comm, H_joint_comm, min_comm]

/-- **C84.** `fit` succeeds if the numbers of bins are positive, as those of the Freedman-Diaconis rule always are. -/
theorem C84_succeeds (knuth : (Fin (N + 1) → ℝ) → Nat) (normalize : Bool) (X : Fin n → Fin (N + 1) → ℝ) :
    (∃ r, mutualFit knuth .freedman none normalize X = .ok r) ∧ ∀ method b, 0 < b → ∃ r, mutualFit knuth method (some b) normalize X = .ok r := by
  constructor
  · have hf : ∀ x : Fin (N + 1) → ℝ, 1 ≤ freedman x := by
      intro x
      unfold freedman
      simp only
      by_cases h : 2 * (percentile (3 / 4) x - percentile (1 / 4) x) / ((N + 1 : Nat) : ℝ) ^ ((1 : ℝ) / 3) = 0
      · rw [if_pos h]; omega
      · rw [if_neg h]; exact le_max_left _ _
    refine ⟨(mutualFit knuth .freedman none normalize X).toOption.getD (fun _ _ => none, fun _ _ => 0), ?_⟩
    · have : ¬ ∃ i j, max (nBinsOf knuth .freedman none (X i)) (nBinsOf knuth .freedman none (X j)) = 0 := by
        push Not
        intro i j
        have a : 1 ≤ nBinsOf knuth .freedman none (X i) := hf (X i)
        omega
      unfold mutualFit
      simp only
      rw [if_neg this]
      rfl
  · intro method b hb
    refine ⟨(mutualFit knuth method (some b) normalize X).toOption.getD (fun _ _ => none, fun _ _ => 0), ?_⟩
    · have : ¬ ∃ i j, max (nBinsOf knuth method (some b) (X i)) (nBinsOf knuth method (some b) (X j)) = 0 := by
        push Not
        intro i j
        unfold nBinsOf
        simp only
        omega
      unfold mutualFit
      simp only
      rw [if_neg this]
      rfl

variable {knuth : (Fin (N + 1) → ℝ) → Nat} {method : NBinsMethod} {nBins : Option Nat} {normalize : Bool} {X : Fin n → Fin (N + 1) → ℝ}
  {corr : Fin n → Fin n → Option ℝ} {dist : Fin n → Fin n → ℝ}

/-- **C84.** The entries are those documented, with the entropies of the labellings by bins: `I = H(X) + H(Y) - H(X, Y)` and `H(X, Y) - I`, normalised
by the smaller entropy and by the joint entropy. -/
theorem C84_formula (h : mutualFit knuth method nBins normalize X = .ok (corr, dist)) (i j : Fin n) :
    let f := binOf (pairBins knuth method nBins X i j) (X i)
    let g := binOf (pairBins knuth method nBins X i j) (X j)
    (normalize = false → corr i j = some (H f + H g - H (joint f g)) ∧ dist i j = H (joint f g) - (H f + H g - H (joint f g))) ∧
    (normalize = true → (0 < min (H f) (H g) → corr i j = some ((H f + H g - H (joint f g)) / min (H f) (H g))) ∧
      dist i j = (H (joint f g) - (H f + H g - H (joint f g))) / H (joint f g)) := by
  intro f g
  obtain ⟨hb, e⟩ := fit_entries h i j
  rw [pair_spec normalize _ hb] at e
  constructor
  · rintro rfl
    simp only [Bool.false_eq_true, if_false, Prod.mk.injEq] at e
    exact e
  · rintro rfl
    simp only [if_true, Prod.mk.injEq] at e
    refine ⟨fun hp => ?_, e.2⟩
    rw [e.1, if_neg hp.ne']
    rfl

/-- **C84.** Both matrices are symmetric. -/
theorem C84_symmetric (h : mutualFit knuth method nBins normalize X = .ok (corr, dist)) (i j : Fin n) : corr i j = corr j i ∧ dist i j = dist j i := by
  obtain ⟨hb, e⟩ := fit_entries h i j
  obtain ⟨_, e'⟩ := fit_entries h j i
  have hp : pairBins knuth method nBins X j i = pairBins knuth method nBins X i j := max_comm _ _
  rw [hp] at e'
  rw [pair_spec normalize _ hb] at e e'
  rw [variation_comm, info_comm, H_joint_comm, min_comm] at e'
  rw [← e] at e'
  exact ⟨(Prod.mk.inj e').1.symm, (Prod.mk.inj e').2.symm⟩

/-- **C84.** The distances are not negative and 0 on the diagonal; the mutual information is between 0 and the smaller entropy; normalised, both are between 0 and 1. -/
theorem C84_bounds (h : mutualFit knuth method nBins normalize X = .ok (corr, dist)) (i j : Fin n) :
    0 ≤ dist i j ∧ dist i i = 0 ∧ (∀ c, corr i j = some c → 0 ≤ c) ∧ (normalize = true → dist i j ≤ 1 ∧ ∀ c, corr i j = some c → c ≤ 1) ∧
    (normalize = false → ∀ c, corr i j = some c → c ≤ min (H (binOf (pairBins knuth method nBins X i j) (X i))) (H (binOf (pairBins knuth method nBins X i j) (X j)))) ∧
    (∀ c, corr i i = some c → normalize = true → c = 1) := by
  obtain ⟨hb, e⟩ := fit_entries h i j
  obtain ⟨hbi, ei⟩ := fit_entries h i i
  rw [pair_spec normalize _ hb] at e
  rw [pair_spec normalize _ hbi] at ei
  have vd : ∀ f : Fin (N + 1) → Nat, variation f f = 0 := fun f => (variation_eq_zero_iff f f).2 fun _ _ => Iff.rfl
  generalize binOf (pairBins knuth method nBins X i j) (X i) = f at *
  generalize binOf (pairBins knuth method nBins X i j) (X j) = g at *
  generalize binOf (pairBins knuth method nBins X i i) (X i) = k at *
  have hm : 0 ≤ min (H f) (H g) := le_min (H_nonneg f) (H_nonneg g)
  cases normalize
  · simp only [Bool.false_eq_true, if_false, Prod.mk.injEq] at e ei
    rw [e.1, e.2, ei.1, ei.2]
    refine ⟨variation_nonneg f g, vd k, ?_, fun h => by (cases h), ?_, fun c _ h => by (cases h)⟩
    · rintro c hc; cases hc; exact info_nonneg f g
    · rintro _ c hc; cases hc; exact info_le f g
  · simp only [if_true, Prod.mk.injEq] at e ei
    rw [e.1, e.2, ei.1, ei.2, vd k, zero_div]
    refine ⟨div_nonneg (variation_nonneg f g) (H_nonneg _), rfl, ?_, fun _ => ⟨div_le_one_of_le₀ (variation_le f g) (H_nonneg _), ?_⟩, fun h => by (cases h), ?_⟩
    · intro c hc
      by_cases hz : min (H f) (H g) = 0
      · rw [if_pos hz] at hc; cases hc
      · rw [if_neg hz] at hc; cases hc
        exact div_nonneg (info_nonneg f g) hm
    · intro c hc
      by_cases hz : min (H f) (H g) = 0
      · rw [if_pos hz] at hc; cases hc
      · rw [if_neg hz] at hc; cases hc
        exact div_le_one_of_le₀ (info_le f g) hm
    · intro c hc _
      by_cases hz : min (H k) (H k) = 0
      · rw [if_pos hz] at hc; cases hc
      · rw [if_neg hz] at hc; cases hc
        rw [min_self] at hz ⊢
        have : info k k = H k := by
          have := vd k
          rw [variation_eq] at this
          have h1 := H_le_joint k k
          unfold info
          linarith
        rw [this, div_self hz]

/-- **C84.** With a number of bins given by the user, the distance is a pseudometric, normalised or not: the triangle inequality holds. -/
theorem C84_triangle {b : Nat} (h : mutualFit knuth method (some b) normalize X = .ok (corr, dist)) (i j k : Fin n) : dist i k ≤ dist i j + dist j k := by
  obtain ⟨hb, e1⟩ := fit_entries h i k
  obtain ⟨_, e2⟩ := fit_entries h i j
  obtain ⟨_, e3⟩ := fit_entries h j k
  have hp : ∀ i j, pairBins knuth method (some b) X i j = b := fun i j => max_self b
  rw [hp] at e1 e2 e3 hb
  rw [pair_spec normalize b hb] at e1 e2 e3
  cases normalize
  · simp only [Bool.false_eq_true, if_false, Prod.mk.injEq] at e1 e2 e3
    rw [e1.2, e2.2, e3.2]
    exact variation_triangle _ _ _
  · simp only [if_true, Prod.mk.injEq] at e1 e2 e3
    rw [e1.2, e2.2, e3.2]
    exact normalised_triangle _ _ _

/-- **C84.** The distance of two assets is 0 exactly if their observations fall into bins together. -/
theorem C84_zero_iff (h : mutualFit knuth method nBins normalize X = .ok (corr, dist)) (i j : Fin n) :
    dist i j = 0 ↔ ∀ s t, binOf (pairBins knuth method nBins X i j) (X i) s = binOf (pairBins knuth method nBins X i j) (X i) t ↔
      binOf (pairBins knuth method nBins X i j) (X j) s = binOf (pairBins knuth method nBins X i j) (X j) t := by
  obtain ⟨hb, e⟩ := fit_entries h i j
  rw [pair_spec normalize _ hb] at e
  rw [← variation_eq_zero_iff]
  generalize binOf (pairBins knuth method nBins X i j) (X i) = f at *
  generalize binOf (pairBins knuth method nBins X i j) (X j) = g at *
  cases normalize
  · simp only [Bool.false_eq_true, if_false, Prod.mk.injEq] at e
    rw [e.2]
  · simp only [if_true, Prod.mk.injEq] at e
    rw [e.2, div_eq_zero_iff]
    constructor
    · rintro (h | h)
      · exact h
      · have := variation_le f g
        have := variation_nonneg f g
        linarith
    · exact Or.inl

/-- **C84** (negated). An asset with one occupied bin (constant returns, or `n_bins = 1`) has no normalised codependence, not even with itself (NaN);
its distance is 0 to itself and 1 to every asset with more than one occupied bin. -/
theorem C84_constant (h : mutualFit knuth method nBins true X = .ok (corr, dist)) (i j : Fin n)
    (hc : ∀ s t, binOf (pairBins knuth method nBins X i j) (X i) s = binOf (pairBins knuth method nBins X i j) (X i) t) :
    corr i j = none ∧ ((∃ s t, binOf (pairBins knuth method nBins X i j) (X j) s ≠ binOf (pairBins knuth method nBins X i j) (X j) t) → dist i j = 1) := by
  obtain ⟨hb, e⟩ := fit_entries h i j
  rw [pair_spec true _ hb] at e
  generalize binOf (pairBins knuth method nBins X i j) (X i) = f at *
  generalize binOf (pairBins knuth method nBins X i j) (X j) = g at *
  simp only [if_true, Prod.mk.injEq] at e
  have hf : H f = 0 := (H_eq_zero_iff f).2 hc
  rw [e.1, e.2]
  constructor
  · rw [if_pos]
    rw [hf]
    exact min_eq_left (H_nonneg g)
  · rintro ⟨s, t, hst⟩
    have hg : H g ≠ 0 := fun h0 => hst ((H_eq_zero_iff g).1 h0 s t)
    have h1 := H_le_joint' f g
    have h2 := H_joint_le_add f g
    have : H (joint f g) = H g := by linarith
    rw [variation_eq, this, hf]
    field_simp
    ring

/-- **C84.** The bins are intervals of the same length from the smallest to the largest return of the asset, closed on the left, the last one on both sides. -/
theorem C84_bins {b : Nat} (hb : 0 < b) {x : Fin (N + 1) → ℝ} {m M : ℝ} (hm : IsLeast (Set.range x) m) (hM : IsGreatest (Set.range x) M) (hlt : m < M)
    (t : Fin (N + 1)) (a : Nat) :
    binOf b x t = a ↔ a < b ∧ m + a * ((M - m) / b) ≤ x t ∧ (a + 1 < b → x t < m + (a + 1) * ((M - m) / b)) := by
  have el : lo x = m := by
    obtain ⟨⟨s, hs⟩, h⟩ := hm
    exact le_antisymm (hs ▸ inf'_le x (mem_univ s)) (le_inf' _ _ fun s _ => h ⟨s, rfl⟩)
  have eh : hi x = M := by
    obtain ⟨⟨s, hs⟩, h⟩ := hM
    exact le_antisymm (sup'_le _ _ fun s _ => h ⟨s, rfl⟩) (hs ▸ le_sup' x (mem_univ s))
  have hx : m ≤ x t := hm.2 ⟨t, rfl⟩
  have hd : 0 < M - m := by linarith
  have hb' : (0 : ℝ) < b := by exact_mod_cast hb
  have hnn : 0 ≤ (x t - m) * b / (M - m) := div_nonneg (mul_nonneg (by linarith) hb'.le) hd.le
  have key : ∀ c : ℝ, c ≤ (x t - m) * b / (M - m) ↔ m + c * ((M - m) / b) ≤ x t := by
    intro c
    rw [le_div_iff₀ hd, ← sub_nonneg, ← sub_nonneg (a := x t)]
    have : (x t - m) * b - c * (M - m) = b * (x t - (m + c * ((M - m) / b))) := by
      field_simp
      ring
    rw [this]
    exact mul_nonneg_iff_of_pos_left hb'
  unfold binOf
  simp only [el, eh, if_neg hlt.ne]
  generalize hv : (x t - m) * b / (M - m) = v at *
  have fl : ∀ k : Nat, k ≤ ⌊v⌋₊ ↔ m + k * ((M - m) / b) ≤ x t := fun k => by rw [Nat.le_floor_iff hnn, key]
  have fl' : x t < m + (a + 1) * ((M - m) / b) ↔ ⌊v⌋₊ < a + 1 := by
    rw [← not_le, ← not_le, fl (a + 1)]
    push_cast
    rfl
  rw [← fl a, fl']
  omega

/-! ### the default number of bins -/

theorem lo_eq (x : Fin (N + 1) → ℝ) (a : ℝ) (t : Fin (N + 1)) (ht : x t = a) (hle : ∀ s, a ≤ x s) : lo x = a :=
  le_antisymm (ht ▸ inf'_le x (mem_univ t)) (le_inf' _ _ fun s _ => hle s)

theorem hi_eq (x : Fin (N + 1) → ℝ) (a : ℝ) (t : Fin (N + 1)) (ht : x t = a) (hle : ∀ s, x s ≤ a) : hi x = a :=
  le_antisymm (sup'_le _ _ fun s _ => hle s) (ht ▸ le_sup' x (mem_univ t))

/-- Eight returns in increasing order between 0 and 12. -/
structure Ladder (y : Fin 8 → Nat) : Prop where
  mono : ∀ s t, s ≤ t → y s ≤ y t
  first : y 0 = 0
  second : y 1 = 0
  third : y 2 = 0
  last : y 7 = 12

theorem ladder_lo {y : Fin 8 → Nat} (h : Ladder y) : lo (fun t => (y t : ℝ)) = 0 :=
  lo_eq _ 0 0 (by simp [h.first]) fun s => Nat.cast_nonneg _

theorem ladder_hi {y : Fin 8 → Nat} (h : Ladder y) : hi (fun t => (y t : ℝ)) = 12 := by
  refine hi_eq _ 12 7 (by simp [h.last]) fun s => ?_
  have := h.mono s 7 (Fin.le_last s)
  rw [h.last] at this
  exact_mod_cast this

theorem ladder_bin {y : Fin 8 → Nat} (h : Ladder y) (b : Nat) (t : Fin 8) : binOf b (fun t => (y t : ℝ)) t = min (b - 1) (y t * b / 12) := by
  unfold binOf
  simp only [ladder_lo h, ladder_hi h]
  rw [if_neg (by norm_num), if_neg (by norm_num), sub_zero, sub_zero]
  have := Nat.floor_div_eq_div (K := ℝ) (y t * b) 12
  push_cast at this
  rw [this]

theorem ladder_freedman {y : Fin 8 → Nat} (h : Ladder y) (hd : 0 < y 5) :
    freedman (fun t => (y t : ℝ)) = max 1 ⌈(12 : ℝ) / (y 5 + ((y 6 : ℝ) - y 5) / 4)⌉.toNat := by
  have hs : (List.ofFn fun t => (y t : ℝ)).insertionSort (· ≤ ·) = List.ofFn fun t => (y t : ℝ) := by
    apply List.Pairwise.insertionSort_eq
    rw [List.pairwise_ofFn]
    intro s t hst
    exact_mod_cast h.mono s t hst.le
  have hl : (List.ofFn fun t => (y t : ℝ)) = [(y 0 : ℝ), y 1, y 2, y 3, y 4, y 5, y 6, y 7] := by
    simp [List.ofFn_succ]
  rw [hl] at hs
  have f1 : ⌊(1 / 4 : ℝ) * (7 : Nat)⌋₊ = 1 := by rw [Nat.floor_eq_iff (by norm_num)]; norm_num
  have f3 : ⌊(3 / 4 : ℝ) * (7 : Nat)⌋₊ = 5 := by rw [Nat.floor_eq_iff (by norm_num)]; norm_num
  have p1 : percentile (1 / 4) (fun t => (y t : ℝ)) = 0 := by
    unfold percentile
    simp only [hl, hs, f1]
    simp [h.second, h.third]
  have p3 : percentile (3 / 4) (fun t => (y t : ℝ)) = y 5 + ((y 6 : ℝ) - y 5) / 4 := by
    unfold percentile
    simp only [hl, hs, f3]
    simp
    ring
  have hr : ((7 + 1 : Nat) : ℝ) ^ ((1 : ℝ) / 3) = 2 := by
    have : ((7 + 1 : Nat) : ℝ) = (2 : ℝ) ^ (3 : ℝ) := by norm_num
    rw [this, ← Real.rpow_mul (by norm_num)]
    norm_num
  have h56 : (y 5 : ℝ) ≤ y 6 := by exact_mod_cast h.mono 5 6 (by decide)
  have h5 : (0 : ℝ) < y 5 := by exact_mod_cast hd
  unfold freedman
  simp only [p1, p3, ladder_lo h, ladder_hi h, hr]
  have e : 2 * ((y 5 : ℝ) + ((y 6 : ℝ) - y 5) / 4 - 0) / 2 = y 5 + ((y 6 : ℝ) - y 5) / 4 := by ring
  rw [e, if_neg (by intro h0; linarith), sub_zero]

/-- Three assets over eight days. -/
def ladders : Fin 3 → Fin 8 → Nat := ![![0, 0, 0, 1, 1, 7, 12, 12], ![0, 0, 0, 1, 2, 6, 7, 12], ![0, 0, 0, 0, 1, 4, 7, 12]]

theorem ladders_ok (i : Fin 3) : Ladder (ladders i) := by
  refine ⟨?_, ?_, ?_, ?_, ?_⟩ <;> revert i <;> decide +kernel

theorem ladders_freedman : freedman (fun t => (ladders 0 t : ℝ)) = 2 ∧ freedman (fun t => (ladders 1 t : ℝ)) = 2 ∧ freedman (fun t => (ladders 2 t : ℝ)) = 3 := by
  have v : ladders 0 5 = 7 ∧ ladders 0 6 = 12 ∧ ladders 1 5 = 6 ∧ ladders 1 6 = 7 ∧ ladders 2 5 = 4 ∧ ladders 2 6 = 7 := by decide
  obtain ⟨a, b, c, d, e, f⟩ := v
  have c0 : ⌈(12 : ℝ) / ((7 : Nat) + (((12 : Nat) : ℝ) - (7 : Nat)) / 4)⌉ = 2 := by rw [Int.ceil_eq_iff]; norm_num
  have c1 : ⌈(12 : ℝ) / ((6 : Nat) + (((7 : Nat) : ℝ) - (6 : Nat)) / 4)⌉ = 2 := by rw [Int.ceil_eq_iff]; norm_num
  have c2 : ⌈(12 : ℝ) / ((4 : Nat) + (((7 : Nat) : ℝ) - (4 : Nat)) / 4)⌉ = 3 := by rw [Int.ceil_eq_iff]; norm_num
  refine ⟨?_, ?_, ?_⟩
  · rw [ladder_freedman (ladders_ok 0) (by decide), a, b, c0]; rfl
  · rw [ladder_freedman (ladders_ok 1) (by decide), c, d, c1]; rfl
  · rw [ladder_freedman (ladders_ok 2) (by decide), e, f, c2]; rfl

/-- **C84** (negated). With the default number of bins the distance is not a metric, for all that the documentation says: the number of bins changes from pair
to pair, and here `d(0, 1) = d(1, 2) = 0 < d(0, 2)`. -/
theorem C84_default_not_metric (knuth : (Fin 8 → ℝ) → Nat) (normalize : Bool) :
    ∃ (X : Fin 3 → Fin 8 → ℝ) (corr : Fin 3 → Fin 3 → Option ℝ) (dist : Fin 3 → Fin 3 → ℝ),
      mutualFit (N := 7) knuth .freedman none normalize X = .ok (corr, dist) ∧ dist 0 1 = 0 ∧ dist 1 2 = 0 ∧ 0 < dist 0 2 := by
  obtain ⟨r, hr⟩ := (C84_succeeds (N := 7) knuth normalize fun i t => (ladders i t : ℝ)).1
  obtain ⟨corr, dist⟩ := r
  obtain ⟨f0, f1, f2⟩ := ladders_freedman
  have p01 : pairBins (N := 7) knuth .freedman none (fun i t => (ladders i t : ℝ)) 0 1 = 2 := by
    show max (freedman _) (freedman _) = 2
    rw [f0, f1]; rfl
  have p12 : pairBins (N := 7) knuth .freedman none (fun i t => (ladders i t : ℝ)) 1 2 = 3 := by
    show max (freedman _) (freedman _) = 3
    rw [f1, f2]; rfl
  have p02 : pairBins (N := 7) knuth .freedman none (fun i t => (ladders i t : ℝ)) 0 2 = 3 := by
    show max (freedman _) (freedman _) = 3
    rw [f0, f2]; rfl
  refine ⟨_, corr, dist, hr, ?_, ?_, ?_⟩
  · rw [C84_zero_iff hr, p01]
    simp only [ladder_bin (ladders_ok _)]
    decide
  · rw [C84_zero_iff hr, p12]
    simp only [ladder_bin (ladders_ok _)]
    decide
  · refine lt_of_le_of_ne (C84_bounds hr 0 2).1 (Ne.symm ?_)
    rw [Ne, C84_zero_iff hr, p02]
    simp only [ladder_bin (ladders_ok _)]
    decide

/-- The hypothesis of `C84_constant` is met by every asset whose returns are all equal, for any number of bins, and by every asset with one bin. -/
example (b : Nat) (x : Fin (N + 1) → ℝ) (hx : ∀ s t, x s = x t) (s t : Fin (N + 1)) : binOf b x s = binOf b x t := by
  unfold binOf
  simp only [hx s t]

example (x : Fin (N + 1) → ℝ) (s t : Fin (N + 1)) : binOf 1 x s = binOf 1 x t := by
  unfold binOf
  simp

/-- With three bins the first and the third asset above have a positive distance and a positive entropy. -/
example (knuth : (Fin 8 → ℝ) → Nat) (normalize : Bool) : ∃ (corr : Fin 3 → Fin 3 → Option ℝ) (dist : Fin 3 → Fin 3 → ℝ),
    mutualFit (N := 7) knuth .knuth (some 3) normalize (fun i t => (ladders i t : ℝ)) = .ok (corr, dist) ∧ 0 < dist 0 2 ∧
    0 < min (H (binOf (N := 7) 3 fun t => (ladders 0 t : ℝ))) (H (binOf (N := 7) 3 fun t => (ladders 2 t : ℝ))) := by
  obtain ⟨⟨corr, dist⟩, hr⟩ := (C84_succeeds (N := 7) knuth normalize fun i t => (ladders i t : ℝ)).2 .knuth 3 (by decide)
  refine ⟨corr, dist, hr, ?_, ?_⟩
  · refine lt_of_le_of_ne (C84_bounds hr 0 2).1 (Ne.symm ?_)
    have p : pairBins (N := 7) knuth .knuth (some 3) (fun i t => (ladders i t : ℝ)) 0 2 = 3 := rfl
    rw [Ne, C84_zero_iff hr, p]
    simp only [ladder_bin (ladders_ok _)]
    decide
  · refine lt_min (lt_of_le_of_ne (H_nonneg _) (Ne.symm ?_)) (lt_of_le_of_ne (H_nonneg _) (Ne.symm ?_)) <;>
    · rw [Ne, H_eq_zero_iff]
      simp only [ladder_bin (ladders_ok _)]
      decide

end Skfolio.Distance
