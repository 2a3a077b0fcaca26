import Verif.Hierarchical.Lemmas
import Mathlib.Algebra.BigOperators.Group.List.Lemmas
import Mathlib.Data.Rat.Defs
import Mathlib.Algebra.Order.Ring.Rat
import Mathlib.Algebra.BigOperators.Ring.List
import Mathlib.Tactic.NormNum

/-!
# Hierarchical Risk Parity and weight bounds: the claims

The total weight of a cluster is `sumAt w c = Σ_{i ∈ c} w i`.
-/

set_option autoImplicit false

namespace Skfolio.Hierarchical

variable {K : Type*} [Field K] [LinearOrder K]

omit [LinearOrder K] in
theorem sumAt_append (v : ℕ → K) (l r : List ℕ) : sumAt v (l ++ r) = sumAt v l + sumAt v r := by
  simp [sumAt]

/-- C21, refinement: the breadth-first loop returns what recursive bisection of the leaf order
prescribes for a budget of one. -/
theorem C21_refines_recursive_bisection (risk : (ℕ → K) → K) (maxW minW w : ℕ → K)
    (order : List ℕ) (hne : order ≠ []) (hd : order.Nodup)
    (h : hrp risk maxW minW order = .ok w) : Alloc risk maxW minW order 1 w := by
  have := (hrpLoop_alloc (order.length + 1) [order] (fun _ => 1) w (by simpa using hne)
    (by simpa using hd) (by simp) h).1 order (by simp)
  exact this

/-- C21, termination: the loop always ends; the only thing that can go wrong is a division by
zero. -/
theorem C21_terminates (risk : (ℕ → K) → K) (maxW minW : ℕ → K) (order : List ℕ) :
    (∃ w, hrp risk maxW minW order = .ok w) ∨ hrp risk maxW minW order = .error .notFinite := by
  cases h : hrp risk maxW minW order with
  | ok w => exact Or.inl ⟨w, rfl⟩
  | error e =>
    rw [hrpLoop_fuel order.length [order] (fun _ => 1) (by simp) h]
    exact Or.inr rfl

theorem Alloc.total {risk : (ℕ → K) → K} {maxW minW w : ℕ → K} {c : List ℕ} {W : K}
    (h : Alloc risk maxW minW c W w) : sumAt w c = W := by
  induction h with
  | single i w => simp [sumAt]
  | split l r W a w _ _ _ _ _ _ ihl ihr =>
    rw [sumAt_append, ihl, ihr]
    ring

/-- C21, budget: whatever the risks and bounds, finite weights sum to one. -/
theorem C21_budget (risk : (ℕ → K) → K) (maxW minW w : ℕ → K)
    (order : List ℕ) (hne : order ≠ []) (hd : order.Nodup)
    (h : hrp risk maxW minW order = .ok w) : sumAt w order = 1 :=
  (C21_refines_recursive_bisection risk maxW minW w order hne hd h).total

variable [IsStrictOrderedRing K]

omit [Field K] [IsStrictOrderedRing K] in
theorem clamp_mem {lo hi x : K} (h : lo ≤ hi) : lo ≤ clamp lo hi x ∧ clamp lo hi x ≤ hi :=
  ⟨le_min h (le_max_left _ _), min_le_left _ _⟩

/-- What the two clamps of a split guarantee. -/
theorem share_bounds {mnL mxL mnR mxR W x a : K} (hW : 0 < W) (hL : mnL ≤ mxL) (hR : mnR ≤ mxR)
    (hlo : mnL + mnR ≤ W) (hhi : W ≤ mxL + mxR)
    (ha : 1 - a = clamp (mnR / W) (mxR / W) (1 - clamp (mnL / W) (mxL / W) x)) :
    (mnL ≤ W * a ∧ W * a ≤ mxL) ∧ mnR ≤ W * (1 - a) ∧ W * (1 - a) ≤ mxR := by
  have hl := clamp_mem (x := x) (div_le_div_of_nonneg_right hL hW.le)
  have hr := clamp_mem (x := 1 - clamp (mnL / W) (mxL / W) x)
    (div_le_div_of_nonneg_right hR hW.le)
  set y := clamp (mnL / W) (mxL / W) x with hy
  rw [← ha] at hr
  have e1 : W * (mnL / W) = mnL := mul_div_cancel₀ _ hW.ne'
  have e2 : W * (mxL / W) = mxL := mul_div_cancel₀ _ hW.ne'
  have e3 : W * (mnR / W) = mnR := mul_div_cancel₀ _ hW.ne'
  have e4 : W * (mxR / W) = mxR := mul_div_cancel₀ _ hW.ne'
  have r1 : mnR ≤ W * (1 - a) := by rw [← e3]; exact mul_le_mul_of_nonneg_left hr.1 hW.le
  have r2 : W * (1 - a) ≤ mxR := by rw [← e4]; exact mul_le_mul_of_nonneg_left hr.2 hW.le
  have l1 : mnL ≤ W * y := by
    calc mnL = W * (mnL / W) := e1.symm
      _ ≤ _ := mul_le_mul_of_nonneg_left hl.1 hW.le
  have l2 : W * y ≤ mxL := by
    calc W * y ≤ W * (mxL / W) := mul_le_mul_of_nonneg_left hl.2 hW.le
      _ = mxL := e2
  refine ⟨?_, r1, r2⟩
  -- `1 - a` is one of the two bounds or `1 - y`
  have hcase : 1 - a = 1 - y ∨ (1 - a = mxR / W ∧ mxR / W ≤ 1 - y) ∨
      (1 - a = mnR / W ∧ 1 - y ≤ mnR / W) := by
    rw [ha]
    unfold clamp
    rcases le_total (mnR / W) (1 - y) with h | h
    · rw [max_eq_right h]
      rcases le_total (mxR / W) (1 - y) with h' | h'
      · rw [min_eq_left h']; exact Or.inr (Or.inl ⟨rfl, h'⟩)
      · rw [min_eq_right h']; exact Or.inl rfl
    · rw [max_eq_left h, min_eq_right (div_le_div_of_nonneg_right hR hW.le)]
      exact Or.inr (Or.inr ⟨rfl, h⟩)
  rcases hcase with h | ⟨h, h'⟩ | ⟨h, h'⟩
  · have : a = y := by linarith
    rw [this]; exact ⟨l1, l2⟩
  · have e : W * (1 - a) = mxR := by rw [h, e4]
    have : W * (mxR / W) ≤ W * (1 - y) := mul_le_mul_of_nonneg_left h' hW.le
    constructor <;> nlinarith
  · have e : W * (1 - a) = mnR := by rw [h, e3]
    have : W * (1 - y) ≤ W * (mnR / W) := mul_le_mul_of_nonneg_left h' hW.le
    constructor <;> nlinarith

theorem sumAt_le {u v : ℕ → K} {c : List ℕ} (h : ∀ i ∈ c, u i ≤ v i) :
    sumAt u c ≤ sumAt v c := List.sum_le_sum h

theorem sumAt_nonneg {u : ℕ → K} {c : List ℕ} (h : ∀ i ∈ c, 0 ≤ u i) : 0 ≤ sumAt u c :=
  List.sum_nonneg (by simpa using h)

theorem sumAt_pos {u : ℕ → K} {c : List ℕ} (hc : c ≠ []) (h : ∀ i ∈ c, 0 < u i) :
    0 < sumAt u c := by
  cases c with
  | nil => exact absurd rfl hc
  | cons a t =>
    have h1 := h a (by simp)
    have h2 : 0 ≤ sumAt u t := sumAt_nonneg fun i hi => (h i (by simp [hi])).le
    simp only [sumAt, List.map_cons, List.sum_cons] at *
    linarith

theorem Alloc.bounds {risk : (ℕ → K) → K} {maxW minW w : ℕ → K} {c : List ℕ} {W : K}
    (h : Alloc risk maxW minW c W w) (hmin : ∀ i ∈ c, 0 ≤ minW i)
    (hmm : ∀ i ∈ c, minW i ≤ maxW i) (hlo : sumAt minW c ≤ W) (hhi : W ≤ sumAt maxW c) :
    ∀ i ∈ c, minW i ≤ w i ∧ w i ≤ maxW i := by
  induction h with
  | single i w =>
    intro j hj
    simp only [List.mem_singleton] at hj
    subst hj
    simpa [sumAt] using And.intro hlo hhi
  | split l r W a w _ _ _ hs _ _ ihl ihr =>
    obtain ⟨x, y, -, -, -, hW0, ha⟩ := hs
    rw [sumAt_append] at hlo hhi
    have hW : 0 < W := lt_of_le_of_ne (le_trans (add_nonneg
      (sumAt_nonneg fun i hi => hmin i (by simp [hi]))
      (sumAt_nonneg fun i hi => hmin i (by simp [hi]))) hlo) hW0.symm
    obtain ⟨⟨b1, b2⟩, b3, b4⟩ := share_bounds hW
      (sumAt_le fun i hi => hmm i (by simp [hi])) (sumAt_le fun i hi => hmm i (by simp [hi]))
      hlo hhi ha
    intro i hi
    rcases List.mem_append.mp hi with hi | hi
    · exact ihl (fun i hi => hmin i (by simp [hi])) (fun i hi => hmm i (by simp [hi])) b1 b2 i hi
    · exact ihr (fun i hi => hmin i (by simp [hi])) (fun i hi => hmm i (by simp [hi])) b3 b4 i hi

/-- C21, bounds: if some portfolio respects the bounds (`Σ min ≤ 1 ≤ Σ max`), every weight
returned does. -/
theorem C21_bounds (risk : (ℕ → K) → K) (maxW minW w : ℕ → K)
    (order : List ℕ) (hne : order ≠ []) (hd : order.Nodup)
    (hmin : ∀ i ∈ order, 0 ≤ minW i) (hmm : ∀ i ∈ order, minW i ≤ maxW i)
    (hlo : sumAt minW order ≤ 1) (hhi : 1 ≤ sumAt maxW order)
    (h : hrp risk maxW minW order = .ok w) :
    ∀ i ∈ order, minW i ≤ w i ∧ w i ≤ maxW i :=
  (C21_refines_recursive_bisection risk maxW minW w order hne hd h).bounds hmin hmm hlo hhi

/-- All cluster risks are defined and positive, as for a positive definite covariance. -/
def PositiveRisks (risk : (ℕ → K) → K) (order : List ℕ) : Prop :=
  ∀ c, c ≠ [] → c ⊆ order → ∃ x, clusterRisk risk (unitaryRisks risk) c = .ok x ∧ 0 < x

omit [IsStrictOrderedRing K] in
theorem IsShare.unique {risk : (ℕ → K) → K} {maxW minW : ℕ → K} {l r : List ℕ} {W a x y : K}
    (h : IsShare risk maxW minW l r W a)
    (hx : clusterRisk risk (unitaryRisks risk) l = .ok x)
    (hy : clusterRisk risk (unitaryRisks risk) r = .ok y) :
    1 - a = clamp (sumAt minW r / W) (sumAt maxW r / W)
      (1 - clamp (sumAt minW l / W) (sumAt maxW l / W) (y / (x + y))) := by
  obtain ⟨x', y', hx', hy', -, -, ha⟩ := h
  rw [hx] at hx'; rw [hy] at hy'
  cases hx'; cases hy'
  exact ha

/-- C21, finiteness with positive lower bounds. -/
theorem C21_finite_positive_min (risk : (ℕ → K) → K) (maxW minW : ℕ → K)
    (order : List ℕ) (hne : order ≠ []) (hd : order.Nodup)
    (hrisk : PositiveRisks risk order)
    (hmin : ∀ i ∈ order, 0 < minW i) (hmm : ∀ i ∈ order, minW i ≤ maxW i)
    (hlo : sumAt minW order ≤ 1) (hhi : 1 ≤ sumAt maxW order) :
    ∃ w, hrp risk maxW minW order = .ok w := by
  refine hrpLoop_succeeds (fun c W => c ⊆ order ∧ sumAt minW c ≤ W ∧ W ≤ sumAt maxW c)
    ?_ ?_ order.length [order] _ (by simp) (by simpa using hne) (by simpa using hd) (by simp)
    (by simpa using ⟨hlo, hhi⟩)
  · rintro l r W hl hr ⟨hsub, h1, h2⟩
    obtain ⟨x, hx, hx0⟩ := hrisk l hl (fun i hi => hsub (by simp [hi]))
    obtain ⟨y, hy, hy0⟩ := hrisk r hr (fun i hi => hsub (by simp [hi]))
    refine ⟨x, y, hx, hy, (add_pos hx0 hy0).ne', ?_⟩
    have := sumAt_pos (u := minW) (c := l ++ r) (by simp [hl]) (fun i hi => hmin i (hsub hi))
    exact (lt_of_lt_of_le this h1).ne'
  · rintro l r W a hl hr ⟨hsub, h1, h2⟩ ⟨x, y, -, -, -, -, ha⟩
    have hW := lt_of_lt_of_le
      (sumAt_pos (u := minW) (c := l ++ r) (by simp [hl]) (fun i hi => hmin i (hsub hi))) h1
    rw [sumAt_append] at h1 h2
    obtain ⟨⟨b1, b2⟩, b3, b4⟩ := share_bounds hW
      (sumAt_le fun i hi => hmm i (hsub (by simp [hi])))
      (sumAt_le fun i hi => hmm i (hsub (by simp [hi]))) h1 h2 ha
    exact ⟨⟨fun i hi => hsub (by simp [hi]), b1, b2⟩, fun i hi => hsub (by simp [hi]), b3, b4⟩

/-- C21, finiteness without lower bounds (the default `min_weights=0`) and with positive upper
bounds. -/
theorem C21_finite_zero_min (risk : (ℕ → K) → K) (maxW minW : ℕ → K)
    (order : List ℕ) (hne : order ≠ []) (hd : order.Nodup)
    (hrisk : PositiveRisks risk order)
    (hmin : ∀ i ∈ order, minW i = 0) (hmax : ∀ i ∈ order, 0 < maxW i)
    (hhi : 1 ≤ sumAt maxW order) :
    ∃ w, hrp risk maxW minW order = .ok w := by
  have hz : ∀ c : List ℕ, c ⊆ order → sumAt minW c = 0 := by
    intro c hc
    unfold sumAt
    rw [List.sum_eq_zero]
    intro x hx
    obtain ⟨i, hi, rfl⟩ := List.mem_map.mp hx
    exact hmin i (hc hi)
  refine hrpLoop_succeeds (fun c W => c ⊆ order ∧ 0 < W ∧ W ≤ sumAt maxW c)
    ?_ ?_ order.length [order] _ (by simp) (by simpa using hne) (by simpa using hd) (by simp)
    (by simpa using hhi)
  · rintro l r W hl hr ⟨hsub, h1, h2⟩
    obtain ⟨x, hx, hx0⟩ := hrisk l hl (fun i hi => hsub (by simp [hi]))
    obtain ⟨y, hy, hy0⟩ := hrisk r hr (fun i hi => hsub (by simp [hi]))
    exact ⟨x, y, hx, hy, (add_pos hx0 hy0).ne', h1.ne'⟩
  · rintro l r W a hl hr ⟨hsub, hW, h2⟩ hs
    have hsl : l ⊆ order := fun i hi => hsub (by simp [hi])
    have hsr : r ⊆ order := fun i hi => hsub (by simp [hi])
    obtain ⟨x, hx, hx0⟩ := hrisk l hl hsl
    obtain ⟨y, hy, hy0⟩ := hrisk r hr hsr
    have ha := hs.unique hx hy
    have hzl := hz l hsl
    have hzr := hz r hsr
    rw [sumAt_append] at h2
    have pl := sumAt_pos (u := maxW) hl fun i hi => hmax i (hsl hi)
    have pr := sumAt_pos (u := maxW) hr fun i hi => hmax i (hsr hi)
    have pxy : 0 < x + y := add_pos hx0 hy0
    obtain ⟨⟨-, b2⟩, -, b4⟩ := share_bounds hW (by rw [hzl]; exact pl.le)
      (by rw [hzr]; exact pr.le) (by rw [hzl, hzr]; simpa using hW.le) h2 ha
    have hy1 : y / (x + y) < 1 := by rw [div_lt_one pxy]; linarith
    have hy2 : 0 < y / (x + y) := div_pos hy0 pxy
    rw [hzl, hzr] at ha
    simp only [zero_div] at ha
    set u := clamp 0 (sumAt maxW l / W) (y / (x + y)) with hu
    have hu0 : 0 < u := lt_min (div_pos pl hW) (lt_of_lt_of_le hy2 (le_max_right _ _))
    have hu1 : u < 1 := lt_of_le_of_lt (min_le_right _ _) (by simp [hy1])
    have hra : 0 < 1 - a := by
      rw [ha]
      exact lt_min (div_pos pr hW) (lt_of_lt_of_le (sub_pos.mpr hu1) (le_max_right _ _))
    have hla : 0 < a := by
      have : 1 - a ≤ 1 - u := by
        rw [ha]
        refine le_trans (min_le_right _ _) ?_
        rw [max_eq_right (sub_pos.mpr hu1).le]
      linarith
    exact ⟨⟨hsl, mul_pos hW hla, b2⟩, hsr, mul_pos hW hra, b4⟩

/-- A cluster that recursive bisection of `order` visits, with its two halves. -/
inductive Node : List ℕ → List ℕ → List ℕ → Prop
  | here {l r : List ℕ} (hl : l ≠ []) (hr : r ≠ [])
      (half : l.length = (l.length + r.length) / 2) : Node (l ++ r) l r
  | left {l r l' r' : List ℕ} (half : l.length = (l.length + r.length) / 2)
      (h : Node l l' r') : Node (l ++ r) l' r'
  | right {l r l' r' : List ℕ} (half : l.length = (l.length + r.length) / 2)
      (h : Node r l' r') : Node (l ++ r) l' r'

theorem Node.two_le {c l r : List ℕ} (h : Node c l r) : 2 ≤ c.length := by
  induction h with
  | here hl hr _ =>
    have h1 := List.length_pos_iff.mpr hl
    have h2 := List.length_pos_iff.mpr hr
    simp only [List.length_append]
    omega
  | left _ _ ih => simp only [List.length_append]; omega
  | right _ _ ih => simp only [List.length_append]; omega

theorem append_half_inj {l r l' r' : List ℕ} (h : l ++ r = l' ++ r')
    (h1 : l.length = (l.length + r.length) / 2) (h2 : l'.length = (l'.length + r'.length) / 2) :
    l = l' ∧ r = r' := by
  have hl : l.length = l'.length := by
    have := congrArg List.length h
    simp only [List.length_append] at this
    omega
  exact List.append_inj h hl

theorem Alloc.parity {risk : (ℕ → K) → K} {maxW minW w : ℕ → K} {c : List ℕ} {W : K}
    (h : Alloc risk maxW minW c W w) (hrisk : PositiveRisks risk c) (hW0 : 0 ≤ W) (hW1 : W ≤ 1)
    (hmin : ∀ i ∈ c, minW i = 0) (hmax : ∀ i ∈ c, maxW i = 1)
    {l r : List ℕ} (hn : Node c l r) :
    ∃ x y, clusterRisk risk (unitaryRisks risk) l = .ok x ∧
      clusterRisk risk (unitaryRisks risk) r = .ok y ∧ sumAt w l * x = sumAt w r * y := by
  induction h with
  | single i w =>
    have := hn.two_le
    simp at this
  | split l0 r0 W a w hl0 hr0 half hs al ar ihl ihr =>
    have hsl : l0 ⊆ l0 ++ r0 := fun i hi => by simp [hi]
    have hsr : r0 ⊆ l0 ++ r0 := fun i hi => by simp [hi]
    obtain ⟨x, hx, hx0⟩ := hrisk l0 hl0 hsl
    obtain ⟨y, hy, hy0⟩ := hrisk r0 hr0 hsr
    have pxy : 0 < x + y := add_pos hx0 hy0
    have hWpos : 0 < W := lt_of_le_of_ne hW0 (by obtain ⟨_, _, _, _, _, h, _⟩ := hs; exact h.symm)
    have key : a = y / (x + y) := by
      have ha := hs.unique hx hy
      have z : ∀ c : List ℕ, c ⊆ l0 ++ r0 → sumAt minW c = 0 := by
        intro c hc
        unfold sumAt
        rw [List.sum_eq_zero]
        intro x hx
        obtain ⟨i, hi, rfl⟩ := List.mem_map.mp hx
        exact hmin i (hc hi)
      have o : ∀ c : List ℕ, c ≠ [] → c ⊆ l0 ++ r0 → 1 ≤ sumAt maxW c / W := by
        intro c hne hc
        rw [le_div_iff₀ hWpos, one_mul]
        refine le_trans hW1 ?_
        cases c with
        | nil => exact absurd rfl hne
        | cons i t =>
          have h1 : maxW i = 1 := hmax i (hc (by simp))
          have h2 : 0 ≤ sumAt maxW t :=
            sumAt_nonneg fun j hj => by rw [hmax j (hc (by simp [hj]))]; exact zero_le_one
          simp only [sumAt, List.map_cons, List.sum_cons] at *
          linarith
      rw [z l0 hsl, z r0 hsr] at ha
      simp only [zero_div] at ha
      have q0 : 0 ≤ y / (x + y) := (div_pos hy0 pxy).le
      have q1 : y / (x + y) ≤ 1 := by rw [div_le_one pxy]; linarith
      have hu : clamp 0 (sumAt maxW l0 / W) (y / (x + y)) = y / (x + y) := by
        unfold clamp
        rw [max_eq_right q0, min_eq_right (le_trans q1 (o l0 hl0 hsl))]
      rw [hu] at ha
      have hv : clamp 0 (sumAt maxW r0 / W) (1 - y / (x + y)) = 1 - y / (x + y) := by
        unfold clamp
        rw [max_eq_right (by linarith), min_eq_right (le_trans (by linarith) (o r0 hr0 hsr))]
      rw [hv] at ha
      linarith
    have q0 : 0 ≤ y / (x + y) := (div_pos hy0 pxy).le
    have q1 : y / (x + y) ≤ 1 := by rw [div_le_one pxy]; linarith
    rw [key] at al ar ihl ihr
    have wl0 : 0 ≤ W * (y / (x + y)) := mul_nonneg hW0 q0
    have wl1 : W * (y / (x + y)) ≤ 1 := le_trans (mul_le_of_le_one_right hW0 q1) hW1
    have wr0 : 0 ≤ W * (1 - y / (x + y)) := mul_nonneg hW0 (by linarith)
    have wr1 : W * (1 - y / (x + y)) ≤ 1 :=
      le_trans (mul_le_of_le_one_right hW0 (by linarith)) hW1
    have tl := al.total
    have tr := ar.total
    generalize hc : l0 ++ r0 = c at hn
    cases hn with
    | here hl hr half' =>
      obtain ⟨rfl, rfl⟩ := append_half_inj hc half half'
      refine ⟨x, y, hx, hy, ?_⟩
      rw [tl, tr]
      field_simp
      ring
    | left half' h =>
      obtain ⟨rfl, rfl⟩ := append_half_inj hc half half'
      exact ihl (fun c hne hc => hrisk c hne (fun i hi => hsl (hc hi))) wl0 wl1
        (fun i hi => hmin i (hsl hi)) (fun i hi => hmax i (hsl hi)) h
    | right half' h =>
      obtain ⟨rfl, rfl⟩ := append_half_inj hc half half'
      exact ihr (fun c hne hc => hrisk c hne (fun i hi => hsr (hc hi))) wr0 wr1
        (fun i hi => hmin i (hsr hi)) (fun i hi => hmax i (hsr hi)) h

/-- C21, risk parity: with the default bounds (0 and 1), at every bisection of the leaf order the
two halves receive total weights inversely proportional to their risks. -/
theorem C21_risk_parity (risk : (ℕ → K) → K) (maxW minW w : ℕ → K)
    (order : List ℕ) (hne : order ≠ []) (hd : order.Nodup) (hrisk : PositiveRisks risk order)
    (hmin : ∀ i ∈ order, minW i = 0) (hmax : ∀ i ∈ order, maxW i = 1)
    (h : hrp risk maxW minW order = .ok w) {l r : List ℕ} (hn : Node order l r) :
    ∃ x y, clusterRisk risk (unitaryRisks risk) l = .ok x ∧
      clusterRisk risk (unitaryRisks risk) r = .ok y ∧ sumAt w l * x = sumAt w r * y :=
  (C21_refines_recursive_bisection risk maxW minW w order hne hd h).parity hrisk zero_le_one le_rfl
    hmin hmax hn

/-! ### Concrete cases -/

/-- A diagonal covariance on eight assets with the given variances. -/
def diagRisk (v : List ℚ) (w : ℕ → ℚ) : ℚ :=
  ((List.range v.length).map fun i => v.getD i 0 * w i ^ 2).sum

def weightsOf (n : ℕ) : Except Error (ℕ → ℚ) → Except Error (List ℚ)
  | .ok w => .ok ((List.range n).map w)
  | .error e => .error e

/-- Three assets, an upper bound that binds. -/
example : weightsOf 3 (hrp (diagRisk [1, 1, 1 / 4]) (fun _ => 1 / 2) (fun _ => 1 / 10) [2, 0, 1])
    = .ok [1 / 4, 1 / 4, 1 / 2] := by decide +kernel

/-- The hypotheses of `C21_bounds` and `C21_finite_positive_min` are met by that case. -/
example : sumAt (fun _ => (1 / 10 : ℚ)) [2, 0, 1] ≤ 1 ∧ 1 ≤ sumAt (fun _ => (1 / 2 : ℚ)) [2, 0, 1] := by
  decide +kernel

/-- C21, a case that does break: one asset with `min_weights = 0.5` in the riskier half of eight
assets.  The half gets exactly 0.5, all of it must go to that asset's pair, the other pair gets
weight zero and its own split divides by zero: the weights are not finite. -/
theorem C21_zero_weight_cluster_not_finite :
    hrp (diagRisk [4, 4, 4, 4, 1, 1, 1, 1]) (fun _ => 1) (fun i => if i = 0 then 1 / 2 else 0)
      [0, 1, 2, 3, 4, 5, 6, 7] = .error .notFinite := by
  have : weightsOf 8 (hrp (diagRisk [4, 4, 4, 4, 1, 1, 1, 1]) (fun _ => 1)
      (fun i => if i = 0 then 1 / 2 else 0) [0, 1, 2, 3, 4, 5, 6, 7]) = .error .notFinite := by
    decide +kernel
  rcases C21_terminates (diagRisk [4, 4, 4, 4, 1, 1, 1, 1]) (fun _ => 1)
      (fun i => if i = 0 then 1 / 2 else 0) [0, 1, 2, 3, 4, 5, 6, 7] with ⟨w, hw⟩ | h
  · rw [hw] at this
    simp [weightsOf] at this
  · exact h

/-- C21, without `Σ min ≤ 1`: the bounds `min = 0.6, 0.6` pass `_convert_weights_bounds`, no error is
raised and the first weight is below its minimum. -/
theorem C21_min_sum_above_one_violated :
    weightsOf 2 (hrp (diagRisk [1, 1]) (fun _ => 1) (fun _ => 3 / 5) [0, 1])
      = .ok [2 / 5, 3 / 5] := by decide +kernel

/-! ### C22: weight bounds -/

/-- The vector of `n` bounds a user input stands for, if it stands for one: `default` when missing,
the same number everywhere for a scalar, the named value or `fill` for a dictionary. -/
def Denotes (fill : K) (n : ℕ) (names : Option (List String)) : BoundInput K → List K → Prop
  | .missing, a => a = List.replicate n fill
  | .scalar x, a => a = List.replicate n x
  | .dict d, a => ∃ ns, names = some ns ∧ ns.length = n ∧
      a = ns.map fun s => (d.lookup s).getD fill
  | .array v, a => v.length = n ∧ a = v

omit [Field K] [IsStrictOrderedRing K] [LinearOrder K] in
theorem cleanInput_ok {items : BoundInput K} {n : ℕ} {fill : K} {names : Option (List String)}
    {name : String} {a : List K} (hm : items ≠ .missing) :
    cleanInput items n fill names name = .ok a ↔ Denotes fill n names items a := by
  cases items with
  | missing => exact absurd rfl hm
  | scalar x => simp [cleanInput, Denotes, eq_comm]
  | dict d =>
    unfold cleanInput inputToArray Denotes
    cases names with
    | none => simp [bind, Except.bind]
    | some ns =>
      simp only [bind, Except.bind, List.length_map]
      split_ifs with h
      · simp [h]
      · simp only [not_not] at h
        simp [h, eq_comm]
  | array v =>
    unfold cleanInput inputToArray Denotes
    simp only [bind, Except.bind]
    split_ifs with h
    · simp [h]
    · simp only [not_not] at h
      simp [h, eq_comm]

omit [Field K] [LinearOrder K] [IsStrictOrderedRing K] in
theorem Denotes.length {fill : K} {n : ℕ} {names : Option (List String)} {i : BoundInput K}
    {a : List K} (h : Denotes fill n names i a) : a.length = n := by
  cases i with
  | missing => simp only [Denotes] at h; simp [h]
  | scalar x => simp only [Denotes] at h; simp [h]
  | dict d => obtain ⟨ns, -, hl, rfl⟩ := h; simp [hl]
  | array v => obtain ⟨hl, rfl⟩ := h; exact hl

/-- C22, exactly which bounds are accepted: those that denote vectors with
`0 ≤ min ≤ max ≤ 1` and `Σ max ≥ 1`; they are returned as they are. -/
theorem C22_accepted_iff (minIn maxIn : BoundInput K) (n : ℕ) (hn : 0 < n)
    (names : Option (List String)) (mn mx : List K) :
    convertWeightsBounds minIn maxIn n names = .ok (mn, mx) ↔
      Denotes 0 n names minIn mn ∧ Denotes 1 n names maxIn mx ∧
      (∀ x ∈ mn, 0 ≤ x) ∧ (∀ x ∈ mx, x ≤ 1) ∧ 1 ≤ mx.sum ∧ List.Forall₂ (· ≤ ·) mn mx := by
  -- the two vectors
  have hmin : ∀ a : List K, minBounds minIn n names = .ok a ↔ Denotes 0 n names minIn a ∧ ∀ x ∈ a, 0 ≤ x := by
    intro a
    have gen : ∀ v : BoundInput K, v ≠ .missing →
        ((do
          let a ← cleanInput v n 0 names "min_weights"
          if a.any (· < 0) then .error (.valueError "`min_weights` must be strictly positive")
          else .ok a : Except Error (List K)) = .ok a ↔
          Denotes 0 n names v a ∧ ∀ x ∈ a, 0 ≤ x) := by
      intro v hv
      rw [← cleanInput_ok (name := "min_weights") hv]
      cases hc : cleanInput v n 0 names "min_weights" with
      | error e => simp [bind, Except.bind]
      | ok b =>
        simp only [bind, Except.bind, Except.ok.injEq]
        by_cases hb : b.any (· < 0) = true
        · rw [if_pos hb]
          simp only [List.any_eq_true, decide_eq_true_eq] at hb
          obtain ⟨x, hx, hx0⟩ := hb
          constructor
          · intro h; simp at h
          · rintro ⟨rfl, h⟩; exact absurd (h x hx) (not_le.mpr hx0)
        · rw [if_neg hb]
          simp only [List.any_eq_true, decide_eq_true_eq, not_exists, not_and, not_lt] at hb
          simp only [Except.ok.injEq]
          constructor
          · rintro rfl; exact ⟨rfl, hb⟩
          · exact fun h => h.1
    cases minIn with
    | missing =>
      simp only [minBounds, Denotes, Except.ok.injEq]
      constructor
      · rintro rfl
        refine ⟨rfl, fun x hx => ?_⟩
        rw [List.eq_of_mem_replicate hx]
      · exact fun h => h.1.symm
    | scalar x => exact gen _ (by simp)
    | dict x => exact gen _ (by simp)
    | array x => exact gen _ (by simp)
  have hmax : ∀ a : List K, maxBounds maxIn n names = .ok a ↔ Denotes 1 n names maxIn a ∧ (∀ x ∈ a, x ≤ 1) ∧ 1 ≤ a.sum := by
    intro a
    have gen : ∀ v : BoundInput K, v ≠ .missing →
        ((do
          let a ← cleanInput v n 1 names "max_weights"
          if a.any (1 < ·) then
            .error (.valueError "`max_weights` must be less than or equal to 1.0")
          else if a.sum < 1 then .error (.valueError "The sum of `max_weights` must be >= 1.0")
          else .ok a : Except Error (List K)) = .ok a ↔
          Denotes 1 n names v a ∧ (∀ x ∈ a, x ≤ 1) ∧ 1 ≤ a.sum) := by
      intro v hv
      rw [← cleanInput_ok (name := "max_weights") hv]
      cases hc : cleanInput v n 1 names "max_weights" with
      | error e => simp [bind, Except.bind]
      | ok b =>
        simp only [bind, Except.bind, Except.ok.injEq]
        by_cases hb : b.any (1 < ·) = true
        · rw [if_pos hb]
          simp only [List.any_eq_true, decide_eq_true_eq] at hb
          obtain ⟨x, hx, hx0⟩ := hb
          constructor
          · intro h; simp at h
          · rintro ⟨rfl, h, -⟩; exact absurd (h x hx) (not_le.mpr hx0)
        · rw [if_neg hb]
          simp only [List.any_eq_true, decide_eq_true_eq, not_exists, not_and, not_lt] at hb
          by_cases hs : b.sum < 1
          · rw [if_pos hs]
            constructor
            · intro h; simp at h
            · rintro ⟨rfl, -, h⟩; exact absurd h (not_le.mpr hs)
          · rw [if_neg hs]
            simp only [Except.ok.injEq]
            constructor
            · rintro rfl; exact ⟨rfl, hb, not_lt.mp hs⟩
            · exact fun h => h.1
    cases maxIn with
    | missing =>
      simp only [maxBounds, Denotes, Except.ok.injEq]
      constructor
      · rintro rfl
        refine ⟨rfl, fun x hx => ?_, ?_⟩
        · rw [List.eq_of_mem_replicate hx]
        · rw [List.sum_replicate, nsmul_eq_mul, mul_one]
          exact_mod_cast hn
      · exact fun h => h.1.symm
    | scalar x => exact gen _ (by simp)
    | dict x => exact gen _ (by simp)
    | array x => exact gen _ (by simp)
  have hz : ∀ a b : List K, a.length = b.length →
      ((a.zip b).any (fun p => p.2 < p.1) = false ↔ List.Forall₂ (· ≤ ·) a b) := by
    intro a
    induction a with
    | nil => intro b hb; cases b with
      | nil => simp
      | cons _ _ => simp at hb
    | cons x a ih =>
      intro b hb
      cases b with
      | nil => simp at hb
      | cons y b =>
        simp only [List.zip_cons_cons, List.any_cons, Bool.or_eq_false_iff, decide_eq_false_iff_not,
          not_lt, List.forall₂_cons]
        rw [ih b (by simpa using hb)]
  unfold convertWeightsBounds
  rw [show ∀ {α β : Type _} (x : Except Error α) (f : α → Except Error β),
    (x >>= f) = x.bind f from fun _ _ => rfl]
  cases h1 : minBounds minIn n names with
  | error e =>
    simp only [Except.bind]
    constructor
    · intro h; simp at h
    · rintro ⟨d1, -, h0, -⟩
      have := (hmin mn).mpr ⟨d1, h0⟩
      rw [h1] at this; simp at this
  | ok a =>
    rw [hmin] at h1
    simp only [Except.bind]
    rw [show ∀ {α β : Type _} (x : Except Error α) (f : α → Except Error β),
      (x >>= f) = x.bind f from fun _ _ => rfl]
    cases h2 : maxBounds maxIn n names with
    | error e =>
      simp only [Except.bind]
      constructor
      · intro h; simp at h
      · rintro ⟨-, d2, -, h3, h4, -⟩
        have := (hmax mx).mpr ⟨d2, h3, h4⟩
        rw [h2] at this; simp at this
    | ok b =>
      rw [hmax] at h2
      simp only [Except.bind]
      have hlen : a.length = b.length := by rw [h1.1.length, h2.1.length]
      have uniq1 : Denotes 0 n names minIn mn → mn = a := by
        intro hd
        have e := h1.1
        cases minIn with
        | missing => simp only [Denotes] at hd e; rw [hd, e]
        | scalar x => simp only [Denotes] at hd e; rw [hd, e]
        | dict d =>
          obtain ⟨ns, q1, -, rfl⟩ := hd
          obtain ⟨ns', q2, -, rfl⟩ := e
          rw [q1] at q2; cases q2; rfl
        | array v => rw [hd.2, e.2]
      have uniq2 : Denotes 1 n names maxIn mx → mx = b := by
        intro hd
        have e := h2.1
        cases maxIn with
        | missing => simp only [Denotes] at hd e; rw [hd, e]
        | scalar x => simp only [Denotes] at hd e; rw [hd, e]
        | dict d =>
          obtain ⟨ns, q1, -, rfl⟩ := hd
          obtain ⟨ns', q2, -, rfl⟩ := e
          rw [q1] at q2; cases q2; rfl
        | array v => rw [hd.2, e.2]
      by_cases hb : (a.zip b).any (fun p => p.2 < p.1) = true
      · rw [if_pos hb]
        constructor
        · intro h; simp at h
        · rintro ⟨d1, d2, -, -, -, hf⟩
          rw [uniq1 d1, uniq2 d2] at hf
          rw [(hz a b hlen).mpr hf] at hb
          simp at hb
      · rw [if_neg hb]
        have hf := (hz a b hlen).mp (by simpa using hb)
        simp only [Except.ok.injEq, Prod.mk.injEq]
        constructor
        · rintro ⟨rfl, rfl⟩
          exact ⟨h1.1, h2.1, h1.2, h2.2.1, h2.2.2, hf⟩
        · rintro ⟨d1, d2, -⟩
          exact ⟨(uniq1 d1).symm, (uniq2 d2).symm⟩

/-- C22, meaning: accepted bounds whose minima sum to at most one are met by some portfolio with
weights summing to one.  (The extra hypothesis is what the code forgets to check, see
`C22_infeasible_accepted`.) -/
theorem C22_feasible_partial (minIn maxIn : BoundInput K) (n : ℕ) (hn : 0 < n)
    (names : Option (List String)) (mn mx : List K)
    (h : convertWeightsBounds minIn maxIn n names = .ok (mn, mx)) (hs : mn.sum ≤ 1) :
    ∃ w : List K, w.sum = 1 ∧ List.Forall₂ (· ≤ ·) mn w ∧ List.Forall₂ (· ≤ ·) w mx := by
  obtain ⟨-, -, -, -, hmx, hf⟩ := (C22_accepted_iff minIn maxIn n hn names mn mx).mp h
  -- move from `mn` towards `mx` by the right fraction
  have key : ∀ t : K, 0 ≤ t → t ≤ 1 → ∃ w : List K, w.sum = (1 - t) * mn.sum + t * mx.sum ∧
      List.Forall₂ (· ≤ ·) mn w ∧ List.Forall₂ (· ≤ ·) w mx := by
    intro t h0 h1
    clear hs hmx h
    induction hf with
    | nil => exact ⟨[], by simp⟩
    | @cons x y a b hxy _ ih =>
      obtain ⟨w, e, q1, q2⟩ := ih
      refine ⟨((1 - t) * x + t * y) :: w, ?_, .cons ?_ q1, .cons ?_ q2⟩
      · simp only [List.sum_cons, e]; ring
      · nlinarith
      · nlinarith
  by_cases he : mx.sum = mn.sum
  · obtain ⟨w, e, q⟩ := key 0 le_rfl zero_le_one
    exact ⟨w, by rw [e]; linarith, q⟩
  · have hle : mn.sum < mx.sum := lt_of_le_of_ne (le_trans hs hmx) (Ne.symm he)
    have hpos : 0 < mx.sum - mn.sum := sub_pos.mpr hle
    obtain ⟨w, e, q⟩ := key ((1 - mn.sum) / (mx.sum - mn.sum))
      (div_nonneg (by linarith) hpos.le) (by rw [div_le_one hpos]; linarith)
    refine ⟨w, ?_, q⟩
    rw [e]
    field_simp
    ring

/-- C22, converse: bounds in `[0, 1]` met by some portfolio summing to one are accepted. -/
theorem C22_feasible_accepted (mn mx w : List K) (hw : w.sum = 1) (hne : w ≠ [])
    (h1 : List.Forall₂ (· ≤ ·) mn w) (h2 : List.Forall₂ (· ≤ ·) w mx)
    (h0 : ∀ x ∈ mn, 0 ≤ x) (hle : ∀ x ∈ mx, x ≤ 1) (names : Option (List String)) :
    convertWeightsBounds (.array mn) (.array mx) w.length names = .ok (mn, mx) := by
  rw [C22_accepted_iff _ _ _ (List.length_pos_iff.mpr hne)]
  refine ⟨⟨h1.length_eq, rfl⟩, ⟨h2.length_eq.symm, rfl⟩, h0, hle, ?_, ?_⟩
  · rw [← hw]; exact h2.sum_le_sum
  · clear h0 hle hw hne
    induction h1 generalizing mx with
    | nil => cases h2; exact .nil
    | cons hab _ ih =>
      cases h2 with
      | cons hbc h2 => exact .cons (hab.trans hbc) (ih _ h2)

/-- C22 fails as stated: minima that sum to more than one are accepted although no portfolio summing
to one meets them. -/
theorem C22_infeasible_accepted :
    convertWeightsBounds (K := ℚ) (.scalar (3 / 5)) .missing 2 none
      = .ok ([3 / 5, 3 / 5], [1, 1]) ∧
    ¬ ∃ w : List ℚ, w.sum = 1 ∧ List.Forall₂ (· ≤ ·) [3 / 5, 3 / 5] w := by
  refine ⟨by decide +kernel, ?_⟩
  rintro ⟨w, hs, hf⟩
  have := hf.sum_le_sum
  rw [hs] at this
  norm_num at this

/-- Dictionary bounds: missing names take the default, here 0 and 1. -/
example : convertWeightsBounds (K := ℚ) (.dict [("B", 1 / 4)]) (.dict [("A", 3 / 4)]) 2
    (some ["A", "B"]) = .ok ([0, 1 / 4], [3 / 4, 1]) := by decide +kernel

example : convertWeightsBounds (K := ℚ) (.scalar (-1 / 10)) .missing 2 none
    = .error (.valueError "`min_weights` must be strictly positive") := by decide +kernel

end Skfolio.Hierarchical
