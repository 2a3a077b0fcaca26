import Verif.Measures.TailLemmas
import Mathlib.Data.Rat.Floor
import Mathlib.Algebra.BigOperators.Ring.List

/-! Claims C12 and C13: historical VaR, CVaR and worst realization. The specification is in `Spec.lean`. -/
set_option autoImplicit false

namespace Skfolio.Measures

section
variable {K : Type} [Field K] [LinearOrder K] [IsStrictOrderedRing K] [FloorSemiring K]

/-! ### C12 -/

/-- **C12.** VaR and CVaR are defined for every non-empty sample and every level in [0, 1). -/
theorem C12_defined (P : Partition K) (r : List K) (hr : r ≠ []) (beta : K) (h0 : 0 ≤ beta) (h1 : beta < 1) :
    (∃ v, valueAtRisk P r beta = some v) ∧ (∃ c, cvar P r beta = some c) ∧ ∃ w, worstRealization r = some w := by
  obtain ⟨v, c, hv, hc, -, -⟩ := cvar_spec P r hr beta h0 h1
  refine ⟨⟨v, hv⟩, ⟨c, hc⟩, ?_⟩
  unfold worstRealization
  cases h : r.min? with
  | none => rw [List.min?_eq_none_iff] at h; exact absurd h hr
  | some x => exact ⟨-x, rfl⟩

omit [FloorSemiring K] in
/-- **C12.** `worst_realization` is the largest loss. -/
theorem C12_worst (r : List K) (w : K) (hw : worstRealization r = some w) : IsLargestLoss r w := by
  unfold worstRealization at hw
  cases h : r.min? with
  | none => simp [h] at hw
  | some x =>
    rw [h] at hw
    simp only [Option.map_some, Option.some.injEq] at hw
    obtain ⟨hx1, hx2⟩ := List.min?_eq_some_iff.1 h
    exact ⟨⟨x, hx1, hw.symm⟩, fun y hy => by rw [← hw]; exact neg_le_neg (hx2 y hy)⟩

/-- **C12.** VaR is at most CVaR, which is at most the worst realization. -/
theorem C12_order (P : Partition K) (r : List K) (hr : r ≠ []) (beta : K) (h0 : 0 ≤ beta) (h1 : beta < 1) (v c w : K)
    (hv : valueAtRisk P r beta = some v) (hc : cvar P r beta = some c) (hw : worstRealization r = some w) : v ≤ c ∧ c ≤ w := by
  obtain ⟨v', c', hv', hc', hle, heq⟩ := cvar_spec P r hr beta h0 h1
  rw [hv, Option.some.injEq] at hv'
  rw [hc, Option.some.injEq] at hc'
  subst hv' hc'
  have hn : (0 : K) < (r.length : K) := by exact_mod_cast List.length_pos_iff.2 hr
  have hk : 0 < (1 - beta) * (r.length : K) := mul_pos (by linarith) hn
  refine ⟨?_, ?_⟩
  · rw [heq]
    unfold ruObjective
    have := div_nonneg (sum_max_nonneg r v) hk.le
    linarith
  · have h := hle w
    unfold ruObjective at h
    rw [sum_max_zero r w (fun y hy => by have := (C12_worst r w hw).2 y hy; linarith)] at h
    simpa using h

/-- **C12.** CVaR does not decrease with the level. -/
theorem C12_cvar_monotone_in_beta (P : Partition K) (r : List K) (hr : r ≠ []) (beta beta' : K) (h0 : 0 ≤ beta) (hb : beta ≤ beta')
    (h1 : beta' < 1) (c c' : K) (hc : cvar P r beta = some c) (hc' : cvar P r beta' = some c') : c ≤ c' := by
  obtain ⟨v1, c1, hv1, hc1, hle1, heq1⟩ := cvar_spec P r hr beta h0 (by linarith)
  obtain ⟨v2, c2, hv2, hc2, hle2, heq2⟩ := cvar_spec P r hr beta' (by linarith) h1
  rw [hc, Option.some.injEq] at hc1
  rw [hc', Option.some.injEq] at hc2
  subst hc1 hc2
  have hn : (0 : K) < (r.length : K) := by exact_mod_cast List.length_pos_iff.2 hr
  have h := hle1 v2
  refine h.trans ?_
  rw [heq2]
  unfold ruObjective
  have : (r.map fun x => max 0 (-x - v2)).sum / ((1 - beta) * (r.length : K)) ≤ (r.map fun x => max 0 (-x - v2)).sum / ((1 - beta') * (r.length : K)) := by
    apply div_le_div_of_nonneg_left (sum_max_nonneg r v2)
    · exact mul_pos (by linarith) hn
    · exact mul_le_mul_of_nonneg_right (by linarith) hn.le
  linarith

/-- **C12.** The VaR is the loss quantile: fewer than `(1-beta) n` losses exceed it and at least `(1-beta) n` losses reach it; only one
number has this property. -/
theorem C12_var_iff_quantile (P : Partition K) (r : List K) (hr : r ≠ []) (beta : K) (h0 : 0 ≤ beta) (h1 : beta < 1) (v : K) :
    valueAtRisk P r beta = some v ↔ IsLossQuantile r beta v := by
  obtain ⟨p1, x, p2, h⟩ := tailSplit P r hr beta h0 h1
  have hq : IsLossQuantile r beta (-x) := by
    unfold IsLossQuantile
    rw [← h.perm.countP_eq, ← h.perm.countP_eq, List.countP_append, List.countP_append]
    constructor
    · have e1 : (p1.countP fun y => decide (-x < -y)) ≤ p1.length := List.countP_le_length
      have e2 : (x :: p2).countP (fun y => decide (-x < -y)) = 0 := by
        rw [List.countP_eq_zero]
        intro y hy
        rcases List.mem_cons.1 hy with rfl | hy
        · simp
        · have := h.ge y hy
          simpa using this
      rw [e2, add_zero]
      refine lt_of_le_of_lt ?_ h.lo
      exact_mod_cast e1
    · have e1 : (p1.countP fun y => decide (-x ≤ -y)) = p1.length := by
        rw [List.countP_eq_length]
        intro y hy
        have := h.le y hy
        simpa using this
      have e2 : 1 ≤ (x :: p2).countP (fun y => decide (-x ≤ -y)) := by
        rw [List.countP_cons_of_pos (by simp)]; omega
      refine h.hi.trans ?_
      rw [e1]
      exact_mod_cast Nat.add_le_add_left e2 _
  have huniq : ∀ v', IsLossQuantile r beta v' → v' = -x := by
    intro v' hv'
    have hmono : ∀ a b : K, a < b → (r.countP fun y => decide (b ≤ -y)) ≤ r.countP fun y => decide (a < -y) := by
      intro a b hab
      apply List.countP_mono_left
      intro y _ hy
      simp only [decide_eq_true_eq] at hy ⊢
      exact lt_of_lt_of_le hab hy
    rcases lt_trichotomy v' (-x) with hlt | heq | hgt
    · exfalso
      have a1 := hq.2
      have a2 := hv'.1
      have a3 : ((r.countP fun y => decide (-x ≤ -y) : Nat) : K) ≤ (r.countP fun y => decide (v' < -y) : Nat) := by
        exact_mod_cast hmono _ _ hlt
      linarith
    · exact heq
    · exfalso
      have a1 := hv'.2
      have a2 := hq.1
      have a3 : ((r.countP fun y => decide (v' ≤ -y) : Nat) : K) ≤ (r.countP fun y => decide (-x < -y) : Nat) := by
        exact_mod_cast hmono _ _ hgt
      linarith
  rw [h.var, Option.some.injEq]
  constructor
  · rintro rfl; exact hq
  · intro hv; exact (huniq v hv).symm

/-- **C12.** CVaR at level 0 is minus the mean. -/
theorem C12_cvar_zero (P : Partition K) (r : List K) (hr : r ≠ []) : cvar P r 0 = some (-(r.sum / (r.length : K))) := by
  obtain ⟨p1, x, p2, h⟩ := tailSplit P r hr 0 le_rfl zero_lt_one
  have hn : (0 : K) < (r.length : K) := by exact_mod_cast List.length_pos_iff.2 hr
  have hk : tailSize (0 : K) r.length = (r.length : K) := by simp [tailSize]
  have hlen : p1.length + (p2.length + 1) = r.length := by
    have := h.perm.length_eq
    simpa using this
  have hp2 : p2 = [] := by
    have h1 := h.hi
    rw [hk] at h1
    have h2 : r.length ≤ p1.length + 1 := by exact_mod_cast h1
    exact List.length_eq_zero_iff.1 (by omega)
  subst hp2
  have hsum : p1.sum + x = r.sum := by
    have := h.perm.sum_eq
    simpa using this
  have hl : (p1.length : K) = (r.length : K) - 1 := by
    have : p1.length + 1 = r.length := by simpa using hlen
    rw [← this]; push_cast; ring
  rw [h.cvar, hk, hl, ← hsum]
  congr 1
  field_simp
  ring

/-- **C12.** At level 1 the VaR is the worst realization. -/
theorem C12_var_one (P : Partition K) (r : List K) : valueAtRisk P r 1 = worstRealization r := by
  have hi : tailIndex (1 : K) r.length = 0 := by simp [tailIndex, tailSize]
  unfold valueAtRisk worstRealization
  rw [hi]
  cases hp : P.run r 0 with
  | nil =>
    have : r = [] := by
      have := P.perm r 0
      rw [hp] at this
      exact List.perm_nil.1 this.symm
    subst this
    simp
  | cons x p =>
    have hget : (P.run r 0)[0]? = some x := by rw [hp]; rfl
    have hafter := P.after r 0 x hget
    have hperm := P.perm r 0
    rw [hp] at hafter hperm
    have : r.min? = some x := by
      rw [List.min?_eq_some_iff]
      refine ⟨hperm.mem_iff.1 (by simp), fun y hy => ?_⟩
      rcases List.mem_cons.1 (hperm.mem_iff.2 hy) with rfl | hy'
      · exact le_rfl
      · exact hafter y (by simpa using hy')
    rw [this]; simp

/-- **C12, boundary.** At level 1 the CVaR is not a number (division by 0), whatever the sample. -/
theorem C12_cvar_one_undefined (P : Partition K) (r : List K) : cvar P r 1 = none := by
  unfold cvar
  have : tailSize (1 : K) r.length = 0 := by simp [tailSize]
  simp only [this, if_true]
  split <;> rfl

/-! ### C13 -/

/-- **C13.** CVaR is the minimum over `alpha` of the Rockafellar-Uryasev objective, attained at the VaR. -/
theorem C13_rockafellar_uryasev (P : Partition K) (r : List K) (hr : r ≠ []) (beta : K) (h0 : 0 ≤ beta) (h1 : beta < 1) (v c : K)
    (hv : valueAtRisk P r beta = some v) (hc : cvar P r beta = some c) :
    (∀ alpha, c ≤ ruObjective r beta alpha) ∧ c = ruObjective r beta v := by
  obtain ⟨v1, c1, hv1, hc1, hle1, heq1⟩ := cvar_spec P r hr beta h0 h1
  rw [hc, Option.some.injEq] at hc1
  rw [hv, Option.some.injEq] at hv1
  subst hc1 hv1
  exact ⟨hle1, heq1⟩

/-- A number with the two properties of the minimum is the value of `cvar`. -/
theorem cvar_unique (P : Partition K) (r : List K) (hr : r ≠ []) (beta : K) (h0 : 0 ≤ beta) (h1 : beta < 1) (c a : K)
    (hle : ∀ alpha, c ≤ ruObjective r beta alpha) (heq : c = ruObjective r beta a) : cvar P r beta = some c := by
  obtain ⟨v1, c1, hv1, hc1, hle1, heq1⟩ := cvar_spec P r hr beta h0 h1
  rw [hc1]
  congr 1
  apply le_antisymm
  · rw [heq]; exact hle1 a
  · rw [heq1]; exact hle v1

/-- **C13.** CVaR does not depend on the order of the observations (nor on how the sample is partitioned). -/
theorem C13_permutation (P P' : Partition K) (r r' : List K) (hr : r ≠ []) (hp : r.Perm r') (beta : K) (h0 : 0 ≤ beta) (h1 : beta < 1) :
    cvar P r beta = cvar P' r' beta ∧ valueAtRisk P r beta = valueAtRisk P' r' beta := by
  have hr' : r' ≠ [] := fun h => hr (by subst h; exact List.perm_nil.1 hp)
  constructor
  · obtain ⟨v, c, hv, hc, hle, heq⟩ := cvar_spec P r hr beta h0 h1
    rw [hc]
    exact (cvar_unique P' r' hr' beta h0 h1 c v (fun a => by rw [← ru_perm r r' hp]; exact hle a) (by rw [← ru_perm r r' hp]; exact heq)).symm
  · obtain ⟨v, c, hv, -, -, -⟩ := cvar_spec P r hr beta h0 h1
    rw [hv]
    have hq := (C12_var_iff_quantile P r hr beta h0 h1 v).1 hv
    refine ((C12_var_iff_quantile P' r' hr' beta h0 h1 v).2 ?_).symm
    unfold IsLossQuantile at hq ⊢
    rw [← hp.countP_eq, ← hp.countP_eq, ← hp.length_eq]
    exact hq

/-- **C13.** Translation: adding a constant to all returns lowers the CVaR by that constant. -/
theorem C13_translation (P : Partition K) (r : List K) (hr : r ≠ []) (beta : K) (h0 : 0 ≤ beta) (h1 : beta < 1) (c t : K)
    (hc : cvar P r beta = some c) : cvar P (r.map fun x => x + t) beta = some (c - t) := by
  obtain ⟨v, c', hv, hc', hle, heq⟩ := cvar_spec P r hr beta h0 h1
  rw [hc, Option.some.injEq] at hc'
  subst hc'
  have key : ∀ a, ruObjective (r.map fun x => x + t) beta (a - t) = ruObjective r beta a - t := by
    intro a
    unfold ruObjective
    rw [List.map_map, List.length_map]
    have : ((fun x => max 0 (-x - (a - t))) ∘ fun x => x + t) = fun x => max 0 (-x - a) := by
      funext x; simp only [Function.comp]; congr 1; ring
    rw [this]; ring
  refine cvar_unique P _ (by simpa using hr) beta h0 h1 (c - t) (v - t) (fun a => ?_) ?_
  · have := key (a + t)
    rw [add_sub_cancel_right] at this
    rw [this]
    linarith [hle (a + t)]
  · rw [key, heq]

/-- **C13.** Positive homogeneity. -/
theorem C13_homogeneous (P : Partition K) (r : List K) (hr : r ≠ []) (beta : K) (h0 : 0 ≤ beta) (h1 : beta < 1) (c l : K) (hl : 0 ≤ l)
    (hc : cvar P r beta = some c) : cvar P (r.map fun x => l * x) beta = some (l * c) := by
  obtain ⟨v, c', hv, hc', hle, heq⟩ := cvar_spec P r hr beta h0 h1
  rw [hc, Option.some.injEq] at hc'
  subst hc'
  have hn : (0 : K) < (r.length : K) := by exact_mod_cast List.length_pos_iff.2 hr
  have hk : 0 < (1 - beta) * (r.length : K) := mul_pos (by linarith) hn
  have key : ∀ a, ruObjective (r.map fun x => l * x) beta (l * a) = l * ruObjective r beta a := by
    intro a
    unfold ruObjective
    rw [List.map_map, List.length_map]
    have : ((fun x => max 0 (-x - l * a)) ∘ fun x => l * x) = fun x => l * max 0 (-x - a) := by
      funext x
      simp only [Function.comp]
      rw [mul_max_of_nonneg _ _ hl, mul_zero]; congr 1; ring
    rw [this, List.sum_map_mul_left]; ring
  refine cvar_unique P _ (by simpa using hr) beta h0 h1 (l * c) (l * v) (fun a => ?_) ?_
  · rcases hl.eq_or_lt with rfl | hl
    · -- all returns are zero
      unfold ruObjective
      rw [List.map_map, List.length_map]
      have : ((fun x => max 0 (-x - a)) ∘ fun x => (0 : K) * x) = fun _ : K => max 0 (-a) := by
        funext x; simp
      rw [this, List.map_const', List.sum_replicate, nsmul_eq_mul, zero_mul]
      have h2 : (r.length : K) * max 0 (-a) / ((1 - beta) * (r.length : K)) = max 0 (-a) / (1 - beta) := by
        have : (1 - beta) ≠ 0 := by intro h; linarith
        field_simp
      rw [h2]
      have h3 : max 0 (-a) ≤ max 0 (-a) / (1 - beta) := by
        rw [le_div_iff₀ (by linarith)]
        have := le_max_left 0 (-a)
        nlinarith
      linarith [le_max_right 0 (-a)]
    · have := key (a / l)
      rw [mul_div_cancel₀ _ hl.ne'] at this
      rw [this]
      exact mul_le_mul_of_nonneg_left (hle _) hl.le
  · rw [key, heq]

/-- **C13.** Monotonicity: returns that are nowhere smaller have no larger CVaR. -/
theorem C13_monotone (P : Partition K) (r r' : List K) (hr : r ≠ []) (beta : K) (h0 : 0 ≤ beta) (h1 : beta < 1)
    (hle : List.Forall₂ (· ≤ ·) r r') (c c' : K) (hc : cvar P r beta = some c) (hc' : cvar P r' beta = some c') : c' ≤ c := by
  have hr' : r' ≠ [] := fun h => hr (by subst h; cases hle; rfl)
  obtain ⟨v, c1, hv, hc1, -, heq⟩ := cvar_spec P r hr beta h0 h1
  obtain ⟨v2, c2, hv2, hc2, hle2, -⟩ := cvar_spec P r' hr' beta h0 h1
  rw [hc, Option.some.injEq] at hc1
  rw [hc', Option.some.injEq] at hc2
  subst hc1 hc2
  refine (hle2 v).trans ?_
  rw [heq]
  unfold ruObjective
  have hn : (0 : K) < (r.length : K) := by exact_mod_cast List.length_pos_iff.2 hr
  have hk : 0 < (1 - beta) * (r.length : K) := mul_pos (by linarith) hn
  rw [← hle.length_eq]
  have hs : (r'.map fun x => max 0 (-x - v)).sum ≤ (r.map fun x => max 0 (-x - v)).sum := by
    clear hc hc' hr hr' hn hk hle2 heq hv hv2
    induction hle with
    | nil => simp
    | cons hab _ ih =>
      simp only [List.map_cons, List.sum_cons]
      exact add_le_add (max_le_max le_rfl (by linarith)) ih
  have := div_le_div_of_nonneg_right hs hk.le
  linarith

omit [FloorSemiring K] in
theorem sum_max_add (r r' : List K) (hlen : r.length = r'.length) (a b : K) :
    ((List.zipWith (· + ·) r r').map fun x => max 0 (-x - (a + b))).sum ≤
      (r.map fun x => max 0 (-x - a)).sum + (r'.map fun x => max 0 (-x - b)).sum := by
  induction r generalizing r' with
  | nil => cases r' with
    | nil => simp
    | cons y r' => simp at hlen
  | cons x r ih =>
    cases r' with
    | nil => simp at hlen
    | cons y r' =>
      simp only [List.zipWith_cons_cons, List.map_cons, List.sum_cons]
      have h := ih r' (by simpa using hlen)
      have h2 : max 0 (-(x + y) - (a + b)) ≤ max 0 (-x - a) + max 0 (-y - b) := by
        apply max_le
        · exact add_nonneg (le_max_left _ _) (le_max_left _ _)
        · have h3 := le_max_right 0 (-x - a)
          have h4 := le_max_right 0 (-y - b)
          linarith
      linarith

/-- **C13.** Subadditivity: the CVaR of the sum of two return series is at most the sum of their CVaRs. -/
theorem C13_subadditive (P : Partition K) (r r' : List K) (hr : r ≠ []) (hlen : r.length = r'.length) (beta : K) (h0 : 0 ≤ beta)
    (h1 : beta < 1) (c c' d : K) (hc : cvar P r beta = some c) (hc' : cvar P r' beta = some c')
    (hd : cvar P (List.zipWith (· + ·) r r') beta = some d) : d ≤ c + c' := by
  have hl0 := List.length_pos_iff.2 hr
  have hr' : r' ≠ [] := List.length_pos_iff.1 (by omega)
  have hlz : (List.zipWith (· + ·) r r').length = r.length := by rw [List.length_zipWith]; omega
  have hz : List.zipWith (· + ·) r r' ≠ [] := List.length_pos_iff.1 (by omega)
  obtain ⟨v, c1, hv, hc1, -, heq⟩ := cvar_spec P r hr beta h0 h1
  obtain ⟨v2, c2, hv2, hc2, -, heq2⟩ := cvar_spec P r' hr' beta h0 h1
  obtain ⟨v3, c3, hv3, hc3, hle3, -⟩ := cvar_spec P _ hz beta h0 h1
  rw [hc, Option.some.injEq] at hc1
  rw [hc', Option.some.injEq] at hc2
  rw [hd, Option.some.injEq] at hc3
  subst hc1 hc2 hc3
  have h := hle3 (v + v2)
  rw [heq, heq2]
  refine h.trans ?_
  unfold ruObjective
  have hn : (0 : K) < (r.length : K) := by exact_mod_cast hl0
  have hk : 0 < (1 - beta) * (r.length : K) := mul_pos (by linarith) hn
  rw [hlz, ← hlen]
  have hs := div_le_div_of_nonneg_right (sum_max_add r r' hlen v v2) hk.le
  rw [add_div] at hs
  linarith

/-- **C13.** Hence CVaR is convex: diversification does not increase it. -/
theorem C13_convex (P : Partition K) (r r' : List K) (hr : r ≠ []) (hlen : r.length = r'.length) (beta : K) (h0 : 0 ≤ beta)
    (h1 : beta < 1) (c c' d t : K) (ht0 : 0 ≤ t) (ht1 : t ≤ 1) (hc : cvar P r beta = some c) (hc' : cvar P r' beta = some c')
    (hd : cvar P (List.zipWith (fun x y => t * x + (1 - t) * y) r r') beta = some d) : d ≤ t * c + (1 - t) * c' := by
  have hl0 := List.length_pos_iff.2 hr
  have hr' : r' ≠ [] := List.length_pos_iff.1 (by omega)
  have e1 := C13_homogeneous P r hr beta h0 h1 c t ht0 hc
  have e2 := C13_homogeneous P r' hr' beta h0 h1 c' (1 - t) (by linarith) hc'
  refine C13_subadditive P (r.map fun x => t * x) (r'.map fun x => (1 - t) * x) (by simpa using hr) (by simpa using hlen) beta h0 h1 _ _ d e1 e2 ?_
  rw [List.zipWith_map]
  exact hd

end

/-! ### concrete data: the hypotheses are met -/

/-- Full sorting is a partition. -/
def sortPartition (K : Type) [LinearOrder K] : Partition K where
  run r _ := r.insertionSort (· ≤ ·)
  perm r _ := List.perm_insertionSort _ r
  before r i x hx y hy := by
    have hs := List.pairwise_insertionSort (· ≤ ·) r
    rw [List.getElem?_eq_some_iff] at hx
    obtain ⟨hi, rfl⟩ := hx
    obtain ⟨j, hj, rfl⟩ := List.getElem_of_mem hy
    rw [List.length_take] at hj
    rw [List.getElem_take]
    exact List.pairwise_iff_getElem.1 hs j i (by omega) hi (by omega)
  after r i x hx y hy := by
    have hs := List.pairwise_insertionSort (· ≤ ·) r
    rw [List.getElem?_eq_some_iff] at hx
    obtain ⟨hi, rfl⟩ := hx
    obtain ⟨j, hj, rfl⟩ := List.getElem_of_mem hy
    rw [List.length_drop] at hj
    rw [List.getElem_drop]
    exact List.pairwise_iff_getElem.1 hs i (i + 1 + j) hi (by omega) (by omega)

/-- Five returns, level 1/2: `k = 2.5`, VaR 1, CVaR (3 + 2 + 0.5)/2.5 = 2.2, worst 3. -/
example : valueAtRisk (sortPartition ℚ) [1, -3, 2, -1, -2] (1 / 2) = some 1 ∧
    cvar (sortPartition ℚ) [1, -3, 2, -1, -2] (1 / 2) = some (11 / 5) ∧ worstRealization [(1 : ℚ), -3, 2, -1, -2] = some 3 := by
  decide +kernel

/-- Two series of equal length, one dominated by the other, to which monotonicity and subadditivity apply. -/
example : List.Forall₂ (· ≤ ·) [(1 : ℚ), -3] [2, -1] ∧ [(1 : ℚ), -3].length = [(2 : ℚ), -1].length :=
  ⟨.cons (by norm_num) (.cons (by norm_num) .nil), rfl⟩

end Skfolio.Measures
