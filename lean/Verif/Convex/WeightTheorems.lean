import Verif.Convex.WeightSpec
import Mathlib.Algebra.Order.BigOperators.Group.Finset
import Mathlib.Tactic.Ring
import Mathlib.Tactic.Linarith
import Mathlib.Tactic.FieldSimp
import Mathlib.Tactic.SplitIfs
import Mathlib.Tactic.NormNum

/-! C19, C20: weight constraints. -/
set_option autoImplicit false

namespace Skfolio.Convex

section
variable {K : Type} [Field K] [LinearOrder K] [IsStrictOrderedRing K] {n : Nat}

theorem le_scaled {a b s k : K} (hs : 0 < s) (hk : 0 < k) : a * s ≤ b * k * s ↔ a / k ≤ b := by
  rw [mul_le_mul_iff_left₀ hs, div_le_iff₀ hk]

theorem ge_scaled {a b s k : K} (hs : 0 < s) (hk : 0 < k) : a * s ≥ b * k * s ↔ b ≤ a / k := by
  rw [ge_iff_le, mul_le_mul_iff_left₀ hs, le_div_iff₀ hk]

theorem eq_scaled {a b s k : K} (hs : 0 < s) (hk : 0 < k) : a * s = b * k * s ↔ a / k = b := by
  rw [mul_left_inj' hs.ne', div_eq_iff hk.ne']

theorem sum_div' (w : Fin n → K) (k : K) : ∑ i, w i / k = (∑ i, w i) / k := (Finset.sum_div _ _ _).symm

theorem sum_max_div (w : Fin n → K) (k : K) (hk : 0 < k) : ∑ i, max (w i / k) 0 = (∑ i, max (w i) 0) / k := by
  rw [Finset.sum_div]
  refine Finset.sum_congr rfl fun i _ => ?_
  rw [← max_div_div_right hk.le, zero_div]

theorem sum_maxneg_div (w : Fin n → K) (k : K) (hk : 0 < k) : ∑ i, max (-(w i / k)) 0 = (∑ i, max (-w i) 0) / k := by
  rw [Finset.sum_div]
  refine Finset.sum_congr rfl fun i _ => ?_
  rw [← max_div_div_right hk.le, zero_div, neg_div]

theorem sum_row_div (r w : Fin n → K) (k : K) : ∑ i, r i * (w i / k) = (∑ i, r i * w i) / k := by
  rw [Finset.sum_div]
  refine Finset.sum_congr rfl fun i _ => ?_
  ring

/-- All members of a list of constraints hold. -/
def Holds (cs : List (Constraint K n)) (w : Fin n → K) (k : K) : Prop := ∀ c ∈ cs, c w k

omit [IsStrictOrderedRing K] [LinearOrder K] [Field K] in
theorem holds_append (a b : List (Constraint K n)) (w : Fin n → K) (k : K) : Holds (a ++ b) w k ↔ Holds a w k ∧ Holds b w k := by
  unfold Holds
  simp only [List.mem_append]
  exact ⟨fun h => ⟨fun c hc => h c (Or.inl hc), fun c hc => h c (Or.inr hc)⟩, fun h c hc => hc.elim (h.1 c) (h.2 c)⟩

omit [IsStrictOrderedRing K] [LinearOrder K] [Field K] in
theorem holds_single (c : Constraint K n) (w : Fin n → K) (k : K) : Holds [c] w k ↔ c w k := by simp [Holds]

omit [IsStrictOrderedRing K] [LinearOrder K] [Field K] in
theorem holds_nil (w : Fin n → K) (k : K) : Holds [] w k := by simp [Holds]

theorem ok_bind {ε α β : Type} {x : Except ε α} {f : α → Except ε β} {b : β} (h : (x >>= f) = .ok b) : ∃ a, x = .ok a ∧ f a = .ok b := by
  cases x with
  | error e => exact absurd h (by simp [bind, Except.bind])
  | ok a => exact ⟨a, rfl, h⟩

theorem min_iff (p : Params K n) (al : Bool) (s k : K) (hs : 0 < s) (hk : 0 < k) (w : Fin n → K) (cs : List (Constraint K n))
    (h : minConstraint p al s = .ok cs) : Holds cs w k ↔ ∀ m, p.minWeights = some m → ∀ i, m i ≤ w i / k := by
  unfold minConstraint at h
  split at h
  · rename_i hm
    cases h
    simp [hm, holds_nil]
  · rename_i m hm
    split_ifs at h
    cases h
    rw [holds_single]
    simp only [ge_scaled hs hk, hm, Option.some.injEq, forall_eq']

theorem max_iff (p : Params K n) (s k : K) (hs : 0 < s) (hk : 0 < k) (w : Fin n → K) :
    Holds (maxConstraint p s) w k ↔ ∀ m, p.maxWeights = some m → ∀ i, w i / k ≤ m i := by
  unfold maxConstraint
  split
  · rename_i hm
    simp [hm, holds_nil]
  · rename_i m hm
    rw [holds_single]
    simp only [le_scaled hs hk, hm, Option.some.injEq, forall_eq']

theorem long_iff (p : Params K n) (s k : K) (hs : 0 < s) (hk : 0 < k) (w : Fin n → K) (cs : List (Constraint K n))
    (h : longConstraint p s = .ok cs) : Holds cs w k ↔ ∀ m, p.maxLong = some m → ∑ i, max (w i / k) 0 ≤ m := by
  unfold longConstraint at h
  split at h
  · rename_i hm
    cases h
    simp [hm, holds_nil]
  · rename_i m hm
    split_ifs at h
    cases h
    rw [holds_single, sum_max_div w k hk]
    simp only [le_scaled hs hk, hm, Option.some.injEq, forall_eq']

theorem short_iff (p : Params K n) (s k : K) (hs : 0 < s) (hk : 0 < k) (w : Fin n → K) (cs : List (Constraint K n))
    (h : shortConstraint p s = .ok cs) : Holds cs w k ↔ ∀ m, p.maxShort = some m → ∑ i, max (-(w i / k)) 0 ≤ m := by
  unfold shortConstraint at h
  split at h
  · rename_i hm
    cases h
    simp [hm, holds_nil]
  · rename_i m hm
    split_ifs at h
    cases h
    rw [holds_single, sum_maxneg_div w k hk]
    simp only [le_scaled hs hk, hm, Option.some.injEq, forall_eq']

theorem bounds_iff (p : Params K n) (s k : K) (hs : 0 < s) (hk : 0 < k) (w : Fin n → K) :
    Holds (budgetBounds p s) w k ↔
      (∀ m, p.minBudget = some m → m ≤ ∑ i, w i / k) ∧ ∀ m, p.maxBudget = some m → ∑ i, w i / k ≤ m := by
  unfold budgetBounds
  rw [holds_append, sum_div']
  refine and_congr ?_ ?_
  · split
    · rename_i hm
      simp [hm, holds_nil]
    · rename_i m hm
      rw [holds_single]
      simp only [ge_scaled hs hk, hm, Option.some.injEq, forall_eq']
  · split
    · rename_i hm
      simp [hm, holds_nil]
    · rename_i m hm
      rw [holds_single]
      simp only [le_scaled hs hk, hm, Option.some.injEq, forall_eq']

theorem budget_iff (p : Params K n) (s k : K) (hs : 0 < s) (hk : 0 < k) (w : Fin n → K) (cs : List (Constraint K n))
    (h : budgetConstraint p s = .ok cs) : Holds cs w k ↔ ∀ m, p.budget = some m → ∑ i, w i / k = m := by
  unfold budgetConstraint at h
  split at h
  · rename_i hm
    cases h
    simp [hm, holds_nil]
  · rename_i m hm
    split_ifs at h
    cases h
    rw [holds_single, sum_div']
    simp only [eq_scaled hs hk, hm, Option.some.injEq, forall_eq']

theorem linear_iff (p : Params K n) (s k : K) (hs : 0 < s) (hk : 0 < k) (w : Fin n → K) :
    Holds (linearConstraints p s) w k ↔
      (∀ row ∈ p.eqRows, ∑ i, row.1 i * (w i / k) = row.2) ∧ (∀ row ∈ p.ineqRows, ∑ i, row.1 i * (w i / k) ≤ row.2) ∧
        ∀ rows, p.inequality = some rows → ∀ row ∈ rows, ∑ i, row.1 i * (w i / k) ≤ row.2 := by
  have h1 : ∀ row : (Fin n → K) × K, (∑ i, row.1 i * w i) * s - row.2 * k * s = 0 ↔ ∑ i, row.1 i * (w i / k) = row.2 := by
    intro row
    rw [sub_eq_zero, eq_scaled hs hk, sum_row_div]
  have h2 : ∀ row : (Fin n → K) × K, (∑ i, row.1 i * w i) * s - row.2 * k * s ≤ 0 ↔ ∑ i, row.1 i * (w i / k) ≤ row.2 := by
    intro row
    rw [sub_nonpos, le_scaled hs hk, sum_row_div]
  unfold linearConstraints
  rw [holds_append]
  have h3 : Holds [fun w k => ∀ row ∈ p.eqRows, (∑ i, row.1 i * w i) * s - row.2 * k * s = 0,
      fun w k => ∀ row ∈ p.ineqRows, (∑ i, row.1 i * w i) * s - row.2 * k * s ≤ 0] w k ↔
      (∀ row ∈ p.eqRows, (∑ i, row.1 i * w i) * s - row.2 * k * s = 0) ∧ ∀ row ∈ p.ineqRows, (∑ i, row.1 i * w i) * s - row.2 * k * s ≤ 0 := by
    simp [Holds]
  rw [h3, and_assoc]
  simp only [h1, h2]
  refine and_congr_right fun _ => and_congr_right fun _ => ?_
  split
  · rename_i hm
    simp [hm, holds_nil]
  · rename_i m hm
    rw [holds_single]
    simp only [h2, hm, Option.some.injEq, forall_eq']

/-- The simple and linear constraints on `(w, k)` say that `w / k` respects the limits. -/
theorem limits_iff (p : Params K n) (al : Bool) (s k : K) (hs : 0 < s) (hk : 0 < k) (w : Fin n → K) (cs : List (Constraint K n))
    (h : simpleConstraints p al s = .ok cs) :
    (Holds cs w k ∧ Holds (linearConstraints p s) w k) ↔ RespectsLimits p fun i => w i / k := by
  unfold simpleConstraints at h
  obtain ⟨a, ha, h⟩ := ok_bind h
  obtain ⟨b, hb, h⟩ := ok_bind h
  obtain ⟨c, hc, h⟩ := ok_bind h
  obtain ⟨e, he, h⟩ := ok_bind h
  cases h
  simp only [holds_append]
  rw [min_iff p al s k hs hk w a ha, max_iff p s k hs hk, long_iff p s k hs hk w b hb, short_iff p s k hs hk w c hc, bounds_iff p s k hs hk,
    budget_iff p s k hs hk w e he, linear_iff p s k hs hk]
  constructor
  · rintro ⟨⟨⟨⟨⟨⟨h1, h2⟩, h3⟩, h4⟩, h5, h6⟩, h7⟩, h8, h9, h10⟩
    exact ⟨h1, h2, h3, h4, h5, h6, h7, h8, h9, h10⟩
  · rintro ⟨h1, h2, h3, h4, h5, h6, h7, h8, h9, h10⟩
    exact ⟨⟨⟨⟨⟨⟨h1, h2⟩, h3⟩, h4⟩, h5, h6⟩, h7⟩, h8, h9, h10⟩

theorem constraints_split (p : Params K n) (fv al : Bool) (s : K) (cs : List (Constraint K n)) (h : getWeightConstraints p fv al s = .ok cs) :
    ∃ a m, simpleConstraints p al s = .ok a ∧ mipPart p fv s = .ok m ∧ cs = a ++ m ++ linearConstraints p s ∧
      (isMip p = true → p.mixedIntegerSolver = true) := by
  unfold getWeightConstraints at h
  split_ifs at h with hmi
  obtain ⟨a, ha, h⟩ := ok_bind h
  obtain ⟨m, hm, h⟩ := ok_bind h
  cases h
  refine ⟨a, m, ha, hm, rfl, fun hp => ?_⟩
  simpa [hp] using hmi

/-- **C19.** Without mixed-integer constraints: a point `(w, k)` with `k > 0` satisfies the constraints exactly when the returned weights `w / k`
respect all limits; in particular with `k = 1`, for the objectives without scale. -/
theorem C19_weight_limits (p : Params K n) (fv al : Bool) (s k : K) (hs : 0 < s) (hk : 0 < k) (w : Fin n → K) (cs : List (Constraint K n))
    (h : getWeightConstraints p fv al s = .ok cs) (hm : isMip p = false) : Holds cs w k ↔ RespectsLimits p fun i => w i / k := by
  obtain ⟨a, m, ha, hm', rfl, -⟩ := constraints_split p fv al s cs h
  have : m = [] := by
    unfold mipPart at hm'
    rw [hm] at hm'
    simpa using hm'.symm
  subst this
  rw [← limits_iff p al s k hs hk w a ha, holds_append, List.append_nil]

/-- **C19.** With mixed-integer constraints the limits still hold on the returned weights. -/
theorem C19_weight_limits_mip (p : Params K n) (fv al : Bool) (s k : K) (hs : 0 < s) (hk : 0 < k) (w : Fin n → K) (cs : List (Constraint K n))
    (h : getWeightConstraints p fv al s = .ok cs) (hw : Holds cs w k) : RespectsLimits p fun i => w i / k := by
  obtain ⟨a, m, ha, -, rfl, -⟩ := constraints_split p fv al s cs h
  rw [holds_append, holds_append] at hw
  exact (limits_iff p al s k hs hk w a ha).1 ⟨hw.1.1, hw.2⟩

end

end Skfolio.Convex
