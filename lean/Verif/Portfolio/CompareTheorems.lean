import Verif.Portfolio.CompareModel
import Verif.Sorting.Theorems
import Mathlib.Algebra.Order.Ring.Rat
import Mathlib.Algebra.Order.Group.Defs

/-!
# C131: comparisons of portfolios
-/

set_option autoImplicit false

namespace Skfolio.Portfolio.Compare

open Sorting

variable {K : Type}

/-! ### Specification -/

/-- `p` and `q` have the same fitness measures (as many, of the same kinds). -/
def SameMeasures (p q : Ptf K) : Prop := p.measures.map Prod.fst = q.measures.map Prod.fst

/-- No measure is NaN. -/
def NoNan (p : Ptf K) : Prop := ∀ m ∈ p.measures, m.2 ≠ .nan

variable [AddCommGroup K] [LinearOrder K] [IsOrderedAddMonoid K]

/-- `x` is not worse than `y` for a measure: not smaller, or not greater for a risk measure. -/
def NotWorse (risk : Bool) (x y : K) : Prop := if risk then x ≤ y else y ≤ x

/-- On every measure `p` is not worse than `q`. -/
def AtLeastAsGood (p q : Ptf K) : Prop :=
  ∀ ab ∈ p.measures.zip q.measures, ∀ x y, ab.1.2 = .num x → ab.2.2 = .num y → NotWorse ab.1.1 x y

/-- All measures of `p` and `q` have the same values. -/
def SameValues (p q : Ptf K) : Prop :=
  ∀ ab ∈ p.measures.zip q.measures, ∀ x y, ab.1.2 = .num x → ab.2.2 = .num y → x = y

/-! ### Operators as relations of the fitness -/

theorem dominateLoop_fl (b : Bool) (f g : List (Fl K)) (h : f.length = g.length) :
    dominateLoop b f g = .ok (decide ((∀ p ∈ f.zip g, ¬ p.1 < p.2) ∧ (b = true ∨ ∃ p ∈ f.zip g, p.2 < p.1))) := by
  induction f generalizing g b with
  | nil =>
    cases g with
    | nil => simp [dominateLoop]
    | cons _ _ => simp at h
  | cons x f ih =>
    cases g with
    | nil => simp at h
    | cons y g =>
      simp only [List.length_cons, Nat.add_right_cancel_iff] at h
      have hasym : y < x → ¬ x < y := by
        cases x <;> cases y <;> intro h1 h2 <;> first | exact h1 | exact h2 | exact absurd h1 (lt_asymm h2)
      simp only [dominateLoop, List.zip_cons_cons, List.forall_mem_cons, List.exists_mem_cons_iff]
      by_cases h1 : y < x
      · rw [if_pos h1, ih _ _ h]
        simp [h1, hasym h1]
      · rw [if_neg h1]
        by_cases h2 : x < y
        · rw [if_pos h2]
          simp [h2]
        · rw [if_neg h2, ih _ _ h]
          simp [h1, h2]

theorem mem_zip_swap {A B : Type} {a : List A} {b : List B} {ab : A × B} (h : ab ∈ a.zip b) : (ab.2, ab.1) ∈ b.zip a := by
  obtain ⟨i, hi, rfl⟩ := List.getElem_of_mem h
  rw [List.length_zip] at hi
  rw [List.mem_iff_getElem]
  exact ⟨i, by rw [List.length_zip]; omega, by simp⟩

omit [AddCommGroup K] [LinearOrder K] [IsOrderedAddMonoid K] in
theorem SameMeasures.length {p q : Ptf K} (h : SameMeasures p q) : p.measures.length = q.measures.length := by
  have := congrArg List.length h
  simpa using this

omit [AddCommGroup K] [LinearOrder K] [IsOrderedAddMonoid K] in
theorem SameMeasures.zip {p q : Ptf K} (h : SameMeasures p q) {ab : (Bool × Fl K) × (Bool × Fl K)}
    (hab : ab ∈ p.measures.zip q.measures) : ab.1.1 = ab.2.1 := by
  obtain ⟨i, hi, rfl⟩ := List.getElem_of_mem hab
  rw [List.length_zip] at hi
  have h1 : (p.measures.map Prod.fst)[i]? = (q.measures.map Prod.fst)[i]? := by rw [h]
  rw [List.getElem?_map, List.getElem?_map, List.getElem?_eq_getElem (by omega), List.getElem?_eq_getElem (by omega)] at h1
  simpa using h1

omit [AddCommGroup K] [LinearOrder K] [IsOrderedAddMonoid K] in
/-- Two measures at the same place: their kind and their two values. -/
theorem zip_cases {p q : Ptf K} (h : SameMeasures p q) (hp : NoNan p) (hq : NoNan q)
    {ab : (Bool × Fl K) × (Bool × Fl K)} (hab : ab ∈ p.measures.zip q.measures) :
    ∃ r x y, ab = ((r, .num x), (r, .num y)) := by
  have h1 := hp _ (List.of_mem_zip hab).1
  have h2 := hq _ (List.of_mem_zip hab).2
  have h3 := h.zip hab
  obtain ⟨⟨r, a⟩, ⟨r', b⟩⟩ := ab
  simp only at h1 h2 h3
  subst h3
  cases a with
  | nan => exact absurd rfl h1
  | num x =>
    cases b with
    | nan => exact absurd rfl h2
    | num y => exact ⟨r, x, y, rfl⟩

/-- The contribution of a measure to the fitness. -/
def signed (r : Bool) (a : Fl K) : Fl K := if r then a.neg else a

omit [LinearOrder K] [IsOrderedAddMonoid K] in
theorem fitness_zip (p q : Ptf K) :
    p.fitness.zip q.fitness = (p.measures.zip q.measures).map fun ab => (signed ab.1.1 ab.1.2, signed ab.2.1 ab.2.2) := by
  unfold Ptf.fitness
  rw [List.zip_map]
  rfl

omit [AddCommGroup K] [IsOrderedAddMonoid K] in
theorem fl_lt {x y : K} : (Fl.num x : Fl K) < .num y ↔ x < y := Iff.rfl

theorem signed_lt (r : Bool) (x y : K) : signed r (.num x) < signed r (.num y) ↔ ¬ NotWorse r x y := by
  unfold signed NotWorse
  cases r
  · simp only [Bool.false_eq_true, if_false, fl_lt, not_le]
  · simp only [if_true, Fl.neg, fl_lt, neg_lt_neg_iff, not_le]

omit [LinearOrder K] [IsOrderedAddMonoid K] in
theorem fitness_length (p : Ptf K) : p.fitness.length = p.measures.length := by simp [Ptf.fitness]

open Classical in
/-- **C131.** `p == q` says that all measures have the same values. -/
theorem C131_eq (p q : Ptf K) (h : SameMeasures p q) (hp : NoNan p) (hq : NoNan q) : eq p q = decide (SameValues p q) := by
  rw [Bool.eq_iff_iff, decide_eq_true_eq]
  unfold eq arrayEqual SameValues
  rw [fitness_zip, fitness_length, fitness_length, decide_eq_true h.length, Bool.true_and, List.all_map, List.all_eq_true]
  constructor
  · intro hall ab hab x y hx hy
    obtain ⟨r, x', y', rfl⟩ := zip_cases h hp hq hab
    simp only [Fl.num.injEq] at hx hy
    subst hx hy
    have := hall _ hab
    cases r
    · simpa [signed, Fl.eq] using this
    · simpa [signed, Fl.eq, Fl.neg] using this
  · intro hall ab hab
    obtain ⟨r, x', y', rfl⟩ := zip_cases h hp hq hab
    have := hall _ hab x' y' rfl rfl
    cases r <;> simp [signed, Fl.eq, Fl.neg, this]

theorem gt_value (p q : Ptf K) (h : SameMeasures p q) : gt p q = .ok (decide ((∀ ab ∈ p.fitness.zip q.fitness, ¬ ab.1 < ab.2) ∧
    ∃ ab ∈ p.fitness.zip q.fitness, ab.2 < ab.1)) := by
  unfold gt dominate
  rw [dominateLoop_fl false _ _ (by rw [fitness_length, fitness_length, h.length])]
  simp

theorem not_worse_fitness (p q : Ptf K) (h : SameMeasures p q) (hp : NoNan p) (hq : NoNan q) :
    (∀ ab ∈ p.fitness.zip q.fitness, ¬ ab.1 < ab.2) ↔ AtLeastAsGood p q := by
  rw [fitness_zip]
  simp only [List.forall_mem_map]
  unfold AtLeastAsGood
  constructor
  · intro hall ab hab x y hx hy
    obtain ⟨r, x', y', rfl⟩ := zip_cases h hp hq hab
    simp only [Fl.num.injEq] at hx hy
    subst hx hy
    have := hall _ hab
    simp only [signed_lt, not_not] at this
    exact this
  · intro hall ab hab
    obtain ⟨r, x', y', rfl⟩ := zip_cases h hp hq hab
    simp only [signed_lt, not_not]
    exact hall _ hab x' y' rfl rfl

theorem better_fitness (p q : Ptf K) (h : SameMeasures p q) (hp : NoNan p) (hq : NoNan q) :
    (∃ ab ∈ p.fitness.zip q.fitness, ab.2 < ab.1) ↔ ¬ AtLeastAsGood q p := by
  rw [← not_worse_fitness q p h.symm hq hp]
  constructor
  · rintro ⟨ab, hab, hlt⟩ hall
    refine hall (ab.2, ab.1) ?_ hlt
    exact mem_zip_swap hab
  · intro hno
    by_contra hall
    push Not at hall
    apply hno
    intro ab hab
    refine hall (ab.2, ab.1) ?_
    exact mem_zip_swap hab

open Classical in
/-- **C131.** `p > q` says that `p` is not worse on any measure, and that this does not hold the other way round. -/
theorem C131_gt (p q : Ptf K) (h : SameMeasures p q) (hp : NoNan p) (hq : NoNan q) :
    gt p q = .ok (decide (AtLeastAsGood p q ∧ ¬ AtLeastAsGood q p)) := by
  rw [gt_value p q h]
  congr 1
  rw [decide_eq_decide, not_worse_fitness p q h hp hq, better_fitness p q h hp hq]

theorem same_values_iff (p q : Ptf K) (h : SameMeasures p q) (hp : NoNan p) (hq : NoNan q) :
    SameValues p q ↔ AtLeastAsGood p q ∧ AtLeastAsGood q p := by
  have hz : ∀ {a b : List (Bool × Fl K)} {ab}, ab ∈ a.zip b → (ab.2, ab.1) ∈ b.zip a := by
    intro a b ab hab
    exact mem_zip_swap hab
  constructor
  · intro hs
    constructor
    · intro ab hab x y hx hy
      have := hs ab hab x y hx hy
      subst this
      unfold NotWorse
      split <;> exact le_rfl
    · intro ab hab x y hx hy
      have := hs _ (hz hab) y x hy hx
      subst this
      unfold NotWorse
      split <;> exact le_rfl
  · rintro ⟨h1, h2⟩ ab hab x y hx hy
    have a1 := h1 ab hab x y hx hy
    have a2 := h2 _ (hz hab) y x hy hx
    have a3 := h.zip hab
    simp only [NotWorse] at a1 a2
    rw [← a3] at a2
    cases hr : ab.1.1 <;> rw [hr] at a1 a2 <;> simp at a1 a2
    · exact le_antisymm a2 a1
    · exact le_antisymm a1 a2

open Classical in
/-- **C131.** `p >= q` says that `p` is not worse than `q` on any measure. -/
theorem C131_ge (p q : Ptf K) (h : SameMeasures p q) (hp : NoNan p) (hq : NoNan q) :
    ge p q = .ok (decide (AtLeastAsGood p q)) := by
  unfold ge
  rw [C131_eq p q h hp hq, C131_gt p q h hp hq]
  have := same_values_iff p q h hp hq
  by_cases h1 : SameValues p q
  · rw [if_pos (by simpa using h1)]
    simp [(this.1 h1).1]
  · rw [if_neg (by simpa using h1)]
    congr 1
    rw [decide_eq_decide]
    tauto

/-- **C131.** On portfolios with the same fitness measures without NaN, `>=` is a preorder whose equivalence is `==`, and `>` its strict part. -/
theorem C131_preorder (p q r : Ptf K) (h1 : SameMeasures p q) (h2 : SameMeasures q r) (hp : NoNan p) (hq : NoNan q) (hr : NoNan r) :
    ge p p = .ok true ∧ (ge p q = .ok true → ge q r = .ok true → ge p r = .ok true) ∧
    ((ge p q = .ok true ∧ ge q p = .ok true) ↔ eq p q = true) ∧
    (gt p q = .ok true ↔ ge p q = .ok true ∧ ge q p = .ok false) := by
  classical
  have h3 : SameMeasures p r := h1.trans h2
  rw [C131_ge p p rfl hp hp, C131_ge p q h1 hp hq, C131_ge q r h2 hq hr, C131_ge p r h3 hp hr, C131_ge q p h1.symm hq hp, C131_gt p q h1 hp hq,
    C131_eq p q h1 hp hq]
  simp only [Except.ok.injEq, decide_eq_true_eq, decide_eq_false_iff_not]
  refine ⟨((same_values_iff p p rfl hp hp).1 ?_).1, ?_, (same_values_iff p q h1 hp hq).symm, trivial⟩
  · intro ab hab x y hx hy
    obtain ⟨i, hi, rfl⟩ := List.getElem_of_mem hab
    simp only [List.getElem_zip] at hx hy
    rw [hx] at hy
    injection hy
  · intro a b ab hab x z hx hz
    obtain ⟨i, hi, rfl⟩ := List.getElem_of_mem hab
    rw [List.length_zip] at hi
    have hq' : i < q.measures.length := by rw [← h1.length]; omega
    obtain ⟨k, x', y, e1⟩ := zip_cases h1 hp hq (List.getElem_mem (l := p.measures.zip q.measures) (n := i) (by rw [List.length_zip]; omega))
    obtain ⟨k', y', z', e2⟩ := zip_cases h2 hq hr (List.getElem_mem (l := q.measures.zip r.measures) (n := i) (by rw [List.length_zip]; omega))
    have c1 := a _ (List.getElem_mem (l := p.measures.zip q.measures) (n := i) (by rw [List.length_zip]; omega)) x' y (by rw [e1]) (by rw [e1])
    have c2 := b _ (List.getElem_mem (l := q.measures.zip r.measures) (n := i) (by rw [List.length_zip]; omega)) y' z' (by rw [e2]) (by rw [e2])
    rw [e1] at c1
    rw [e2] at c2
    simp only [List.getElem_zip, Prod.mk.injEq] at e1 e2 hx hz ⊢
    rw [e1.1] at hx ⊢
    rw [e2.2] at hz
    have e3 := e1.2.symm.trans e2.1
    simp only [Prod.mk.injEq, Fl.num.injEq] at e3 hx hz
    obtain ⟨rfl, rfl⟩ := e3
    subst hx hz
    simp only [NotWorse] at c1 c2 ⊢
    cases k
    · simp at c1 c2 ⊢; exact c2.trans c1
    · simp at c1 c2 ⊢; exact c1.trans c2

/-! ### NaN -/

/-- **C131 (finding).** A portfolio with a NaN fitness is not equal to itself, nor `>=` itself. -/
theorem C131_nan_not_equal (p : Ptf K) (h : ¬ NoNan p) : eq p p = false ∧ ge p p = .ok false := by
  have he : eq p p = false := by
    unfold NoNan at h
    push Not at h
    obtain ⟨m, hm, hn⟩ := h
    obtain ⟨i, hi, rfl⟩ := List.getElem_of_mem hm
    rw [Bool.eq_false_iff]
    intro hall
    unfold eq arrayEqual at hall
    rw [fitness_zip, Bool.and_eq_true, List.all_map, List.all_eq_true] at hall
    have := hall.2 (p.measures[i], p.measures[i]) (by
      rw [List.mem_iff_getElem]
      exact ⟨i, by rw [List.length_zip]; omega, by simp⟩)
    simp only [Function.comp, hn, signed, Fl.neg] at this
    revert this
    split <;> simp [Fl.eq]
  refine ⟨he, ?_⟩
  unfold ge
  rw [he, gt_value p p rfl]
  simp only [Bool.false_eq_true, if_false, Except.ok.injEq, decide_eq_false_iff_not, not_and]
  rintro _ ⟨ab, hab, hlt⟩
  obtain ⟨i, hi, rfl⟩ := List.getElem_of_mem hab
  have hi' : i < p.fitness.length := by simpa using hi
  simp only [List.getElem_zip] at hlt
  revert hlt
  generalize p.fitness[i] = a
  cases a with
  | nan => exact fun h => h
  | num x => exact fun h => absurd h (lt_irrefl x)

/-- **C131.** Even with NaN, `>` is irreflexive and asymmetric. -/
theorem C131_asymm (p q : Ptf K) (h : SameMeasures p q) : gt p q = .ok true → gt q p = .ok false := by
  rw [gt_value p q h, gt_value q p h.symm]
  simp only [Except.ok.injEq, decide_eq_true_eq, decide_eq_false_iff_not, not_and]
  rintro ⟨h1, _⟩ _ ⟨ab, hab, hlt⟩
  exact h1 _ (mem_zip_swap hab) hlt

/-- Three portfolios with three ratios, one of which is NaN for each. -/
def cycle : List (Ptf ℚ) :=
  [⟨0, [(false, .num 1), (false, .nan), (false, .num 0)]⟩, ⟨1, [(false, .num 0), (false, .num 1), (false, .nan)]⟩,
    ⟨2, [(false, .nan), (false, .num 0), (false, .num 1)]⟩]

/-- **C131 (finding).** With NaN, `>` is not transitive: three portfolios can each be better than the next in a circle. -/
theorem C131_cycle :
    gt (cycle.getD 0 ⟨0, []⟩) (cycle.getD 1 ⟨0, []⟩) = .ok true ∧ gt (cycle.getD 1 ⟨0, []⟩) (cycle.getD 2 ⟨0, []⟩) = .ok true ∧
      gt (cycle.getD 2 ⟨0, []⟩) (cycle.getD 0 ⟨0, []⟩) = .ok true := by
  decide +kernel

theorem peelLoop_stuck (isDominating : ℕ → List ℕ) (n : ℕ) (fuel : ℕ) (nd : ℕ → ℤ) (fronts : List (List ℕ)) (k : ℕ) (hk : k < n) :
    peelLoop isDominating n fuel nd [] fronts k = none := by
  induction fuel generalizing fronts with
  | zero =>
    unfold peelLoop
    rw [if_pos hk]
  | succ fuel ih =>
    unfold peelLoop
    rw [if_pos hk]
    exact ih _

/-- **C131 (finding).** Non-dominated sorting of such portfolios never ends: however many times the loop is run, it is not finished. -/
theorem C131_sort_never_ends (fuel : ℕ) : nonDominatedSort (cycle.map Ptf.fitness) false fuel = none := by
  have h1 : (firstPhase (domAt (cycle.map Ptf.fitness)) 3).2 = [] := by decide +kernel
  unfold nonDominatedSort sortDom
  change (if (3 : ℕ) = 0 then some [] else _) = none
  rw [if_neg (by omega)]
  change peelLoop _ 3 fuel _ (firstPhase (domAt (cycle.map Ptf.fitness)) 3).2 _ (firstPhase (domAt (cycle.map Ptf.fitness)) 3).2.length = none
  rw [h1]
  exact peelLoop_stuck _ _ _ _ _ _ (by simp)

/-! ### Containers -/

/-- **C131.** `p in portfolios` says that `p` itself or a portfolio with the same values of the measures is among them. -/
theorem C131_contains (l : List (Ptf K)) (p : Ptf K) (hp : NoNan p) (hl : ∀ q ∈ l, SameMeasures q p ∧ NoNan q) :
    contains l p = true ↔ ∃ q ∈ l, q.id = p.id ∨ SameValues q p := by
  classical
  unfold contains
  simp only [List.any_eq_true, Bool.or_eq_true, decide_eq_true_eq]
  constructor
  · rintro ⟨q, hq, h⟩
    refine ⟨q, hq, h.imp_right fun h => ?_⟩
    rw [C131_eq q p (hl q hq).1 (hl q hq).2 hp, decide_eq_true_eq] at h
    exact h
  · rintro ⟨q, hq, h⟩
    refine ⟨q, hq, h.imp_right fun h => ?_⟩
    rw [C131_eq q p (hl q hq).1 (hl q hq).2 hp, decide_eq_true_eq]
    exact h

/-- **C131.** If no other portfolio has the same values, `remove` removes `p` and nothing else. -/
theorem C131_remove_partial (l : List (Ptf K)) (p : Ptf K) (hp : NoNan p) (hl : ∀ q ∈ l, SameMeasures q p ∧ NoNan q)
    (hd : ∀ q ∈ l, q.id ≠ p.id → ¬ SameValues q p) (a b : List (Ptf K)) (q : Ptf K) (hq : q.id = p.id) (ha : ∀ q ∈ a, q.id ≠ p.id) (e : l = a ++ q :: b) :
    remove p l = some (a ++ b) := by
  classical
  subst e
  induction a with
  | nil => simp [remove, hq]
  | cons c a ih =>
    have hc : c.id ≠ p.id := ha c List.mem_cons_self
    have h1 := hl c (by simp)
    have h2 : eq c p = false := by
      rw [C131_eq c p h1.1 h1.2 hp, decide_eq_false_iff_not]
      exact hd c (by simp) hc
    rw [List.cons_append, remove, h2]
    simp only [hc, decide_false, Bool.or_false, Bool.false_eq_true, if_false]
    rw [ih (fun q hq => ha q (List.mem_cons_of_mem _ hq)) (fun q hq => hl q (by simp only [List.cons_append, List.mem_cons]; exact .inr hq))
      (fun q hq => hd q (by simp only [List.cons_append, List.mem_cons]; exact .inr hq))]
    rfl

/-- Two portfolios with the same mean and variance. -/
def twins : List (Ptf ℚ) := [⟨0, [(false, .num 1), (true, .num 4)]⟩, ⟨1, [(false, .num 1), (true, .num 4)]⟩]

/-- **C131 (finding).** Different portfolios with the same fitness are taken for one another: the second is said to be in a list of the first only, and removing
it from a population removes the first. -/
theorem C131_twins :
    contains (twins.take 1) (twins.getD 1 ⟨0, []⟩) = true ∧ (remove (twins.getD 1 ⟨0, []⟩) twins).map (·.map Ptf.id) = some [1] := by
  decide +kernel

/-- **C131 (finding).** Portfolios with different fitness measures are compared without a word, by the numbers: a portfolio whose measure is its mean with one
whose measure is its variance. -/
theorem C131_mixed_measures (x y : K) :
    gt ⟨0, [(false, .num x)]⟩ ⟨1, [(true, .num y)]⟩ = .ok (decide (-y < x)) ∧ eq ⟨0, [(false, .num x)]⟩ ⟨1, [(true, .num y)]⟩ = decide (x = -y) := by
  refine ⟨?_, by simp [eq, arrayEqual, Ptf.fitness, Fl.neg, Fl.eq]⟩
  simp only [gt, dominate, Ptf.fitness, List.map_cons, List.map_nil, Fl.neg, dominateLoop, fl_lt, if_true, Bool.false_eq_true, if_false]
  by_cases h : -y < x
  · simp [h]
  · rw [if_neg h]
    split <;> simp [h]

/-! ### Examples -/

example : NoNan (twins.getD 0 ⟨0, []⟩) ∧ SameMeasures (twins.getD 0 ⟨0, []⟩) (twins.getD 1 ⟨0, []⟩) := by
  constructor
  · intro m hm
    simp [twins] at hm
    rcases hm with rfl | rfl <;> simp
  · rfl

example : ge (⟨0, [(false, .num 2), (true, .num 4)]⟩ : Ptf ℚ) ⟨1, [(false, .num 1), (true, .num 4)]⟩ = .ok true := by decide +kernel

example : ge (⟨0, [(false, .num 2), (true, .num 5)]⟩ : Ptf ℚ) ⟨1, [(false, .num 1), (true, .num 4)]⟩ = .ok false := by decide +kernel

end Skfolio.Portfolio.Compare
