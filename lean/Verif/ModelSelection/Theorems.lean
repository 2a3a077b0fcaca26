import Verif.ModelSelection.Model
import Mathlib.Data.Rat.Floor
import Mathlib.Tactic.Linarith
import Mathlib.Tactic.Ring
import Mathlib.Tactic.NormNum
import Mathlib.Tactic.FinCases
import Mathlib.Data.Prod.Lex
import Mathlib.Data.List.Induction

/-!
Claim C81: which distribution, copula and rotation are selected.
-/
set_option autoImplicit false

namespace Skfolio.ModelSelection

open Skfolio.Copula (Rotation applyRotation)

variable {K : Type} [Field K] [LinearOrder K]

/-! ### specification -/

/-- The penalty of a model with `k` parameters fitted to `n` observations: `2 k` or `k ln n`. -/
def penalty (c : Criterion) (ln : Nat → K) (n k : Nat) : K :=
  match c with
  | .aic => 2 * k
  | .bic => k * ln n

/-- A model with log-likelihood `a` and penalty `p` is at least as good as one with `b` and `q`: `-2 a + p ≤ -2 b + q`, where a
log-likelihood of minus infinity is the worst and one of plus infinity the best; nothing is worse than NaN. -/
def NoWorse (p q : K) : Flt K → Flt K → Prop
  | _, .nan => True
  | .nan, _ => False
  | .pinf, _ => True
  | _, .ninf => True
  | .fin a, .fin b => -2 * a + p ≤ -2 * b + q
  | _, _ => False

/-- Strictly better. -/
def Better (p q : K) : Flt K → Flt K → Prop
  | .nan, _ => False
  | _, .nan => True
  | .pinf, .pinf => False
  | .pinf, _ => True
  | .ninf, _ => False
  | .fin _, .ninf => True
  | .fin a, .fin b => -2 * a + p < -2 * b + q
  | .fin _, .pinf => False

/-! ### `min` -/

/-- A number or an infinity, not NaN, in their order. -/
def ext : Flt K → Option (ℤ ×ₗ K)
  | .nan => none
  | .ninf => some (toLex (-1, 0))
  | .pinf => some (toLex (1, 0))
  | .fin x => some (toLex (0, x))

theorem lt_iff (a b : Flt K) : a.lt b = true ↔ ∃ x y, ext a = some x ∧ ext b = some y ∧ x < y := by
  cases a <;> cases b <;> simp [Flt.lt, ext, Prod.Lex.toLex_lt_toLex]

/-- `p`, at position `i`, is the first of the smallest numbers. -/
def FirstMin {A : Type} (l : List (A × Flt K)) (i : Nat) (p : A × Flt K) : Prop :=
  l[i]? = some p ∧ ∃ v, ext p.2 = some v ∧ ∀ (j : Nat) q u, l[j]? = some q → ext q.2 = some u → v ≤ u ∧ (j < i → v < u)

theorem ext_some {a : Flt K} (h : a ≠ .nan) : ∃ v, ext a = some v := by
  cases a with
  | nan => exact absurd rfl h
  | ninf => exact ⟨_, rfl⟩
  | pinf => exact ⟨_, rfl⟩
  | fin y => exact ⟨_, rfl⟩

theorem fold_firstMin {A : Type} (x : A × Flt K) (hx : x.2 ≠ .nan) (xs : List (A × Flt K)) :
    ∃ i, FirstMin (x :: xs) i (xs.foldl (fun best y => if y.2.lt best.2 then y else best) x) := by
  induction xs using List.reverseRecOn with
  | nil =>
    obtain ⟨v, hv⟩ := ext_some hx
    refine ⟨0, rfl, v, hv, fun j q u hj hu => ?_⟩
    cases j with
    | zero =>
      cases hj
      rw [hv] at hu
      cases hu
      exact ⟨le_refl _, fun h => absurd h (lt_irrefl _)⟩
    | succ j => simp at hj
  | append_singleton xs y ih =>
    obtain ⟨i, hi, v, hv, hmin⟩ := ih
    rw [List.foldl_concat]
    generalize xs.foldl (fun best y => if y.2.lt best.2 then y else best) x = best at hi hv ⊢
    have hil : i < (x :: xs).length := (List.getElem?_eq_some_iff.1 hi).1
    have hget : ∀ (j : Nat) q, (x :: (xs ++ [y]))[j]? = some q → (x :: xs)[j]? = some q ∨ (j = (x :: xs).length ∧ q = y) := by
      intro j q hj
      rw [← List.cons_append] at hj
      rcases lt_or_ge j (x :: xs).length with h | h
      · left; rwa [List.getElem?_append_left h] at hj
      · right
        rw [List.getElem?_append_right h] at hj
        obtain ⟨h1, h2⟩ := List.getElem?_eq_some_iff.1 hj
        simp only [List.length_cons, List.length_nil, List.length_singleton] at h1 h
        refine ⟨by simp only [List.length_cons]; omega, ?_⟩
        simpa using h2.symm
    have hold : ∀ (j : Nat) q, (x :: xs)[j]? = some q → (x :: (xs ++ [y]))[j]? = some q := by
      intro j q hj
      rw [← List.cons_append, List.getElem?_append_left (List.getElem?_eq_some_iff.1 hj).1, hj]
    by_cases hlt : y.2.lt best.2 = true
    · rw [if_pos hlt]
      obtain ⟨u, v', hu, hv', huv⟩ := (lt_iff _ _).1 hlt
      rw [hv] at hv'
      cases hv'
      refine ⟨(x :: xs).length, ?_, u, hu, fun j q w hj hw => ?_⟩
      · rw [← List.cons_append, List.getElem?_append_right (le_refl _)]
        simp
      · rcases hget j q hj with h | ⟨h1, h2⟩
        · have := (hmin j q w h hw).1
          exact ⟨le_of_lt (lt_of_lt_of_le huv this), fun _ => lt_of_lt_of_le huv this⟩
        · subst h2
          rw [hu] at hw
          cases hw
          exact ⟨le_refl _, fun h => absurd h1 (ne_of_lt h)⟩
    · rw [if_neg hlt]
      refine ⟨i, hold i best hi, v, hv, fun j q w hj hw => ?_⟩
      rcases hget j q hj with h | ⟨h1, h2⟩
      · exact hmin j q w h hw
      · subst h2
        have : v ≤ w := by
          by_contra hc
          exact hlt ((lt_iff _ _).2 ⟨w, v, hw, hv, not_le.1 hc⟩)
        exact ⟨this, fun h => by omega⟩

theorem fold_nan {A : Type} (x : A × Flt K) (hx : x.2 = .nan) (xs : List (A × Flt K)) :
    xs.foldl (fun best y => if y.2.lt best.2 then y else best) x = x := by
  induction xs with
  | nil => rfl
  | cons y xs ih =>
    have : y.2.lt x.2 = false := by
      rw [hx]; cases y.2 <;> rfl
    rw [List.foldl_cons, this]
    exact ih

theorem mapM_ok {A B E : Type} (f : A → Except E B) : ∀ (l : List A) (r : List B),
    l.mapM f = .ok r ↔ r.length = l.length ∧ ∀ (i : Nat) a b, l[i]? = some a → r[i]? = some b → f a = .ok b
  | [], r => by
    constructor
    · intro h; cases h; simp
    · rintro ⟨h, -⟩; rw [List.length_nil, List.length_eq_zero_iff] at h; rw [h]; rfl
  | a :: l, r => by
    rw [List.mapM_cons]
    cases ha : f a with
    | error e =>
      constructor
      · intro h; cases h
      · rintro ⟨h1, h2⟩
        cases r with
        | nil => simp at h1
        | cons b r =>
          have := h2 0 a b rfl rfl
          rw [ha] at this
          cases this
    | ok b =>
      cases hl : l.mapM f with
      | error e =>
        constructor
        · intro h; cases h
        · rintro ⟨h1, h2⟩
          cases r with
          | nil => simp at h1
          | cons b' r' =>
            have := (mapM_ok f l r').2 ⟨by simpa using h1, fun i a b ha hb => h2 (i + 1) a b ha hb⟩
            rw [this] at hl
            cases hl
      | ok r' =>
        have ih := (mapM_ok f l r').1 hl
        constructor
        · intro h
          cases h
          refine ⟨by simp [ih.1], fun i a' b' ha' hb' => ?_⟩
          cases i with
          | zero => cases ha'; cases hb'; exact ha
          | succ i => exact ih.2 i a' b' ha' hb'
        · rintro ⟨h1, h2⟩
          cases r with
          | nil => simp at h1
          | cons b' r'' =>
            have e1 := h2 0 a b' rfl rfl
            rw [ha] at e1
            cases e1
            have e2 := (mapM_ok f l r'').2 ⟨by simpa using h1, fun i a b ha hb => h2 (i + 1) a b ha hb⟩
            rw [hl] at e2
            cases e2
            rfl

theorem select_iff {C A : Type} (evaluate : C → Except Err (A × Flt K)) (cs : List C) (a : A) :
    select evaluate cs = .ok a ↔ ∃ results, results.length = cs.length ∧ (∀ (i : Nat) c p, cs[i]? = some c → results[i]? = some p → evaluate c = .ok p) ∧
      pyMin results = some a := by
  unfold select
  cases h : cs.mapM evaluate with
  | error e =>
    simp only [reduceCtorEq, false_iff]
    rintro ⟨r, h1, h2, -⟩
    rw [(mapM_ok _ _ _).2 ⟨h1, h2⟩] at h
    cases h
  | ok r =>
    have := (mapM_ok _ _ _).1 h
    constructor
    · intro hp
      refine ⟨r, this.1, this.2, ?_⟩
      simp only at hp
      cases hm : pyMin r with
      | none => rw [hm] at hp; cases hp
      | some b => rw [hm] at hp; cases hp; rfl
    · rintro ⟨r', h1, h2, h3⟩
      have := (mapM_ok _ _ _).2 ⟨h1, h2⟩
      rw [h] at this
      cases this
      simp only [h3]

theorem select_success {C A : Type} (evaluate : C → Except Err (A × Flt K)) (cs : List C) :
    (∃ a, select evaluate cs = .ok a) ↔ cs ≠ [] ∧ ∀ c ∈ cs, ∃ p, evaluate c = .ok p := by
  constructor
  · rintro ⟨a, h⟩
    obtain ⟨r, h1, h2, h3⟩ := (select_iff _ _ _).1 h
    refine ⟨?_, fun c hc => ?_⟩
    · rintro rfl
      rw [List.length_nil, List.length_eq_zero_iff] at h1
      subst h1
      cases h3
    · obtain ⟨i, hi⟩ := List.mem_iff_getElem?.1 hc
      have hlt : i < r.length := by rw [h1]; exact (List.getElem?_eq_some_iff.1 hi).1
      exact ⟨r[i], h2 i c r[i] hi (List.getElem?_eq_getElem hlt)⟩
  · rintro ⟨hne, h⟩
    have : ∃ r, cs.mapM evaluate = .ok r := by
      clear hne
      induction cs with
      | nil => exact ⟨[], rfl⟩
      | cons c cs ih =>
        obtain ⟨p, hp⟩ := h c List.mem_cons_self
        obtain ⟨r, hr⟩ := ih fun c hc => h c (List.mem_cons_of_mem _ hc)
        exact ⟨p :: r, by rw [List.mapM_cons, hp, hr]; rfl⟩
    obtain ⟨r, hr⟩ := this
    have hl := ((mapM_ok _ _ _).1 hr).1
    cases r with
    | nil => exact absurd (List.length_eq_zero_iff.1 hl.symm) hne
    | cons p r => exact ⟨_, by unfold select; rw [hr]; rfl⟩

/-- The winner of a selection. -/
theorem select_min {C A : Type} (evaluate : C → Except Err (A × Flt K)) (cs : List C) (a : A) (h : select evaluate cs = .ok a) :
    ∃ results, results.length = cs.length ∧ (∀ (i : Nat) c p, cs[i]? = some c → results[i]? = some p → evaluate c = .ok p) ∧
      (∀ p, results[0]? = some p → p.2 = .nan → a = p.1) ∧
      ((∀ p, results[0]? = some p → p.2 ≠ .nan) → ∃ i v, FirstMin results i (a, v)) := by
  obtain ⟨r, h1, h2, h3⟩ := (select_iff _ _ _).1 h
  refine ⟨r, h1, h2, ?_⟩
  cases r with
  | nil => cases h3
  | cons x xs =>
    simp only [pyMin, Option.some.injEq] at h3
    constructor
    · intro p hp hn
      cases hp
      rw [fold_nan x hn xs] at h3
      exact h3.symm
    · intro hn
      obtain ⟨i, hi⟩ := fold_firstMin x (hn x rfl) xs
      refine ⟨i, (xs.foldl (fun best y => if y.2.lt best.2 then y else best) x).2, ?_⟩
      rw [← h3]
      exact hi

theorem ext_value (c : Criterion) (ln : Nat → K) (n k k' : Nat) (a b : Flt K) [IsStrictOrderedRing K] {v u : ℤ ×ₗ K}
    (hv : ext (c.value ln n k a) = some v) (hu : ext (c.value ln n k' b) = some u) :
    (v ≤ u → NoWorse (penalty c ln n k) (penalty c ln n k') a b) ∧ (v < u → Better (penalty c ln n k) (penalty c ln n k') a b) := by
  cases c <;> cases a <;> cases b <;>
    simp only [Criterion.value, aic, bic, ext, Option.some.injEq, reduceCtorEq] at hv hu <;> subst hv <;> subst hu <;>
    simp only [NoWorse, Better, penalty, Prod.Lex.toLex_lt_toLex, Prod.Lex.toLex_le_toLex] <;> constructor <;> intro h <;>
    first | trivial | (simp at h; done) | (simp only [lt_irrefl, false_or, true_and] at h; linarith)

theorem ext_value_none (c : Criterion) (ln : Nat → K) (n k : Nat) (a : Flt K) : c.value ln n k a = .nan ↔ a = .nan := by
  cases c <;> cases a <;> simp [Criterion.value, aic, bic]

/-! ### univariate distributions -/

section univariate

variable {X : Type} (scipyFit : Family → Option K → Option K → Data X → Option (List K)) (score : FittedDist K → Data X → Flt K) (ln : Nat → K)

theorem evaluateDist_ok (x : Data X) (c : Criterion) (cand : Candidate (Dist K)) (p : FittedDist K × Flt K) :
    evaluateDist scipyFit score ln x c cand = .ok p ↔
      ∃ d, cand = .good d ∧ d.fit scipyFit x = .ok p.1 ∧ p.2 = c.value ln x.rows p.1.nParams (score p.1 x) := by
  cases cand with
  | foreign => simp [evaluateDist]
  | good d =>
    simp only [evaluateDist, Candidate.good.injEq, exists_eq_left']
    cases d.fit scipyFit x with
    | error e => simp
    | ok f =>
      simp only [Except.ok.injEq]
      constructor
      · rintro rfl; exact ⟨rfl, rfl⟩
      · rintro ⟨rfl, h⟩; rw [← h]

/-- **C81.** `select_univariate_dist` succeeds exactly for one column and a list of candidates that is not empty and that can all be fitted. -/
theorem C81_univariate_succeeds (x : Data X) (cs : List (Candidate (Dist K))) (c : Criterion) :
    (∃ f, selectUnivariate scipyFit score ln x cs c = .ok f) ↔
      x.columns = 1 ∧ cs ≠ [] ∧ ∀ cand ∈ cs, ∃ d f, cand = .good d ∧ d.fit scipyFit x = .ok f := by
  unfold selectUnivariate
  by_cases h : x.columns = 1
  · rw [if_neg (not_not.2 h), select_success]
    simp only [h, true_and]
    refine and_congr_right fun _ => forall_congr' fun cand => imp_congr_right fun _ => ?_
    constructor
    · rintro ⟨p, hp⟩
      obtain ⟨d, h1, h2, -⟩ := (evaluateDist_ok scipyFit score ln x c cand p).1 hp
      exact ⟨d, p.1, h1, h2⟩
    · rintro ⟨d, f, h1, h2⟩
      exact ⟨(f, c.value ln x.rows f.nParams (score f x)), (evaluateDist_ok scipyFit score ln x c cand _).2 ⟨d, h1, h2, rfl⟩⟩
  · rw [if_pos h]
    simp [h]

/-- **C81.** The distribution selected is one of the candidates, fitted to the data, and no candidate has a smaller criterion,
`-2 log L + 2 k` or `-2 log L + k ln n`; among equals it is the first. This holds if the log-likelihood of the first candidate is not NaN;
candidates whose log-likelihood is NaN are then ignored. -/
theorem C81_univariate [IsStrictOrderedRing K] (x : Data X) (cs : List (Candidate (Dist K))) (c : Criterion) (f : FittedDist K)
    (h : selectUnivariate scipyFit score ln x cs c = .ok f)
    (hn : ∀ d g, cs[0]? = some (.good d) → d.fit scipyFit x = .ok g → score g x ≠ .nan) :
    ∃ i, ∃ d, cs[i]? = some (.good d) ∧ d.fit scipyFit x = .ok f ∧
      ∀ (j : Nat) d' g, cs[j]? = some (.good d') → d'.fit scipyFit x = .ok g →
        NoWorse (penalty c ln x.rows f.nParams) (penalty c ln x.rows g.nParams) (score f x) (score g x) ∧
        (j < i → Better (penalty c ln x.rows f.nParams) (penalty c ln x.rows g.nParams) (score f x) (score g x)) := by
  unfold selectUnivariate at h
  by_cases hc : x.columns = 1
  · rw [if_neg (not_not.2 hc)] at h
    obtain ⟨r, h1, h2, -, h4⟩ := select_min _ _ _ h
    have hcs : ∀ (i : Nat) p, r[i]? = some p → ∃ cand, cs[i]? = some cand := fun i p hp =>
      ⟨cs[i]'(by rw [← h1]; exact (List.getElem?_eq_some_iff.1 hp).1), List.getElem?_eq_getElem _⟩
    obtain ⟨i, v, hi, w, hw, hmin⟩ := h4 fun p hp => by
      obtain ⟨cand, hcand⟩ := hcs 0 p hp
      obtain ⟨d, hd, hf, hv⟩ := (evaluateDist_ok scipyFit score ln x c cand p).1 (h2 0 cand p hcand hp)
      rw [hv]
      intro he
      rw [ext_value_none] at he
      exact hn d p.1 (by rw [hcand, hd]) hf he
    obtain ⟨cand, hcand⟩ := hcs i _ hi
    obtain ⟨d, hd, hf, hv⟩ := (evaluateDist_ok scipyFit score ln x c cand _).1 (h2 i cand _ hcand hi)
    simp only at hf hv hw
    refine ⟨i, d, by rw [hcand, hd], hf, fun j d' g hj hg => ?_⟩
    have hjl : j < r.length := by rw [h1]; exact (List.getElem?_eq_some_iff.1 hj).1
    have hjr := List.getElem?_eq_getElem hjl
    obtain ⟨d'', hd'', hf'', hv''⟩ := (evaluateDist_ok scipyFit score ln x c _ _).1 (h2 j _ _ hj hjr)
    cases hd''
    rw [hg] at hf''
    cases hf''
    by_cases hnan : score r[j].1 x = .nan
    · rw [hnan]
      have hfn : score f x ≠ .nan := by
        intro he
        rw [hv, he] at hw
        rw [(ext_value_none c ln x.rows f.nParams .nan).2 rfl] at hw
        cases hw
      constructor
      · cases score f x <;> trivial
      · intro _
        cases hs : score f x with
        | nan => exact absurd hs hfn
        | ninf => trivial
        | pinf => trivial
        | fin y => trivial
    · obtain ⟨u, hu⟩ := ext_some (a := r[j].2) (by rw [hv'']; intro he; exact hnan ((ext_value_none _ _ _ _ _).1 he))
      obtain ⟨m1, m2⟩ := hmin j _ u hjr hu
      rw [hv] at hw
      rw [hv''] at hu
      obtain ⟨e1, e2⟩ := ext_value c ln x.rows f.nParams r[j].1.nParams (score f x) (score r[j].1 x) hw hu
      exact ⟨e1 m1, fun hji => e2 (m2 hji)⟩
  · rw [if_pos hc] at h
    cases h

/-- **C81, negated.** A first candidate whose log-likelihood is NaN is selected, however good the others are. -/
theorem C81_nan_first (x : Data X) (cs : List (Candidate (Dist K))) (c : Criterion) (f : FittedDist K)
    (h : selectUnivariate scipyFit score ln x cs c = .ok f) (d : Dist K) (g : FittedDist K) (h0 : cs[0]? = some (.good d))
    (hg : d.fit scipyFit x = .ok g) (hn : score g x = .nan) : f = g := by
  unfold selectUnivariate at h
  by_cases hc : x.columns = 1
  · rw [if_neg (not_not.2 hc)] at h
    obtain ⟨r, h1, h2, h3, -⟩ := select_min _ _ _ h
    have hl : 0 < r.length := by rw [h1]; exact (List.getElem?_eq_some_iff.1 h0).1
    have hr := List.getElem?_eq_getElem hl
    obtain ⟨d', hd', hf', hv'⟩ := (evaluateDist_ok scipyFit score ln x c _ _).1 (h2 0 _ _ h0 hr)
    cases hd'
    rw [hg] at hf'
    cases hf'
    exact h3 _ hr (by rw [hv', hn, ext_value_none])
  · rw [if_pos hc] at h
    cases h

theorem fit_dist (d : Dist K) (x : Data X) (f : FittedDist K) (h : d.fit scipyFit x = .ok f) : f.dist = d := by
  unfold Dist.fit at h
  split at h
  · cases h
  · cases h
  · cases h
  · split at h
    · cases h
    · cases h; rfl

/-- **C81.** The BIC never selects a distribution with more parameters than the AIC if `ln n > 2` (`n ≥ 8`), for finite
log-likelihoods. -/
theorem C81_bic_parsimony [IsStrictOrderedRing K] (x : Data X) (cs : List (Candidate (Dist K))) (f g : FittedDist K)
    (hf : selectUnivariate scipyFit score ln x cs .aic = .ok f) (hg : selectUnivariate scipyFit score ln x cs .bic = .ok g)
    (hfin : ∀ d f, (.good d) ∈ cs → d.fit scipyFit x = .ok f → ∃ l, score f x = .fin l) (hln : 2 < ln x.rows) : g.nParams ≤ f.nParams := by
  have hn : ∀ d g, cs[0]? = some (.good d) → d.fit scipyFit x = .ok g → score g x ≠ .nan := by
    intro d g hd hg' he
    obtain ⟨l, hl⟩ := hfin d g (List.mem_iff_getElem?.2 ⟨0, hd⟩) hg'
    rw [hl] at he
    cases he
  obtain ⟨i, d, hi, hfi, h1⟩ := C81_univariate scipyFit score ln x cs .aic f hf hn
  obtain ⟨j, d', hj, hgj, h2⟩ := C81_univariate scipyFit score ln x cs .bic g hg hn
  obtain ⟨lf, hlf⟩ := hfin d f (List.mem_iff_getElem?.2 ⟨i, hi⟩) hfi
  obtain ⟨lg, hlg⟩ := hfin d' g (List.mem_iff_getElem?.2 ⟨j, hj⟩) hgj
  have e1 := (h1 j d' g hj hgj).1
  have e2 := (h2 i d f hi hfi).1
  rw [hlf, hlg] at e1 e2
  simp only [NoWorse, penalty] at e1 e2
  by_contra hc
  have hc' : ((f.nParams : K)) < g.nParams := by exact_mod_cast not_le.1 hc
  nlinarith

/-- The number of parameters that the fit of an estimator chooses. -/
def Dist.nFree (d : Dist K) : Nat := d.family.size - (if d.loc.isSome then 1 else 0) - (if d.scale.isSome then 1 else 0)

/-- **C81, negated.** `n_params` counts the parameters that the caller fixed: it is the same as if they were fitted, although fewer are. -/
theorem C81_fixed_counted (d : Dist K) (x : Data X) (f : FittedDist K) (h : d.fit scipyFit x = .ok f) :
    f.nParams = ({ d with loc := none, scale := none } : Dist K).nFree ∧ (d.loc.isSome ∨ d.scale.isSome → d.nFree < f.nParams) := by
  have e := fit_dist scipyFit d x f h
  unfold FittedDist.nParams Dist.nFree
  rw [e]
  constructor
  · simp
  · intro hs
    have : 2 ≤ d.family.size := by cases d.family <;> decide
    by_cases h1 : d.loc.isSome = true <;> by_cases h2 : d.scale.isSome = true <;> simp [h1, h2] at hs ⊢ <;> omega

end univariate

/-! ### copulas -/

section copulas

variable {X P : Type} (F : Fits K (Data X) P) (score : CopulaFamily → P → Data X → Flt K) (ln : Nat → K)

/-- The estimator that is fitted for the candidate `d`. -/
def withTau (tau : Flt K) (d : Cop K) : Cop K := if d.itau && d.tau.isNone then { d with tau := some tau } else d

theorem withTau_family (tau : Flt K) (d : Cop K) : (withTau tau d).family = d.family := by
  unfold withTau; split <;> rfl

theorem cop_fit (d : Cop K) (x : Data X) (f : FittedCop K P) (h : d.fit F x = .ok f) : f.cop = d := by
  obtain ⟨fam, it, t⟩ := d
  cases fam <;> simp only [Cop.fit] at h
  · cases h; rfl
  all_goals
    first
    | (split at h
       · cases h; rfl
       · split at h
         · cases h
         · cases h; rfl)

theorem withTau_fit (d : Cop K) (x : Data X) (p : P) :
    (∃ f, (withTau (F.kendall x).1 d).fit F x = .ok f ∧ f.params = p) ↔ ∃ f, d.fit F x = .ok f ∧ f.params = p := by
  by_cases h : (d.itau && d.tau.isNone) = true
  · unfold withTau
    rw [if_pos h]
    simp only [Bool.and_eq_true, Option.isNone_iff_eq_none] at h
    obtain ⟨fam, it, t⟩ := d
    obtain ⟨rfl, rfl⟩ := h
    cases fam <;> simp only [Cop.fit]
    · simp
    all_goals
      split
      · simp
      · split <;> simp
  · unfold withTau
    rw [if_neg h]

theorem evaluateCop_ok (x : Data X) (c : Criterion) (cand : Candidate (Cop K)) (p : FittedCop K P × Flt K) :
    evaluateCop F score ln x c (F.kendall x).1 cand = .ok p ↔
      ∃ d, cand = .good d ∧ d.family ≠ .independent ∧ (withTau (F.kendall x).1 d).fit F x = .ok p.1 ∧
        p.2 = c.value ln x.rows d.family.nParams (score d.family p.1.params x) := by
  cases cand with
  | foreign => simp [evaluateCop]
  | good d =>
    simp only [evaluateCop, Candidate.good.injEq, exists_eq_left']
    by_cases hi : d.family = .independent
    · rw [if_pos hi]; simp [hi]
    · rw [if_neg hi]
      change (match (withTau (F.kendall x).1 d).fit F x with
        | .error e => Except.error e
        | .ok f => Except.ok (f, c.value ln x.rows f.cop.family.nParams (score f.cop.family f.params x))) = Except.ok p ↔ _
      cases hf : (withTau (F.kendall x).1 d).fit F x with
      | error e => simp
      | ok f =>
        have := cop_fit F _ _ _ hf
        simp only [Except.ok.injEq, this, withTau_family]
        constructor
        · rintro rfl; exact ⟨hi, rfl, rfl⟩
        · rintro ⟨-, rfl, h⟩; rw [← h]

/-- **C81.** `select_bivariate_copula` returns the independent copula if the p-value of Kendall's test reaches the level. -/
theorem C81_independent (x : Data X) (cs : List (Candidate (Cop K))) (c : Criterion) (level p : K) (hx : x.columns = 2)
    (hp : (F.kendall x).2 = .fin p) (hl : level ≤ p) :
    ∃ f, selectCopula F score ln x cs c (.fin level) = .ok f ∧ f.cop.family = .independent ∧ f.params = F.indep := by
  unfold selectCopula
  rw [if_neg (not_not.2 hx), if_pos (by rw [hp]; simp [Flt.ge, Flt.lt, hl])]
  exact ⟨_, rfl, rfl, rfl⟩

/-- **C81.** Otherwise (also if the p-value is NaN), the copula selected is one of the candidates, fitted to the data as the candidate
would be, and no candidate has a smaller criterion; among equals it is the first. -/
theorem C81_copula [IsStrictOrderedRing K] (x : Data X) (cs : List (Candidate (Cop K))) (c : Criterion) (level : K) (f : FittedCop K P)
    (hp : ∀ p, (F.kendall x).2 = .fin p → p < level) (hpi : (F.kendall x).2 ≠ .pinf)
    (h : selectCopula F score ln x cs c (.fin level) = .ok f)
    (hn : ∀ d g, cs[0]? = some (.good d) → d.fit F x = .ok g → score d.family g.params x ≠ .nan) :
    ∃ i d, cs[i]? = some (.good d) ∧ f.cop.family = d.family ∧ (∃ g, d.fit F x = .ok g ∧ g.params = f.params) ∧
      ∀ (j : Nat) d' g, cs[j]? = some (.good d') → d'.fit F x = .ok g →
        NoWorse (penalty c ln x.rows d.family.nParams) (penalty c ln x.rows d'.family.nParams) (score d.family f.params x) (score d'.family g.params x) ∧
        (j < i → Better (penalty c ln x.rows d.family.nParams) (penalty c ln x.rows d'.family.nParams) (score d.family f.params x) (score d'.family g.params x)) := by
  unfold selectCopula at h
  by_cases hc : x.columns = 2
  · rw [if_neg (not_not.2 hc)] at h
    have hge : ((F.kendall x).2.ge (.fin level)) = false := by
      cases hk : (F.kendall x).2 with
      | nan => rfl
      | ninf => rfl
      | pinf => exact absurd hk hpi
      | fin p => have := hp p hk; simp [Flt.ge, Flt.lt, this]
    rw [if_neg (by rw [hge]; simp)] at h
    obtain ⟨r, h1, h2, -, h4⟩ := select_min _ _ _ h
    have hcs : ∀ (i : Nat) p, r[i]? = some p → ∃ cand, cs[i]? = some cand := fun i p hp =>
      ⟨cs[i]'(by rw [← h1]; exact (List.getElem?_eq_some_iff.1 hp).1), List.getElem?_eq_getElem _⟩
    obtain ⟨i, v, hi, w, hw, hmin⟩ := h4 fun p hp => by
      obtain ⟨cand, hcand⟩ := hcs 0 p hp
      obtain ⟨d, hd, -, hf, hv⟩ := (evaluateCop_ok F score ln x c cand p).1 (h2 0 cand p hcand hp)
      obtain ⟨g, hg1, hg2⟩ := (withTau_fit F d x p.1.params).1 ⟨_, hf, rfl⟩
      rw [hv]
      intro he
      rw [ext_value_none] at he
      exact hn d g (by rw [hcand, hd]) hg1 (by rw [hg2, he])
    obtain ⟨cand, hcand⟩ := hcs i _ hi
    obtain ⟨d, hd, -, hf, hv⟩ := (evaluateCop_ok F score ln x c cand _).1 (h2 i cand _ hcand hi)
    simp only at hf hv hw
    refine ⟨i, d, by rw [hcand, hd], by rw [cop_fit F _ _ _ hf, withTau_family], (withTau_fit F d x _).1 ⟨_, hf, rfl⟩, fun j d' g hj hg => ?_⟩
    have hjl : j < r.length := by rw [h1]; exact (List.getElem?_eq_some_iff.1 hj).1
    have hjr := List.getElem?_eq_getElem hjl
    obtain ⟨d'', hd'', -, hf'', hv''⟩ := (evaluateCop_ok F score ln x c _ _).1 (h2 j _ _ hj hjr)
    cases hd''
    obtain ⟨g', hg1, hg2⟩ := (withTau_fit F d' x _).1 ⟨_, hf'', rfl⟩
    rw [hg] at hg1
    cases hg1
    rw [← hg2] at hv''
    by_cases hnan : score d'.family g.params x = .nan
    · rw [hnan]
      have hfn : score d.family f.params x ≠ .nan := by
        intro he
        rw [hv, he] at hw
        rw [(ext_value_none c ln x.rows d.family.nParams .nan).2 rfl] at hw
        cases hw
      constructor
      · cases score d.family f.params x <;> trivial
      · intro _
        cases hs : score d.family f.params x with
        | nan => exact absurd hs hfn
        | ninf => trivial
        | pinf => trivial
        | fin y => trivial
    · obtain ⟨u, hu⟩ := ext_some (a := r[j].2) (by rw [hv'']; intro he; exact hnan ((ext_value_none _ _ _ _ _).1 he))
      obtain ⟨m1, m2⟩ := hmin j _ u hjr hu
      rw [hv] at hw
      rw [hv''] at hu
      obtain ⟨e1, e2⟩ := ext_value c ln x.rows d.family.nParams d'.family.nParams _ _ hw hu
      exact ⟨e1 m1, fun hji => e2 (m2 hji)⟩
  · rw [if_pos hc] at h
    cases h

/-- **C81, negated.** `IndependentCopula`, a bivariate copula, among the candidates makes the selection fail whenever the test rejects
independence. -/
theorem C81_independent_candidate (x : Data X) (cs : List (Candidate (Cop K))) (c : Criterion) (level : K) (d : Cop K)
    (hd : Candidate.good d ∈ cs) (hi : d.family = .independent) (hp : ((F.kendall x).2.ge (.fin level)) = false) :
    ∃ e, selectCopula F score ln x cs c (.fin level) = .error e := by
  cases h : selectCopula F score ln x cs c (.fin level) with
  | error e => exact ⟨e, rfl⟩
  | ok f =>
    exfalso
    unfold selectCopula at h
    by_cases hc : x.columns = 2
    · rw [if_neg (not_not.2 hc), if_neg (by rw [hp]; simp)] at h
      obtain ⟨p, hp'⟩ := ((select_success _ _).1 ⟨f, h⟩).2 _ hd
      obtain ⟨d', hd', hne, -⟩ := (evaluateCop_ok F score ln x c _ _).1 hp'
      cases hd'
      exact hne hi
    · rw [if_pos hc] at h
      cases h

/-- **C81, negated.** The copula that is returned keeps Kendall's tau of the data of the selection: a Gaussian copula fitted again, to other
data, gives the parameter of the first data, unlike the candidate. -/
theorem C81_refit_stale (x y : Data X) (c : Criterion) (level : K) (f : FittedCop K P)
    (hp : ((F.kendall x).2.ge (.fin level)) = false)
    (h : selectCopula F score ln x [.good ⟨.gaussian, true, none⟩] c (.fin level) = .ok f) :
    (∃ g, f.cop.fit F y = .ok g ∧ g.params = F.rho (F.kendall x).1) ∧
    ∃ g, (⟨.gaussian, true, none⟩ : Cop K).fit F y = .ok g ∧ g.params = F.rho (F.kendall y).1 := by
  refine ⟨?_, ⟨_, rfl, rfl⟩⟩
  unfold selectCopula at h
  by_cases hc : x.columns = 2
  · rw [if_neg (not_not.2 hc), if_neg (by rw [hp]; simp)] at h
    cases h
    exact ⟨_, rfl, rfl⟩
  · rw [if_pos hc] at h
    cases h

end copulas

/-! ### rotations -/

/-- **C81.** The rotation selected is that with the smallest criterion (negative log-likelihood), if that of the data not rotated is not NaN. -/
theorem C81_rotation (func : List (K × K) → Flt K) (X : List (K × K)) (h0 : func X ≠ .nan) :
    ∃ r v, selectRotation func X = some r ∧ ext (func (X.map (applyRotation r))) = some v ∧
      ∀ r' u, ext (func (X.map (applyRotation r'))) = some u → v ≤ u := by
  have hid : X.map (applyRotation .r0) = X := by
    have : (applyRotation .r0 : K × K → K × K) = id := rfl
    rw [this, List.map_id]
  obtain ⟨i, hi, v, hv, hmin⟩ := fold_firstMin ((Rotation.r0, func (X.map (applyRotation .r0)))) (by simpa only [hid] using h0)
    ([Rotation.r90, .r180, .r270].map fun r => (r, func (X.map (applyRotation r))))
  have hmem := List.mem_of_getElem? hi
  have hsel : selectRotation func X = some (([Rotation.r90, .r180, .r270].map fun r => (r, func (X.map (applyRotation r)))).foldl
      (fun best y => if y.2.lt best.2 then y else best) (Rotation.r0, func (X.map (applyRotation .r0)))).1 := rfl
  generalize ([Rotation.r90, .r180, .r270].map fun r => (r, func (X.map (applyRotation r)))).foldl
      (fun best y => if y.2.lt best.2 then y else best) (Rotation.r0, func (X.map (applyRotation .r0))) = best at hi hv hmem hsel
  refine ⟨best.1, v, hsel, ?_, fun r' u hu => ?_⟩
  · have : best.2 = func (X.map (applyRotation best.1)) := by
      rcases List.mem_cons.1 hmem with h | h
      · rw [h]
      · obtain ⟨r, _, hr⟩ := List.mem_map.1 h
        rw [← hr]
    rw [← this, hv]
  · cases r' with
    | r0 => exact (hmin 0 _ u rfl hu).1
    | r90 => exact (hmin 1 _ u rfl hu).1
    | r180 => exact (hmin 2 _ u rfl hu).1
    | r270 => exact (hmin 3 _ u rfl hu).1

/-- **C81.** With maximum likelihood, the rotation and the parameter are those of the smallest criterion among the rotations for which the
minimisation succeeds (if no minimum is NaN), and there is a result unless all of them fail. -/
theorem C81_rotation_mle (minimize : List (K × K) → Option (K × Flt K)) (X : List (K × K)) :
    (selectThetaRotation minimize X = none ↔ ∀ r, minimize (X.map (applyRotation r)) = none) ∧
    ∀ theta r, selectThetaRotation minimize X = some (theta, r) → (∀ r t m, minimize (X.map (applyRotation r)) = some (t, m) → m ≠ .nan) →
      ∃ m v, minimize (X.map (applyRotation r)) = some (theta, m) ∧ ext m = some v ∧
        ∀ r' t' m', minimize (X.map (applyRotation r')) = some (t', m') → ∃ u, ext m' = some u ∧ v ≤ u := by
  have hall : ∀ r : Rotation, r ∈ rotations := by intro r; cases r <;> decide
  have hmem : ∀ p : (K × Rotation) × Flt K, p ∈ (rotations.filterMap fun r => (minimize (X.map (applyRotation r))).map fun tf => ((tf.1, r), tf.2)) ↔
      minimize (X.map (applyRotation p.1.2)) = some (p.1.1, p.2) := by
    intro p
    rw [List.mem_filterMap]
    constructor
    · rintro ⟨r, _, h⟩
      obtain ⟨tf, h1, h2⟩ := Option.map_eq_some_iff.1 h
      rw [← h2]
      exact h1
    · intro h
      exact ⟨p.1.2, hall _, by rw [h]; rfl⟩
  unfold selectThetaRotation
  generalize (rotations.filterMap fun r => (minimize (X.map (applyRotation r))).map fun tf => ((tf.1, r), tf.2)) = l at hmem
  constructor
  · constructor
    · intro h r
      cases hm : minimize (X.map (applyRotation r)) with
      | none => rfl
      | some tf =>
        have := (hmem ((tf.1, r), tf.2)).2 hm
        cases l with
        | nil => cases this
        | cons x xs => cases h
    · intro h
      cases l with
      | nil => rfl
      | cons x xs =>
        have := (hmem x).1 List.mem_cons_self
        rw [h] at this
        cases this
  · intro theta r h hn
    cases l with
    | nil => cases h
    | cons x xs =>
      simp only [pyMin, Option.some.injEq] at h
      obtain ⟨i, hi, v, hv, hmin⟩ := fold_firstMin x (hn _ _ _ ((hmem x).1 List.mem_cons_self)) xs
      generalize xs.foldl (fun best y => if y.2.lt best.2 then y else best) x = best at h hi hv
      have hb := (hmem best).1 (List.mem_of_getElem? hi)
      rw [h] at hb
      refine ⟨best.2, v, hb, hv, fun r' t' m' hm' => ?_⟩
      obtain ⟨j, hj⟩ := List.mem_iff_getElem?.1 ((hmem ((t', r'), m')).2 hm')
      obtain ⟨u, hu⟩ := ext_some (hn _ _ _ hm')
      exact ⟨u, hu, (hmin j _ u hj hu).1⟩

/-! ### examples -/

/-- Three candidates. -/
def three : List (Candidate (Dist ℚ)) := [.good ⟨.gaussian, none, none⟩, .good ⟨.studentT, none, none⟩, .good ⟨.johnsonSU, none, none⟩]
/-- Log-likelihoods of the families. -/
def someScore : FittedDist ℚ → Data Unit → Flt ℚ := fun f _ =>
  match f.dist.family with
  | .gaussian => .fin 10
  | .studentT => .fin 12
  | .johnsonSU => .fin (27 / 2)
  | .normalInverseGaussian => .nan
/-- One column with a hundred rows. -/
def someData : Data Unit := ⟨1, 100, ()⟩
/-- The family selected. -/
def chosen (r : Except Err (FittedDist ℚ)) : Option Family := r.toOption.map (·.dist.family)

/-- The hypotheses of the theorems hold, and the AIC takes the largest model, the BIC (with `ln n = 5`) the smallest; a first candidate with NaN wins. -/
example : chosen (selectUnivariate (fun _ _ _ _ => some []) someScore (fun _ => 5) someData three .aic) = some .johnsonSU ∧
    chosen (selectUnivariate (fun _ _ _ _ => some []) someScore (fun _ => 5) someData three .bic) = some .gaussian ∧
    chosen (selectUnivariate (fun _ _ _ _ => some []) someScore (fun _ => 5) someData (.good ⟨.normalInverseGaussian, some 0, none⟩ :: three) .aic) = some .normalInverseGaussian := by
  decide +kernel

/-- Log-likelihoods of two candidates: a Student's t with mean 0 and a Gaussian. -/
def twoScore : FittedDist ℚ → Data Unit → Flt ℚ := fun f _ =>
  match f.dist.family with
  | .studentT => .fin 10
  | _ => .fin (19 / 2)

/-- **C81, negated.** Counting fixed parameters changes the choice: a Student's t whose `loc` is fixed has two free parameters, as a Gaussian,
and a larger likelihood, but the Gaussian is selected. -/
theorem C81_fixed_changes_selection :
    (⟨.studentT, some 0, none⟩ : Dist ℚ).nFree = 2 ∧ (⟨.gaussian, none, none⟩ : Dist ℚ).nFree = 2 ∧
    (∀ f : FittedDist ℚ, f.dist = ⟨.studentT, some 0, none⟩ → twoScore f someData = .fin 10) ∧
    (∀ f : FittedDist ℚ, f.dist = ⟨.gaussian, none, none⟩ → twoScore f someData = .fin (19 / 2)) ∧
    (selectUnivariate (fun _ _ _ _ => some []) twoScore (fun _ => 5) someData [.good ⟨.studentT, some 0, none⟩, .good ⟨.gaussian, none, none⟩] .aic).toOption.map
      (·.dist.family) = some .gaussian := by
  refine ⟨rfl, rfl, fun f h => ?_, fun f h => ?_, ?_⟩
  · unfold twoScore; rw [h]
  · unfold twoScore; rw [h]
  · decide +kernel

/-- Fits of copulas: dependence, a parameter that is Kendall's tau. -/
def someFits : Fits ℚ (Data ℚ) ℚ := ⟨fun x => (.fin x.values, .fin (1 / 100)), 0, fun t => (match t with | .fin t => t | _ => 0), fun _ _ _ _ => some 7⟩

/-- The hypotheses of `C81_copula` and `C81_refit_stale` hold: a Clayton copula is selected for its likelihood, and a Gaussian copula
selected with tau 1/2 and fitted again to data with tau 1/3 keeps 1/2. -/
example :
    ((selectCopula someFits (fun f _ _ => if f = .clayton then .fin 20 else .fin 10) (fun _ => 5) ⟨2, 100, 1 / 2⟩
      [.good ⟨.gaussian, true, none⟩, .good ⟨.clayton, true, none⟩] .bic (.fin (1 / 20))).toOption.map (·.cop.family) = some .clayton) ∧
    ((selectCopula someFits (fun _ _ _ => .fin 10) (fun _ => 5) ⟨2, 100, 1 / 2⟩ [.good ⟨.gaussian, true, none⟩] .aic (.fin (1 / 20))).toOption.bind
      fun f => (f.cop.fit someFits ⟨2, 100, 1 / 3⟩).toOption.map (·.params)) = some (1 / 2) := by
  decide +kernel

end Skfolio.ModelSelection
