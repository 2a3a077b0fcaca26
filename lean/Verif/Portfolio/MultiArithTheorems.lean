import Verif.Portfolio.MultiArithModel
import Verif.Portfolio.ArithTheorems
import Mathlib.Data.List.Forall2

/-!
# Arithmetic of multi-period portfolios: the claims
-/

set_option autoImplicit false

namespace Skfolio.Portfolio.MultiArith

open Arith

variable {K P V : Type}

/-! ### Specification -/

/-- The result of an operator: the given portfolios, the tag and the fitness measures of the left operand, and the defaults for all
the rest. -/
def result (dflt : MParam → V) (m : MPtf K P V) (ps : List (Ptf K P)) : MPtf K P V :=
  { portfolios := ps, name := none, tag := m.tag, fitness := m.fitness, params := dflt, check := false }

/-! ### Lists -/

theorem portfoliosOf_map (ps : List (Ptf K P)) : portfoliosOf (ps.map Item.ptf) = .ok ps := by
  induction ps with
  | nil => rfl
  | cons p ps ih => simp only [List.map_cons, portfoliosOf, ih]

theorem each_ok {A : Type} (f : A → Except PErr (Ptf K P)) (l : List A) (items : List (Item K P)) :
    each f l = .ok items ↔ ∃ qs, items = qs.map Item.ptf ∧ List.Forall₂ (fun a q => f a = .ok q) l qs := by
  induction l generalizing items with
  | nil =>
    simp only [each, Except.ok.injEq, List.forall₂_nil_left_iff, exists_eq_right]
    exact eq_comm
  | cons a l ih =>
    simp only [each]
    cases hf : f a with
    | error e =>
      simp only [reduceCtorEq, false_iff]
      rintro ⟨qs, -, hq⟩
      cases hq with
      | cons h _ => rw [hf] at h; cases h
    | ok q =>
      simp only
      cases he : each f l with
      | error e =>
        simp only [reduceCtorEq, false_iff]
        rintro ⟨qs, -, hq⟩
        cases hq with
        | cons h ht =>
          have := (ih _).mpr ⟨_, rfl, ht⟩
          rw [he] at this; cases this
      | ok its =>
        simp only [Except.ok.injEq]
        obtain ⟨qs, rfl, hqs⟩ := (ih its).mp he
        constructor
        · rintro rfl
          exact ⟨q :: qs, rfl, .cons hf hqs⟩
        · rintro ⟨rs, rfl, hr⟩
          cases hr with
          | cons h ht =>
            rw [hf] at h
            cases h
            have := (ih _).mpr ⟨_, rfl, ht⟩
            rw [he] at this
            simp only [Except.ok.injEq] at this
            rw [List.map_cons, this]

theorem mapEach_ok (dflt : MParam → V) (m : MPtf K P V) {A : Type} (f : A → Except PErr (Ptf K P)) (l : List A) (r : MPtf K P V) :
    m.mapEach dflt f l = .ok r ↔ ∃ qs, List.Forall₂ (fun a q => f a = .ok q) l qs ∧ r = result dflt m qs := by
  unfold MPtf.mapEach
  cases he : each f l with
  | error e =>
    simp only [reduceCtorEq, false_iff]
    rintro ⟨qs, hq, -⟩
    have := (each_ok f l _).mpr ⟨qs, rfl, hq⟩
    rw [he] at this; cases this
  | ok items =>
    obtain ⟨qs, rfl, hqs⟩ := (each_ok f l items).mp he
    simp only [MPtf.rebuild, portfoliosOf_map, Except.ok.injEq]
    constructor
    · rintro rfl; exact ⟨qs, hqs, rfl⟩
    · rintro ⟨rs, hr, rfl⟩
      have h1 := (each_ok f l _).mpr ⟨rs, rfl, hr⟩
      rw [he] at h1
      simp only [Except.ok.injEq] at h1
      have : qs = rs := List.map_injective_iff.mpr (fun a b e => by simpa using e) h1
      rw [this]; rfl

theorem forall₂_total {A B : Type} {R : A → B → Prop} (l : List A) (h : ∀ a ∈ l, ∃ b, R a b) : ∃ bs, List.Forall₂ R l bs := by
  induction l with
  | nil => exact ⟨[], .nil⟩
  | cons a l ih =>
    obtain ⟨b, hb⟩ := h a (by simp)
    obtain ⟨bs, hbs⟩ := ih fun x hx => h x (by simp [hx])
    exact ⟨b :: bs, .cons hb hbs⟩

variable [Field K] [LinearOrder K] [FloorRing K]

/-- All portfolios were built by the constructor. -/
def AllBuilt (m : MPtf K P V) : Prop := ∀ p ∈ m.portfolios, Built p

omit [FloorRing K] in
/-- C102: negation, absolute value, multiplication and division by a scalar act on every period, in order, and always succeed; the result
has the tag and the fitness measures of the operand. -/
theorem C102_unary (dflt : MParam → V) (m : MPtf K P V) (hm : AllBuilt m) (c : K) :
    (∃ qs, m.neg dflt = .ok (result dflt m qs) ∧
      List.Forall₂ (fun p q => Reweighted p (p.weights.map (- ·)) q) m.portfolios qs) ∧
    (∃ qs, m.abs dflt = .ok (result dflt m qs) ∧
      List.Forall₂ (fun p q => Reweighted p (p.weights.map fun x => |x|) q) m.portfolios qs) ∧
    (∃ qs, m.mul dflt (.scalar c) = .ok (result dflt m qs) ∧
      List.Forall₂ (fun p q => Reweighted p (p.weights.map (c * ·)) q) m.portfolios qs) ∧
    (c ≠ 0 → ∃ qs, m.truediv dflt (.scalar c) = .ok (result dflt m qs) ∧
      List.Forall₂ (fun p q => Reweighted p (p.weights.map (· / c)) q) m.portfolios qs) := by
  have key : ∀ (f : Ptf K P → Except PErr (Ptf K P)) (w : Ptf K P → List K),
      (∀ p, Built p → ∃ q, f p = .ok q ∧ Built q ∧ Reweighted p (w p) q) →
      ∃ qs, m.mapEach dflt f m.portfolios = .ok (result dflt m qs) ∧
        List.Forall₂ (fun p q => Reweighted p (w p) q) m.portfolios qs := by
    intro f w hf
    obtain ⟨qs, hqs⟩ := forall₂_total (R := fun p q => f p = .ok q ∧ Reweighted p (w p) q) m.portfolios (by
      intro p hp
      obtain ⟨q, h1, -, h3⟩ := hf p (hm p hp)
      exact ⟨q, h1, h3⟩)
    exact ⟨qs, (mapEach_ok dflt m f _ _).mpr ⟨qs, hqs.imp fun _ _ h => h.1, rfl⟩, hqs.imp fun _ _ h => h.2⟩
  exact ⟨key _ _ fun p hp => (C24_scaling p hp c).1, key _ _ fun p hp => (C24_scaling p hp c).2.1,
    key _ _ fun p hp => (C24_scaling p hp c).2.2.1, fun hc => key _ _ fun p hp => (C24_scaling p hp c).2.2.2 hc⟩

/-- C102: rounding and floor division act on every period as they do on a portfolio (`C24_rounding`), in order, and succeed exactly if
they do for all periods. -/
theorem C102_rounding (dflt : MParam → V) (m r : MPtf K P V) (n : ℕ) (c : K) :
    (m.round dflt n = .ok r ↔ ∃ qs, List.Forall₂ (fun p q => p.round n = .ok q) m.portfolios qs ∧ r = result dflt m qs) ∧
    (m.floordiv dflt (.scalar c) = .ok r ↔
      ∃ qs, List.Forall₂ (fun p q => p.floordiv c = .ok q) m.portfolios qs ∧ r = result dflt m qs) :=
  ⟨mapEach_ok _ _ _ _ _, mapEach_ok _ _ _ _ _⟩

omit [FloorRing K] in
/-- C102: with one factor per period, the `i`-th period is multiplied by the `i`-th factor; a list of another length raises. -/
theorem C102_per_period (dflt : MParam → V) (m : MPtf K P V) (hm : AllBuilt m) (cs : List K) :
    (m.portfolios.length = cs.length → ∃ qs, m.mul dflt (.perPeriod cs) = .ok (result dflt m qs) ∧
      List.Forall₂ (fun (pc : Ptf K P × K) q => Reweighted pc.1 (pc.1.weights.map (pc.2 * ·)) q) (m.portfolios.zip cs) qs) ∧
    (m.portfolios.length ≠ cs.length → m.mul dflt (.perPeriod cs) = .error .valueError) := by
  obtain ⟨qs, hqs⟩ := forall₂_total (R := fun (pc : Ptf K P × K) q => pc.1.mul pc.2 = .ok q ∧
      Reweighted pc.1 (pc.1.weights.map (pc.2 * ·)) q) (m.portfolios.zip cs) (by
    intro pc hpc
    obtain ⟨q, h1, -, h3⟩ := (C24_scaling pc.1 (hm pc.1 (List.of_mem_zip hpc).1) pc.2).2.2.1
    exact ⟨q, h1, h3⟩)
  have he := (each_ok (fun pc : Ptf K P × K => pc.1.mul pc.2) (m.portfolios.zip cs) _).mpr
    ⟨qs, rfl, hqs.imp fun _ _ h => h.1⟩
  constructor
  · intro hl
    refine ⟨qs, ?_, hqs.imp fun _ _ h => h.2⟩
    simp only [MPtf.mul, MPtf.scale, he, hl, ne_eq, not_true_eq_false, if_false, MPtf.rebuild, portfoliosOf_map]
    rfl
  · intro hl
    simp only [MPtf.mul, MPtf.scale, he, ne_eq, hl, not_false_eq_true, if_true]

omit [FloorRing K] in
/-- C102: two multi-period portfolios are added and subtracted exactly if they have the same number of periods and the portfolios of each
period agree in everything but weights, name and tag.  The `i`-th period of the result is the `i`-th of the left with the weights
added or subtracted. -/
theorem C102_sum [DecidableEq P] (dflt : MParam → V) (m m' : MPtf K P V) (hm : AllBuilt m) (hm' : AllBuilt m') :
    (List.Forall₂ Compatible m.portfolios m'.portfolios →
      (∃ qs, m.add dflt m' = .ok (result dflt m qs) ∧ List.Forall₂ (fun (pp : Ptf K P × Ptf K P) q =>
        Reweighted pp.1 (List.zipWith (· + ·) pp.1.weights pp.2.weights) q) (m.portfolios.zip m'.portfolios) qs) ∧
      (∃ qs, m.sub dflt m' = .ok (result dflt m qs) ∧ List.Forall₂ (fun (pp : Ptf K P × Ptf K P) q =>
        Reweighted pp.1 (List.zipWith (· - ·) pp.1.weights pp.2.weights) q) (m.portfolios.zip m'.portfolios) qs)) ∧
    (¬ List.Forall₂ Compatible m.portfolios m'.portfolios → (∃ e, m.add dflt m' = .error e) ∧ ∃ e, m.sub dflt m' = .error e) := by
  constructor
  · intro hc
    have hl := hc.length_eq
    have hcz : ∀ pp ∈ m.portfolios.zip m'.portfolios, Compatible pp.1 pp.2 := by
      intro pp hpp
      exact (List.forall₂_iff_zip.mp hc).2 hpp
    constructor
    · obtain ⟨qs, hqs⟩ := forall₂_total (R := fun (pp : Ptf K P × Ptf K P) q => pp.1.add pp.2 = .ok q ∧
        Reweighted pp.1 (List.zipWith (· + ·) pp.1.weights pp.2.weights) q) (m.portfolios.zip m'.portfolios) (by
          intro pp hpp
          have hb := List.of_mem_zip hpp
          obtain ⟨⟨q, h1, -, h3⟩, -⟩ := (C24_sum pp.1 pp.2 (hm _ hb.1) (hm' _ hb.2)).1 (hcz pp hpp)
          exact ⟨q, h1, h3⟩)
      refine ⟨qs, ?_, hqs.imp fun _ _ h => h.2⟩
      unfold MPtf.add
      rw [if_neg (by simpa using hl)]
      exact (mapEach_ok dflt m _ _ _).mpr ⟨qs, hqs.imp fun _ _ h => h.1, rfl⟩
    · obtain ⟨qs, hqs⟩ := forall₂_total (R := fun (pp : Ptf K P × Ptf K P) q => pp.1.sub pp.2 = .ok q ∧
        Reweighted pp.1 (List.zipWith (· - ·) pp.1.weights pp.2.weights) q) (m.portfolios.zip m'.portfolios) (by
          intro pp hpp
          have hb := List.of_mem_zip hpp
          obtain ⟨-, ⟨q, h1, -, h3⟩⟩ := (C24_sum pp.1 pp.2 (hm _ hb.1) (hm' _ hb.2)).1 (hcz pp hpp)
          exact ⟨q, h1, h3⟩)
      refine ⟨qs, ?_, hqs.imp fun _ _ h => h.2⟩
      unfold MPtf.sub
      rw [if_neg (by simpa using hl)]
      exact (mapEach_ok dflt m _ _ _).mpr ⟨qs, hqs.imp fun _ _ h => h.1, rfl⟩
  · intro hc
    by_cases hl : m.portfolios.length = m'.portfolios.length
    · have hex : ∃ pp ∈ m.portfolios.zip m'.portfolios, ¬ Compatible pp.1 pp.2 := by
        by_contra hn
        push Not at hn
        exact hc (List.forall₂_iff_zip.mpr ⟨hl, fun {a b} h => hn (a, b) h⟩)
      obtain ⟨pp, hpp, hnc⟩ := hex
      have hb := List.of_mem_zip hpp
      obtain ⟨h1, h2⟩ := (C24_sum pp.1 pp.2 (hm _ hb.1) (hm' _ hb.2)).2 hnc
      have none_ok : ∀ (f : Ptf K P × Ptf K P → Except PErr (Ptf K P)) (e : PErr), f pp = .error e →
          ∃ e, m.mapEach dflt f (m.portfolios.zip m'.portfolios) = .error e := by
        intro f e hf
        cases hr : m.mapEach dflt f (m.portfolios.zip m'.portfolios) with
        | error e => exact ⟨e, rfl⟩
        | ok r =>
          obtain ⟨qs, hqs, -⟩ := (mapEach_ok dflt m f _ _).mp hr
          obtain ⟨i, hi, hpi⟩ := List.getElem_of_mem hpp
          have := hqs.get hi (by rw [← hqs.length_eq]; exact hi)
          simp only [List.get_eq_getElem, hpi, hf] at this
          cases this
      unfold MPtf.add MPtf.sub
      rw [if_neg (by simpa using hl), if_neg (by simpa using hl)]
      exact ⟨none_ok _ _ h1, none_ok _ _ h2⟩
    · unfold MPtf.add MPtf.sub
      rw [if_pos hl, if_pos hl]
      exact ⟨⟨_, rfl⟩, ⟨_, rfl⟩⟩

omit [FloorRing K] in
theorem returns_length {p : Ptf K P} (hp : Built p) : p.returns.length = p.X.rows.length := by
  obtain ⟨-, ⟨xs, hx⟩, hr, -, -⟩ := hp.facts
  obtain ⟨-, -, -, -, -, -, -, -, h⟩ := hr
  have hrows : p.X.rows = xs.map (List.map some) := hx
  rw [h xs hx, hrows]
  simp

theorem zipWith_flatMap {A B C D : Type} (g : C → C → C) (l : List (A × B)) (f : A → List C) (h : B → List C)
    (hl : ∀ x ∈ l, (f x.1).length = (h x.2).length) :
    List.zipWith g (l.flatMap fun x => f x.1) (l.flatMap fun x => h x.2) = l.flatMap fun x => List.zipWith g (f x.1) (h x.2) := by
  induction l with
  | nil => rfl
  | cons x l ih =>
    simp only [List.flatMap_cons]
    rw [List.zipWith_append (hl x (by simp)), ih fun y hy => hl y (by simp [hy])]

theorem flatMap_forall₂ {A B C : Type} (l : List A) (l' : List B) (f : A → List C) (g : B → List C)
    (h : List.Forall₂ (fun a b => g b = f a) l l') : l'.flatMap g = l.flatMap f := by
  induction h with
  | nil => rfl
  | cons h _ ih => simp only [List.flatMap_cons, h, ih]

theorem forall₂_mem {A B : Type} {R S : A → B → Prop} {l : List A} {l' : List B} (h : List.Forall₂ R l l')
    (hi : ∀ a ∈ l, ∀ b, R a b → S a b) : List.Forall₂ S l l' := by
  induction h with
  | nil => exact .nil
  | cons h _ ih => exact .cons (hi _ (by simp) _ h) (ih fun a ha => hi a (by simp [ha]))

omit [FloorRing K] in
/-- C102: without transaction costs the returns of a multiple are the multiples of the returns, and the returns of a sum are the sums of
the returns. -/
theorem C102_linear [DecidableEq P] (dflt : MParam → V) (m m' r s : MPtf K P V) (hm : AllBuilt m) (hm' : AllBuilt m')
    (h0 : ∀ p ∈ m.portfolios, p.transactionCosts = .scalar 0) (c : K) (hr : m.add dflt m' = .ok r)
    (hs : m.mul dflt (.scalar c) = .ok s) :
    r.returns = List.zipWith (· + ·) m.returns m'.returns ∧ s.returns = m.returns.map (c * ·) := by
  constructor
  · by_cases hl : m.portfolios.length ≠ m'.portfolios.length
    · unfold MPtf.add at hr; rw [if_pos hl] at hr; cases hr
    · unfold MPtf.add at hr
      rw [if_neg hl] at hr
      obtain ⟨qs, hqs, rfl⟩ := (mapEach_ok dflt m _ _ _).mp hr
      push Not at hl
      have e1 : m.returns = (m.portfolios.zip m'.portfolios).flatMap fun x => x.1.returns := by
        have : m.portfolios = (m.portfolios.zip m'.portfolios).map Prod.fst := (List.map_fst_zip hl.le).symm
        unfold MPtf.returns
        conv_lhs => rw [this]
        rw [List.flatMap_map]
      have e2 : m'.returns = (m.portfolios.zip m'.portfolios).flatMap fun x => x.2.returns := by
        have : m'.portfolios = (m.portfolios.zip m'.portfolios).map Prod.snd := (List.map_snd_zip hl.ge).symm
        unfold MPtf.returns
        conv_lhs => rw [this]
        rw [List.flatMap_map]
      have hcomp : ∀ pp ∈ m.portfolios.zip m'.portfolios, ∀ q, pp.1.add pp.2 = .ok q → Compatible pp.1 pp.2 := by
        intro pp hpp q hq
        have hb := List.of_mem_zip hpp
        by_contra hn
        rw [((C24_sum pp.1 pp.2 (hm _ hb.1) (hm' _ hb.2)).2 hn).1] at hq
        cases hq
      rw [e1, e2, zipWith_flatMap (D := K) (· + ·) _ Ptf.returns Ptf.returns]
      · refine flatMap_forall₂ _ _ _ _ (forall₂_mem hqs ?_)
        intro pp hpp q hq
        have hb := List.of_mem_zip hpp
        obtain ⟨t, ht, -⟩ := (C24_scaling pp.1 (hm _ hb.1) c).2.2.1
        exact (C24_linear pp.1 pp.2 q t (hm _ hb.1) (hm' _ hb.2) (h0 _ hb.1) c hq ht).1
      · intro pp hpp
        have hb := List.of_mem_zip hpp
        obtain ⟨i, hi, hpi⟩ := List.getElem_of_mem hpp
        have hq := hqs.get hi (by rw [← hqs.length_eq]; exact hi)
        simp only [List.get_eq_getElem, hpi] at hq
        rw [returns_length (hm _ hb.1), returns_length (hm' _ hb.2), (hcomp pp hpp _ hq).1]
  · obtain ⟨qs, hqs, rfl⟩ := (mapEach_ok dflt m _ _ _).mp hs
    have : m.returns.map (c * ·) = m.portfolios.flatMap fun p => p.returns.map (c * ·) := by
      unfold MPtf.returns; rw [List.map_flatMap]
    rw [this]
    refine flatMap_forall₂ _ _ _ _ (forall₂_mem hqs ?_)
    intro p hp q hq
    obtain ⟨⟨t, ht, -⟩, -⟩ := (C24_sum p p (hm p hp) (hm p hp)).1 ⟨rfl, rfl, rfl, rfl, rfl⟩
    exact (C24_linear p p t q (hm p hp) (hm p hp) (h0 p hp) c ht hq).2

omit [FloorRing K] in
theorem mul_one_self {p : Ptf K P} (hp : Built p) : p.mul 1 = .ok p := by
  obtain ⟨a, h⟩ := hp
  have hw : p.weights.map ((1 : K) * ·) = p.weights := by simp
  unfold Ptf.mul
  rw [hw]
  unfold Ptf.withWeights
  simp only [construct] at h
  split at h
  · rename_i hc
    simp only [finish] at h
    split at h
    · cases h
    · rename_i rets hr
      simp only [Except.ok.injEq] at h
      subst h
      simp only [construct, Ptf.args, Option.getD_some]
      refine (if_pos hc).trans ?_
      simp only [finish, hr]
  · cases h

omit [FloorRing K] in
/-- C102, finding: the parameters of the measures (risk-free rate, annualisation factor, confidence levels, ...) and the name are not
passed on.  Multiplying by 1 gives the same periods and the same returns, but every parameter has its default value, so that the result
differs from the operand as soon as one parameter was set. -/
theorem C102_parameters_lost (dflt : MParam → V) (m : MPtf K P V) (hm : AllBuilt m) :
    ∃ r, m.mul dflt (.scalar 1) = .ok r ∧ r.portfolios = m.portfolios ∧ r.returns = m.returns ∧ r.params = dflt ∧ r.name = none ∧
      r.check = false := by
  refine ⟨result dflt m m.portfolios, (mapEach_ok dflt m _ _ _).mpr ⟨m.portfolios, ?_, rfl⟩, rfl, rfl, rfl, rfl, rfl⟩
  exact List.forall₂_same.mpr fun p hp => mul_one_self (hm p hp)

/-- C102, finding: `math.floor` and `math.trunc` of a multi-period portfolio always raise `TypeError`, unless it has no periods: numpy
takes the portfolios of the periods for their returns. -/
theorem C102_floor_raises (dflt : MParam → V) (m : MPtf K P V) :
    (m.portfolios ≠ [] → m.floor dflt = .error .typeError) ∧ (m.portfolios = [] → m.floor dflt = .ok (result dflt m [])) := by
  constructor
  · intro h
    unfold MPtf.floor MPtf.rebuild
    cases hp : m.portfolios with
    | nil => exact absurd hp h
    | cons p ps => simp [npFloor, portfoliosOf]
  · intro h
    simp only [MPtf.floor, h, MPtf.rebuild, portfoliosOf, List.map_nil]
    rfl

/-! ### Instances -/

/-- Two assets, two days. -/
def panel : Panel ℚ := ⟨2, [[some (1/10), some (-1/20)], [some 0, some (1/5)]], by simp⟩

/-- The portfolio of a period. -/
def period (w : List ℚ) : Args ℚ Unit :=
  { X := panel, weights := w, previousWeights := none, transactionCosts := none, managementFees := none, params := (), name := "p", tag := "" }

/-- Two periods, with a risk-free rate of 1/100. -/
def twoPeriods (p q : Ptf ℚ Unit) : MPtf ℚ Unit ℚ :=
  { portfolios := [p, q], name := some "mpp", tag := "t", fitness := 0, params := fun x => if x = .riskFreeRate then 1/100 else 0,
    check := true }

/-- The mean of the returns above the risk-free rate, the numerator of the ratios. -/
def excess (m : MPtf ℚ Unit ℚ) : ℚ := m.returns.sum / m.returns.length - m.params .riskFreeRate

/-- The excess return of a multi-period portfolio changes when it is multiplied by 1. -/
theorem C102_excess_witness :
    ∃ p q, construct (period [1/2, 1/2]) = .ok p ∧ construct (period [1, 0]) = .ok q ∧
      ∃ r, (twoPeriods p q).mul (fun _ => 0) (.scalar 1) = .ok r ∧ excess (twoPeriods p q) = 37/800 ∧ excess r = 45/800 := by
  have h1 : (construct (period [1/2, 1/2])).toOption.map Ptf.returns = some [1/40, 1/10] := by decide +kernel
  have h2 : (construct (period [1, 0])).toOption.map Ptf.returns = some [1/10, 0] := by decide +kernel
  cases e1 : construct (period [1/2, 1/2]) with
  | error e => rw [e1] at h1; cases h1
  | ok p =>
    cases e2 : construct (period [1, 0]) with
    | error e => rw [e2] at h2; cases h2
    | ok q =>
      rw [e1] at h1
      rw [e2] at h2
      simp only [Except.toOption, Option.map_some, Option.some.injEq] at h1 h2
      have hb : AllBuilt (twoPeriods p q) := by
        intro x hx
        simp only [twoPeriods, List.mem_cons, List.not_mem_nil, or_false] at hx
        rcases hx with rfl | rfl
        · exact ⟨_, e1⟩
        · exact ⟨_, e2⟩
      obtain ⟨r, hr, -, hret, hpar, -, -⟩ := C102_parameters_lost (fun _ => 0) (twoPeriods p q) hb
      have hret0 : (twoPeriods p q).returns = [1/40, 1/10, 1/10, 0] := by
        simp [MPtf.returns, twoPeriods, h1, h2]
      refine ⟨p, q, rfl, rfl, r, hr, ?_, ?_⟩
      · unfold excess
        rw [hret0]
        simp only [twoPeriods]
        norm_num
      · simp only [excess, hret, hret0, hpar]; norm_num

end Skfolio.Portfolio.MultiArith
