import Verif.Portfolio.ArithModel
import Verif.Measures.Model
import Mathlib.Algebra.Order.Floor.Ring
import Mathlib.Algebra.Order.BigOperators.Group.List
import Mathlib.Algebra.BigOperators.Ring.List
import Mathlib.Algebra.Order.Ring.Rat
import Mathlib.Data.Rat.Floor
import Mathlib.Data.List.Basic
import Mathlib.Data.List.GetD
import Mathlib.Tactic.Ring
import Mathlib.Tactic.Set
import Mathlib.Tactic.Linarith
import Mathlib.Tactic.FieldSimp
import Mathlib.Tactic.NormNum

/-!
# Portfolio construction and arithmetic: the claims
-/

set_option autoImplicit false

namespace Skfolio.Portfolio.Arith

variable {K P : Type} [Field K] [LinearOrder K] [FloorRing K]

/-! ### Specification -/

/-- `Σ aᵢ bᵢ`. -/
def dot (a b : List K) : K := (List.zipWith (· * ·) a b).sum

/-- The rates of a cost, one per asset. -/
def Cost.rates (n : ℕ) : Cost K → List K
  | .scalar c => List.replicate n c
  | .vector cs => cs

/-- The net return of a period with asset returns `x`: weights `w`, weights before trading `prev`, cost rates `c` on the
traded amounts and fee rates `f` on the weights. -/
def netReturn (w prev c f x : List K) : K := dot w x - dot c (List.zipWith (fun a b => |a - b|) prev w) - dot f w

/-! ### Proofs -/

omit [LinearOrder K] [FloorRing K] in
theorem dotRow_some (w x : List K) (h : w.length = x.length) : dotRow w (x.map some) = some (dot w x) := by
  induction w generalizing x with
  | nil => cases x with
    | nil => rfl
    | cons => simp at h
  | cons a w ih => cases x with
    | nil => simp at h
    | cons b x =>
      simp only [List.map_cons, dotRow, ih x (by simpa using h), Option.map_some]
      simp [dot]

omit [LinearOrder K] [FloorRing K] in
theorem dotRow_eq_some {w : List K} {r : List (Option K)} (h : w.length = r.length) {v : K} (hv : dotRow w r = some v) :
    ∃ x : List K, r = x.map some := by
  induction w generalizing r v with
  | nil => cases r with
    | nil => exact ⟨[], rfl⟩
    | cons => simp at h
  | cons a w ih => cases r with
    | nil => simp at h
    | cons b r => cases b with
      | none => simp [dotRow] at hv
      | some b =>
        simp only [dotRow, Option.map_eq_some_iff] at hv
        obtain ⟨u, hu, -⟩ := hv
        obtain ⟨x, rfl⟩ := ih (by simpa using h) hu
        exact ⟨b :: x, rfl⟩

omit [LinearOrder K] [FloorRing K] in
theorem mapM_dotRow {w : List K} {rows : List (List (Option K))} (hr : ∀ r ∈ rows, r.length = w.length) {vs : List K} :
    rows.mapM (dotRow w) = some vs ↔ ∃ xs : List (List K), rows = xs.map (List.map some) ∧ vs = xs.map (dot w) := by
  induction rows generalizing vs with
  | nil =>
    simp only [List.mapM_nil]
    constructor
    · intro h
      simp only [Option.pure_def, Option.some.injEq] at h
      exact ⟨[], rfl, by simp [← h]⟩
    · rintro ⟨xs, h1, rfl⟩
      cases xs with
      | nil => rfl
      | cons => simp at h1
  | cons r rows ih =>
    have ih' := fun vs => @ih (fun r' h => hr r' (by simp [h])) vs
    simp only [List.mapM_cons, Option.bind_eq_bind, Option.pure_def]
    constructor
    · intro h
      rw [Option.bind_eq_some_iff] at h
      obtain ⟨v, h1, h2⟩ := h
      rw [Option.bind_eq_some_iff] at h2
      obtain ⟨us, h2, h3⟩ := h2
      obtain ⟨xs, rfl, rfl⟩ := (ih' us).mp h2
      obtain ⟨x, rfl⟩ := dotRow_eq_some (hr r (by simp)).symm h1
      rw [dotRow_some w x (by simpa using (hr _ (List.mem_cons_self)).symm)] at h1
      simp only [Option.some.injEq] at h1 h3
      exact ⟨x :: xs, rfl, by rw [← h3, ← h1]; rfl⟩
    · rintro ⟨xs, h1, rfl⟩
      cases xs with
      | nil => simp at h1
      | cons x xs =>
        simp only [List.map_cons, List.cons.injEq] at h1
        obtain ⟨rfl, rfl⟩ := h1
        rw [dotRow_some w x (by simpa using (hr _ (List.mem_cons_self)).symm),
          (ih' (xs.map (dot w))).mpr ⟨xs, rfl, rfl⟩]
        rfl

omit [LinearOrder K] [FloorRing K] in
theorem times_sum (c : Cost K) (v : List K) (n : ℕ) (hv : v.length = n) : (c.times v).sum = dot (c.rates n) v := by
  cases c with
  | vector cs => rfl
  | scalar c =>
    subst hv
    simp only [Cost.times, Cost.rates, dot]
    congr 1
    induction v with
    | nil => rfl
    | cons a v ih => simp [List.replicate_succ, ih]

omit [LinearOrder K] [FloorRing K] in
theorem dot_zero (n : ℕ) (v : List K) : dot (List.replicate n 0) v = 0 := by
  induction v generalizing n with
  | nil => simp [dot]
  | cons a v ih =>
    cases n with
    | zero => simp [dot]
    | succ n => have := ih n; simp only [dot] at this; simp [dot, List.replicate_succ, this]

omit [FloorRing K] in
theorem totalCost_eq (tc : Cost K) (prev w : List K) (n : ℕ) (hp : prev.length = n) (hw : w.length = n) :
    totalCost tc prev w = dot (tc.rates n) (List.zipWith (fun a b => |a - b|) prev w) := by
  unfold totalCost
  split
  · rename_i h; subst h; rw [Cost.rates, dot_zero]
  · rw [times_sum _ _ n (by simp [hp, hw]), List.map_zipWith]

omit [FloorRing K] in
theorem totalFee_eq (mf : Cost K) (w : List K) (n : ℕ) (hw : w.length = n) : totalFee mf w = dot (mf.rates n) w := by
  unfold totalFee
  split
  · rename_i h; subst h; rw [Cost.rates, dot_zero]
  · rw [times_sum _ _ n hw]

omit [LinearOrder K] [FloorRing K] in
theorem portfolioReturns_ok {rows : List (List (Option K))} {w : List K} {c f : K}
    (hr : ∀ r ∈ rows, r.length = w.length) {rs : List K} :
    portfolioReturns rows w c f = .ok rs ↔
      ∃ xs : List (List K), rows = xs.map (List.map some) ∧ rs = xs.map fun x => dot w x - c - f := by
  unfold portfolioReturns
  cases h : rows.mapM (dotRow w) with
  | none =>
    simp only [reduceCtorEq, false_iff]
    rintro ⟨xs, h1, -⟩
    rw [(mapM_dotRow hr).mpr ⟨xs, h1, rfl⟩] at h
    simp at h
  | some vs =>
    obtain ⟨xs, h1, rfl⟩ := (mapM_dotRow hr).mp h
    simp only [Except.ok.injEq]
    constructor
    · rintro rfl
      exact ⟨xs, h1, by simp [Function.comp_def]⟩
    · rintro ⟨ys, h2, rfl⟩
      have : xs = ys := by
        have hinj : Function.Injective (List.map (List.map (some (α := K)))) :=
          List.map_injective_iff.mpr (List.map_injective_iff.mpr (Option.some_injective K))
        exact hinj (h1.symm.trans h2)
      subst this
      simp [Function.comp_def]

/-- The shapes the constructor demands of its arguments (`n` assets). -/
structure Args.Shaped (a : Args K P) : Prop where
  weights : a.weights.length = a.X.nAssets
  prev : ∀ v, a.previousWeights = some v → v.length = a.X.nAssets
  costs : ∀ v, a.transactionCosts = some (.vector v) → v.length = a.X.nAssets
  fees : ∀ v, a.managementFees = some (.vector v) → v.length = a.X.nAssets

/-- No return is missing: the panel holds the numbers `xs`. -/
def Panel.Holds (X : Panel K) (xs : List (List K)) : Prop := X.rows = xs.map (List.map some)

/-- Previous weights, cost rates and fee rates in force: absent means zero. -/
def Args.prevs (a : Args K P) : List K := a.previousWeights.getD (List.replicate a.X.nAssets 0)
@[inherit_doc Args.prevs]
def Args.costRates (a : Args K P) : List K := (a.transactionCosts.getD (.scalar 0)).rates a.X.nAssets
@[inherit_doc Args.prevs]
def Args.feeRates (a : Args K P) : List K := (a.managementFees.getD (.scalar 0)).rates a.X.nAssets

omit [LinearOrder K] [FloorRing K] in
theorem shaped_iff (a : Args K P) : a.Shaped ↔ (a.weights.length = a.X.nAssets ∧ a.prevs.length = a.X.nAssets ∧
    (a.transactionCosts.getD (.scalar 0)).fits a.X.nAssets ∧ (a.managementFees.getD (.scalar 0)).fits a.X.nAssets) := by
  unfold Args.prevs
  constructor
  · rintro ⟨h1, h2, h3, h4⟩
    refine ⟨h1, ?_, ?_, ?_⟩
    · cases h : a.previousWeights with
      | none => simp
      | some v => simpa using h2 v h
    · cases h : a.transactionCosts with
      | none => rfl
      | some c => cases c with
        | scalar => rfl
        | vector v => simpa [Cost.fits] using h3 v h
    · cases h : a.managementFees with
      | none => rfl
      | some c => cases c with
        | scalar => rfl
        | vector v => simpa [Cost.fits] using h4 v h
  · rintro ⟨h1, h2, h3, h4⟩
    exact ⟨h1, fun v h => by simpa [h] using h2, fun v h => by simpa [h, Cost.fits] using h3,
      fun v h => by simpa [h, Cost.fits] using h4⟩

omit [FloorRing K] in
theorem construct_iff (a : Args K P) (p : Ptf K P) : construct a = .ok p ↔ a.Shaped ∧ ∃ xs, a.X.Holds xs ∧
    p = { X := a.X, weights := a.weights, previousWeights := a.prevs,
          transactionCosts := a.transactionCosts.getD (.scalar 0), managementFees := a.managementFees.getD (.scalar 0),
          params := a.params, name := a.name, tag := a.tag,
          totalCost := dot a.costRates (List.zipWith (fun a b => |a - b|) a.prevs a.weights),
          totalFee := dot a.feeRates a.weights,
          returns := xs.map (netReturn a.weights a.prevs a.costRates a.feeRates) } := by
  unfold construct
  simp only
  split
  · rename_i h
    have hs := (shaped_iff a).mpr h
    simp only [hs, true_and]
    unfold finish
    have e1 := totalCost_eq (a.transactionCosts.getD (.scalar 0)) a.prevs a.weights a.X.nAssets h.2.1 h.1
    have e2 := totalFee_eq (a.managementFees.getD (.scalar 0)) a.weights a.X.nAssets h.1
    have hr : ∀ r ∈ a.X.rows, r.length = a.weights.length := fun r hr => (a.X.rect r hr).trans h.1.symm
    simp only
    split
    · rename_i e he
      simp only [reduceCtorEq, false_iff]
      rintro ⟨xs, hx, -⟩
      have := (portfolioReturns_ok hr (c := totalCost (a.transactionCosts.getD (.scalar 0))
        (a.previousWeights.getD (List.replicate a.X.nAssets 0)) a.weights)
        (f := totalFee (a.managementFees.getD (.scalar 0)) a.weights)).mpr ⟨xs, hx, rfl⟩
      rw [this] at he; simp at he
    · rename_i rs he
      obtain ⟨xs, hx, rfl⟩ := (portfolioReturns_ok hr).mp he
      simp only [Except.ok.injEq]
      have e1' : totalCost (a.transactionCosts.getD (.scalar 0))
        (a.previousWeights.getD (List.replicate a.X.nAssets 0)) a.weights =
          dot a.costRates (List.zipWith (fun a b => |a - b|) a.prevs a.weights) := e1
      constructor
      · rintro rfl
        refine ⟨xs, hx, ?_⟩
        rw [e1', e2]; rfl
      · rintro ⟨ys, hy, rfl⟩
        have : xs = ys := by
          have hinj : Function.Injective (List.map (List.map (some (α := K)))) :=
            List.map_injective_iff.mpr (List.map_injective_iff.mpr (Option.some_injective K))
          exact hinj (hx.symm.trans hy)
        subst this
        rw [e1', e2]; rfl
  · rename_i h
    have hs : ¬ a.Shaped := fun hs => h ((shaped_iff a).mp hs)
    simp [hs]

omit [FloorRing K] in
/-- C24: a portfolio is built exactly if the shapes match and no return is missing; it then stores its arguments, and its
return of each period is the weighted sum of the asset returns less the transaction costs and the fees. -/
theorem C24_returns (a : Args K P) :
    ((∃ p, construct a = .ok p) ↔ a.Shaped ∧ ∃ xs, a.X.Holds xs) ∧
    ∀ p xs, construct a = .ok p → a.X.Holds xs →
      p.X = a.X ∧ p.weights = a.weights ∧ p.previousWeights = a.prevs ∧ p.params = a.params ∧ p.name = a.name ∧
      p.tag = a.tag ∧ p.returns = xs.map (netReturn a.weights a.prevs a.costRates a.feeRates) := by
  constructor
  · constructor
    · rintro ⟨p, hp⟩
      obtain ⟨hs, xs, hx, -⟩ := (construct_iff a p).mp hp
      exact ⟨hs, xs, hx⟩
    · rintro ⟨hs, xs, hx⟩
      exact ⟨_, (construct_iff a _).mpr ⟨hs, xs, hx, rfl⟩⟩
  · intro p xs hp hx
    obtain ⟨-, ys, hy, rfl⟩ := (construct_iff a p).mp hp
    have : xs = ys := by
      have hinj : Function.Injective (List.map (List.map (some (α := K)))) :=
        List.map_injective_iff.mpr (List.map_injective_iff.mpr (Option.some_injective K))
      exact hinj (hx.symm.trans hy)
    subst this
    exact ⟨rfl, rfl, rfl, rfl, rfl, rfl, rfl⟩

/-- A portfolio some call of the constructor returned. -/
def Built (p : Ptf K P) : Prop := ∃ a, construct a = .ok p

/-- `q` is `p` with the weights `w`: same data, previous weights, costs, parameters, name and tag, and the returns of a
portfolio with these weights. -/
def Reweighted (p : Ptf K P) (w : List K) (q : Ptf K P) : Prop :=
  q.weights = w ∧ q.X = p.X ∧ q.previousWeights = p.previousWeights ∧ q.transactionCosts = p.transactionCosts ∧
  q.managementFees = p.managementFees ∧ q.params = p.params ∧ q.name = p.name ∧ q.tag = p.tag ∧
  ∀ xs, p.X.Holds xs → q.returns = xs.map (netReturn w p.previousWeights (p.transactionCosts.rates p.X.nAssets)
    (p.managementFees.rates p.X.nAssets))

omit [FloorRing K] in
theorem Built.facts {p : Ptf K P} (hp : Built p) :
    p.args.Shaped ∧ (∃ xs, p.X.Holds xs) ∧ Reweighted p p.weights p ∧
    p.totalCost = dot (p.transactionCosts.rates p.X.nAssets)
      (List.zipWith (fun a b => |a - b|) p.previousWeights p.weights) ∧
    p.totalFee = dot (p.managementFees.rates p.X.nAssets) p.weights := by
  obtain ⟨a, ha⟩ := hp
  obtain ⟨hs, xs, hx, rfl⟩ := (construct_iff a p).mp ha
  have h4 := (shaped_iff a).mp hs
  refine ⟨?_, ⟨xs, hx⟩, ⟨rfl, rfl, rfl, rfl, rfl, rfl, rfl, rfl, ?_⟩, rfl, rfl⟩
  · exact (shaped_iff _).mpr h4
  · intro ys hy
    have : xs = ys := by
      have hinj : Function.Injective (List.map (List.map (some (α := K)))) :=
        List.map_injective_iff.mpr (List.map_injective_iff.mpr (Option.some_injective K))
      exact hinj (hx.symm.trans hy)
    subst this
    rfl

omit [FloorRing K] in
theorem withWeights_ok {p : Ptf K P} (hp : Built p) (w : List K) (hw : w.length = p.weights.length) :
    ∃ q, p.withWeights w = .ok q ∧ Built q ∧ Reweighted p w q := by
  obtain ⟨hs, ⟨xs, hx⟩, -, -, -⟩ := hp.facts
  have hs' : ({ p.args with weights := w } : Args K P).Shaped := ⟨hw.trans hs.1, hs.2, hs.3, hs.4⟩
  have hx' : ({ p.args with weights := w } : Args K P).X.Holds xs := hx
  have := (construct_iff ({ p.args with weights := w } : Args K P) _).mpr ⟨hs', xs, hx', rfl⟩
  refine ⟨_, this, ⟨_, this⟩, rfl, rfl, rfl, rfl, rfl, rfl, rfl, rfl, ?_⟩
  intro ys hy
  have : xs = ys := by
    have hinj : Function.Injective (List.map (List.map (some (α := K)))) :=
      List.map_injective_iff.mpr (List.map_injective_iff.mpr (Option.some_injective K))
    exact hinj (hx.symm.trans hy)
  subst this
  rfl

omit [FloorRing K] in
/-- C24: negation, absolute value and scaling of a portfolio always succeed and give the portfolio with the
weights negated, made absolute, multiplied or divided, all else kept. -/
theorem C24_scaling (p : Ptf K P) (hp : Built p) (c : K) :
    (∃ q, p.neg = .ok q ∧ Built q ∧ Reweighted p (p.weights.map (- ·)) q) ∧
    (∃ q, p.abs = .ok q ∧ Built q ∧ Reweighted p (p.weights.map fun x => |x|) q) ∧
    (∃ q, p.mul c = .ok q ∧ Built q ∧ Reweighted p (p.weights.map (c * ·)) q) ∧
    (c ≠ 0 → ∃ q, p.truediv c = .ok q ∧ Built q ∧ Reweighted p (p.weights.map (· / c)) q) :=
  ⟨withWeights_ok hp _ (by simp), withWeights_ok hp _ (by simp), withWeights_ok hp _ (by simp),
    fun _ => withWeights_ok hp _ (by simp)⟩

section round
variable [IsStrictOrderedRing K]

/-- `rint` is a nearest integer, and the even one of two. -/
theorem rint_spec (x : K) : |(rint x : K) - x| ≤ 1 / 2 ∧ (|(rint x : K) - x| = 1 / 2 → rint x % 2 = 0) := by
  have h1 := Int.floor_le x
  have h2 := Int.lt_floor_add_one x
  simp only [rint]
  split
  · rename_i h
    rw [abs_sub_comm, abs_of_nonneg (by linarith)]
    exact ⟨h.le, fun h' => absurd h' h.ne⟩
  · split
    · rename_i h
      push_cast
      rw [abs_of_nonneg (by linarith)]
      exact ⟨by linarith, fun h' => absurd h' (by linarith)⟩
    · rename_i h3 h4
      have he : x - ⌊x⌋ = 1 / 2 := le_antisymm (not_lt.mp h4) (not_lt.mp h3)
      split
      · rename_i h5
        rw [abs_sub_comm, he, abs_of_nonneg (by norm_num)]
        exact ⟨le_refl _, fun _ => h5⟩
      · rename_i h5
        push_cast
        have : (⌊x⌋ : K) + 1 - x = 1 / 2 := by linarith
        rw [this, abs_of_nonneg (by norm_num)]
        exact ⟨le_refl _, fun _ => by omega⟩

/-- C24: rounding and floor division replace every weight by a multiple of `10⁻ⁿ` at distance at most half of that, respectively by the
integer below the quotient; all else is kept. -/
theorem C24_rounding (p : Ptf K P) (hp : Built p) (n : ℕ) (c : K) :
    (∃ q w, p.round n = .ok q ∧ Built q ∧ Reweighted p w q ∧
      List.Forall₂ (fun x y => (∃ k : ℤ, y = (k : K) / 10 ^ n) ∧ |y - x| ≤ 1 / 2 / 10 ^ n) p.weights w) ∧
    (c ≠ 0 → ∃ q w, p.floordiv c = .ok q ∧ Built q ∧ Reweighted p w q ∧
      List.Forall₂ (fun x y => (∃ k : ℤ, y = (k : K)) ∧ y ≤ x / c ∧ x / c < y + 1) p.weights w) := by
  constructor
  · obtain ⟨q, h1, h2, h3⟩ := withWeights_ok hp (p.weights.map fun x => (rint (x * 10 ^ n) : K) / 10 ^ n) (by simp)
    refine ⟨q, _, h1, h2, h3, ?_⟩
    rw [List.forall₂_map_right_iff]
    refine List.forall₂_same.mpr fun x _ => ⟨⟨_, rfl⟩, ?_⟩
    have hpos : (0 : K) < 10 ^ n := by positivity
    have : (rint (x * 10 ^ n) : K) / 10 ^ n - x = ((rint (x * 10 ^ n) : K) - x * 10 ^ n) / 10 ^ n := by
      field_simp
    rw [this, abs_div, abs_of_pos hpos]
    exact div_le_div_of_nonneg_right (rint_spec _).1 hpos.le
  · intro _
    obtain ⟨q, h1, h2, h3⟩ := withWeights_ok hp (p.weights.map fun x => (⌊x / c⌋ : K)) (by simp)
    refine ⟨q, _, h1, h2, h3, ?_⟩
    rw [List.forall₂_map_right_iff]
    exact List.forall₂_same.mpr fun x _ => ⟨⟨_, rfl⟩, Int.floor_le _, Int.lt_floor_add_one _⟩

end round

/-- Two portfolios agree in everything that enters the returns and measures, except the weights. -/
def Compatible (p q : Ptf K P) : Prop :=
  p.X = q.X ∧ p.previousWeights = q.previousWeights ∧ p.transactionCosts = q.transactionCosts ∧
  p.managementFees = q.managementFees ∧ p.params = q.params

omit [FloorRing K] in
/-- C24: portfolios are added and subtracted exactly if they agree in everything but weights, name and tag; the result is the left operand with
the weights added or subtracted. -/
theorem C24_sum [DecidableEq P] (p q : Ptf K P) (hp : Built p) (hq : Built q) :
    (Compatible p q → (∃ r, p.add q = .ok r ∧ Built r ∧ Reweighted p (List.zipWith (· + ·) p.weights q.weights) r) ∧
      ∃ r, p.sub q = .ok r ∧ Built r ∧ Reweighted p (List.zipWith (· - ·) p.weights q.weights) r) ∧
    (¬ Compatible p q → p.add q = .error .valueError ∧ p.sub q = .error .valueError) := by
  have hc : p.compatible q = true ↔ Compatible p q := by
    simp only [Ptf.compatible, Bool.and_eq_true, decide_eq_true_eq, Compatible, and_assoc]
  constructor
  · intro h
    have hl : p.weights.length = q.weights.length := by
      have h1 := hp.facts.1.weights
      have h2 := hq.facts.1.weights
      have h3 : p.args.X = q.args.X := h.1
      exact h1.trans (h3 ▸ h2.symm)
    unfold Ptf.add Ptf.sub
    rw [if_pos (hc.mpr h), if_pos (hc.mpr h)]
    exact ⟨withWeights_ok hp _ (by simp [hl]), withWeights_ok hp _ (by simp [hl])⟩
  · intro h
    have : ¬ p.compatible q = true := fun h' => h (hc.mp h')
    unfold Ptf.add Ptf.sub
    rw [if_neg this, if_neg this]
    exact ⟨rfl, rfl⟩

section linear

omit [LinearOrder K] [FloorRing K] in
theorem dot_comm (a b : List K) : dot a b = dot b a := by
  unfold dot
  rw [List.zipWith_comm]
  congr 2
  funext x y
  exact mul_comm _ _

omit [LinearOrder K] [FloorRing K] in
theorem dot_add (w v x : List K) (h : w.length = v.length) :
    dot (List.zipWith (· + ·) w v) x = dot w x + dot v x := by
  induction w generalizing v x with
  | nil => cases v with
    | nil => simp [dot]
    | cons => simp at h
  | cons a w ih =>
    cases v with
    | nil => simp at h
    | cons b v => cases x with
      | nil => simp [dot]
      | cons c x =>
        have := ih v x (by simpa using h)
        simp only [dot] at this ⊢
        simp only [List.zipWith_cons_cons, List.sum_cons, this]
        ring

omit [LinearOrder K] [FloorRing K] in
theorem dot_smul (c : K) (w x : List K) : dot (w.map (c * ·)) x = c * dot w x := by
  induction w generalizing x with
  | nil => simp [dot]
  | cons a w ih => cases x with
    | nil => simp [dot]
    | cons b x =>
      have := ih x
      simp only [dot] at this ⊢
      simp only [List.map_cons, List.zipWith_cons_cons, List.sum_cons, this]
      ring

omit [FloorRing K] in
/-- C24: without transaction costs the returns of a sum are the sums of the returns, and the returns of a multiple are the
multiples of the returns (management fees are allowed). -/
theorem C24_linear [DecidableEq P] (p q r s : Ptf K P) (hp : Built p) (hq : Built q)
    (h0 : p.transactionCosts = .scalar 0) (c : K) (hr : p.add q = .ok r) (hs : p.mul c = .ok s) :
    r.returns = List.zipWith (· + ·) p.returns q.returns ∧ s.returns = p.returns.map (c * ·) := by
  obtain ⟨hsh, ⟨xs, hx⟩, hrw, -, -⟩ := hp.facts
  have hcomp : Compatible p q := by
    by_contra h
    rw [((C24_sum p q hp hq).2 h).1] at hr; simp at hr
  obtain ⟨⟨r', hr', -, hR⟩, -⟩ := (C24_sum p q hp hq).1 hcomp
  rw [hr] at hr'
  simp only [Except.ok.injEq] at hr'
  subst hr'
  obtain ⟨-, -, ⟨s', hs', -, hS⟩, -⟩ := C24_scaling p hp c
  rw [hs] at hs'
  simp only [Except.ok.injEq] at hs'
  subst hs'
  obtain ⟨hX, hprev, htc, hmf, -⟩ := hcomp
  have hl : p.weights.length = q.weights.length := by
    have h1 := hp.facts.1.weights
    have h2 := hq.facts.1.weights
    have h3 : p.args.X = q.args.X := hX
    exact h1.trans (h3 ▸ h2.symm)
  have e1 := hrw.2.2.2.2.2.2.2.2 xs hx
  have e2 := hq.facts.2.2.1.2.2.2.2.2.2.2.2 xs (hX ▸ hx)
  rw [← htc, ← hmf, ← hX] at e2
  have e3 := hR.2.2.2.2.2.2.2.2 xs hx
  have e4 := hS.2.2.2.2.2.2.2.2 xs hx
  have hnet : ∀ w prev x : List K, netReturn w prev (p.transactionCosts.rates p.X.nAssets)
      (p.managementFees.rates p.X.nAssets) x = dot w x - dot w (p.managementFees.rates p.X.nAssets) := by
    intro w prev x
    unfold netReturn
    rw [h0, Cost.rates, dot_zero, dot_comm _ w, sub_zero]
  constructor
  · rw [e1, e2, e3]
    have : ∀ f g : List K → K, List.zipWith (· + ·) (xs.map f) (xs.map g) = xs.map fun x => f x + g x := by
      intro f g
      induction xs with
      | nil => rfl
      | cons x xs ih => simp [List.zipWith_map] 
    rw [this]
    apply List.map_congr_left
    intro x _
    rw [hnet, hnet, hnet, dot_add _ _ _ hl, dot_add _ _ _ hl]
    ring
  · rw [e1, e4, List.map_map]
    apply List.map_congr_left
    intro x _
    simp only [Function.comp_apply]
    rw [hnet, hnet, dot_smul, dot_smul]
    ring

end linear

/-! ### Contributions -/

section contribution
open Skfolio.Measures

omit [FloorRing K] [LinearOrder K] in
theorem dot_modify (w x : List K) (i : ℕ) (h : K) (hi : i < w.length) :
    dot (w.modify i (· + h)) x = dot w x + h * x.getD i 0 := by
  induction w generalizing x i with
  | nil => simp at hi
  | cons a w ih =>
    cases x with
    | nil => simp [dot]
    | cons b x =>
      cases i with
      | zero =>
        simp only [dot, List.modify_zero_cons, List.zipWith_cons_cons, List.sum_cons, List.getD_cons_zero]
        ring
      | succ i =>
        have := ih x i (by simpa using hi)
        simp only [dot] at this ⊢
        simp only [List.modify_succ_cons, List.zipWith_cons_cons, List.sum_cons, List.getD_cons_succ, this]
        ring

omit [FloorRing K] [LinearOrder K] in
theorem dot_zipIdx (w x : List K) (k : ℕ) :
    ((w.zipIdx k).map fun p => p.1 * x.getD p.2 0).sum = dot w (x.drop k) := by
  induction w generalizing k with
  | nil => simp [dot]
  | cons a w ih =>
    simp only [List.zipIdx_cons, List.map_cons, List.sum_cons, ih (k + 1)]
    by_cases hk : k < x.length
    · rw [List.drop_eq_getElem_cons hk, List.getD_eq_getElem _ _ hk]
      simp only [dot, List.zipWith_cons_cons, List.sum_cons]
    · rw [List.drop_eq_nil_of_le (by omega), List.drop_eq_nil_of_le (by omega), List.getD_eq_default _ _ (by omega)]
      simp [dot]

omit [FloorRing K] [LinearOrder K] in
theorem sum_sub {α : Type} (L : List α) (f g : α → K) :
    (L.map fun p => f p - g p).sum = (L.map f).sum - (L.map g).sum := by
  induction L with
  | nil => simp
  | cons p L ih => simp only [List.map_cons, List.sum_cons, ih]; ring

omit [FloorRing K] [LinearOrder K] in
theorem sum_swap {α β : Type} (L : List α) (xs : List β) (g : α → β → K) :
    (L.map fun p => (xs.map (g p)).sum).sum = (xs.map fun x => (L.map fun p => g p x).sum).sum := by
  induction L with
  | nil => simp
  | cons p L ih => simp only [List.map_cons, List.sum_cons, ih, List.sum_map_add]

omit [FloorRing K] in
/-- The loop, given the value of each entry. -/
theorem contributionLoop_ok (args : Args K P) (w : List K) (m : Ptf K P → K) (h : K) (drop : Bool) (G : ℕ → K → K)
    (ws : List K) (k : ℕ)
    (hG : ∀ j x, ws[j]? = some x → x ≠ 0 → contributionAt args w m h (k + j) x = .ok (G (k + j) x))
    (h0 : ∀ i, G i 0 = 0) :
    contributionLoop args w m h drop k ws =
      .ok (((ws.zipIdx k).filter fun p => !drop || decide (p.1 ≠ 0)).map fun p => (p.2, G p.2 p.1)) := by
  induction ws generalizing k with
  | nil => rfl
  | cons x ws ih =>
    have ih' := ih (k + 1) fun j y hy hne => by
      have := hG (j + 1) y (by simpa using hy) hne
      rwa [show k + (j + 1) = k + 1 + j by omega] at this
    simp only [contributionLoop, ih']
    by_cases hx : x = 0
    · subst hx
      rw [if_pos rfl]
      cases drop <;> simp [List.zipIdx_cons, h0]
    · rw [if_neg hx]
      have := hG 0 x (by simp) hx
      rw [Nat.add_zero] at this
      simp [this, List.zipIdx_cons, hx]

omit [FloorRing K] [LinearOrder K] in
/-- Dropping the zero weights does not change the sum. -/
theorem contribution_sum [DecidableEq K] (drop : Bool) (G : ℕ → K → K) (h0 : ∀ i, G i 0 = 0) (L : List (K × ℕ)) :
    (((L.filter fun p => !drop || decide (p.1 ≠ 0)).map fun p => (p.2, G p.2 p.1)).map Prod.snd).sum =
      (L.map fun p => G p.2 p.1).sum := by
  induction L with
  | nil => rfl
  | cons p L ih =>
    rw [List.filter_cons]
    split
    · simp only [List.map_cons, List.sum_cons, ih]
    · rename_i hp
      have : p.1 = 0 := by
        by_contra hne; exact hp (by simp [hne])
      simp only [List.map_cons, List.sum_cons, ih, this, h0, zero_add]

/-- The return in one period of one unit of asset `i`, net of its fee rate. -/
def unitReturn (f : List K) (i : ℕ) (x : List K) : K := x.getD i 0 - f.getD i 0

omit [FloorRing K] in
theorem getRisk_eq {p : Ptf K P} (hp : Built p) (h0 : p.transactionCosts = .scalar 0) {xs : List (List K)}
    (hx : p.X.Holds xs) (m : List K → K) (i : ℕ) (hi : i < p.weights.length) (h : K) :
    getRisk p.args p.weights (fun q => m q.returns) i h = .ok (m (xs.map fun x =>
      netReturn p.weights p.previousWeights (p.transactionCosts.rates p.X.nAssets)
        (p.managementFees.rates p.X.nAssets) x + h * unitReturn (p.managementFees.rates p.X.nAssets) i x)) := by
  obtain ⟨q, hq, -, hR⟩ := withWeights_ok hp (p.weights.modify i (· + h)) (by simp)
  unfold getRisk
  have : construct { p.args with weights := p.weights.modify i (· + h) } = .ok q := hq
  rw [this]
  simp only [Except.ok.injEq]
  rw [hR.2.2.2.2.2.2.2.2 xs hx]
  congr 1
  apply List.map_congr_left
  intro x _
  unfold netReturn unitReturn
  rw [h0, Cost.rates, dot_zero, dot_zero, dot_modify _ _ _ _ hi, dot_comm _ (p.weights.modify i (· + h)),
    dot_modify _ _ _ _ hi, dot_comm _ p.weights]
  ring

omit [FloorRing K] [LinearOrder K] in
theorem mean_add_smul {α : Type} (xs : List α) (f g : α → K) (h : K) :
    mean (xs.map fun x => f x + h * g x) = mean (xs.map f) + h * mean (xs.map g) := by
  unfold mean
  rw [List.sum_map_add, List.sum_map_mul_left]
  simp only [List.length_map]
  ring

omit [FloorRing K] in
/-- The sum of weights times unit returns is the return of the portfolio (no transaction costs). -/
theorem units_sum {p : Ptf K P} (h0 : p.transactionCosts = .scalar 0) (x : List K) :
    ((p.weights.zipIdx).map fun q => q.1 * unitReturn (p.managementFees.rates p.X.nAssets) q.2 x).sum =
      netReturn p.weights p.previousWeights (p.transactionCosts.rates p.X.nAssets)
        (p.managementFees.rates p.X.nAssets) x := by
  unfold unitReturn netReturn
  rw [h0, Cost.rates, dot_zero, sub_zero, dot_comm _ p.weights]
  simp only [mul_sub]
  rw [sum_sub, dot_zipIdx, dot_zipIdx]
  simp

omit [FloorRing K] in
theorem units_mean {p : Ptf K P} (h0 : p.transactionCosts = .scalar 0) (xs : List (List K)) :
    ((p.weights.zipIdx).map fun q => mean (xs.map (unitReturn (p.managementFees.rates p.X.nAssets) q.2)) * q.1).sum =
      mean (xs.map (netReturn p.weights p.previousWeights (p.transactionCosts.rates p.X.nAssets)
        (p.managementFees.rates p.X.nAssets))) := by
  have e : (fun q : K × ℕ => mean (xs.map (unitReturn (p.managementFees.rates p.X.nAssets) q.2)) * q.1) =
      fun q => (xs.map fun x => q.1 * unitReturn (p.managementFees.rates p.X.nAssets) q.2 x).sum * (1 / (xs.length : K)) := by
    funext q
    unfold mean
    rw [List.sum_map_mul_left, List.length_map]
    ring
  rw [e, List.sum_map_mul_right, sum_swap]
  simp only [units_sum h0]
  unfold mean
  rw [List.length_map]
  ring

/-- The sample covariance of two series. -/
def covariance (r u : List K) : K :=
  (List.zipWith (fun a b => (a - mean r) * (b - mean u)) r u).sum / ((r.length : K) - 1)

omit [FloorRing K] [LinearOrder K] in
theorem covariance_map {α : Type} (xs : List α) (f g : α → K) :
    covariance (xs.map f) (xs.map g) =
      (xs.map fun x => (f x - mean (xs.map f)) * (g x - mean (xs.map g))).sum / ((xs.length : K) - 1) := by
  unfold covariance
  rw [List.zipWith_map, List.length_map]
  congr 2
  generalize mean (xs.map f) = a
  generalize mean (xs.map g) = b
  induction xs with
  | nil => rfl
  | cons x xs ih => simp

omit [FloorRing K] [LinearOrder K] in
theorem variance_diff {α : Type} (xs : List α) (f g : α → K) (h : K) :
    variance (xs.map fun x => f x + h * g x) - variance (xs.map fun x => f x + -h * g x) =
      4 * h * covariance (xs.map f) (xs.map g) := by
  rw [covariance_map]
  unfold variance
  rw [mean_add_smul, mean_add_smul]
  simp only [List.length_map, List.map_map]
  rw [← sub_div, ← sum_sub, ← mul_div_assoc, ← List.sum_map_mul_left]
  congr 3
  funext x
  simp only [Function.comp_apply]
  ring

omit [FloorRing K] in
/-- C48: the contributions to the mean return, whatever the spacing, are the weights times the mean net returns of the assets; they add up to the mean
return of the portfolio.  With `drop` the assets of weight zero are left out, without it they contribute zero. -/
theorem C48_mean [IsStrictOrderedRing K] (p : Ptf K P) (hp : Built p) (h0 : p.transactionCosts = .scalar 0) (h : K) (hh : h ≠ 0) (drop : Bool)
    (xs : List (List K)) (hx : p.X.Holds xs) :
    ∃ cs, p.contribution (fun q => mean q.returns) h drop = .ok cs ∧
      cs = ((p.weights.zipIdx.filter fun q => !drop || decide (q.1 ≠ 0)).map fun q =>
        (q.2, mean (xs.map (unitReturn (p.managementFees.rates p.X.nAssets) q.2)) * q.1)) ∧
      (cs.map Prod.snd).sum = mean p.returns := by
  have hloop := contributionLoop_ok p.args p.weights (fun q => mean q.returns) h drop
    (fun i x => mean (xs.map (unitReturn (p.managementFees.rates p.X.nAssets) i)) * x) p.weights 0 ?_ (by simp)
  · refine ⟨_, hloop, rfl, ?_⟩
    rw [contribution_sum drop (fun i x => mean (xs.map (unitReturn (p.managementFees.rates p.X.nAssets) i)) * x) (by simp),
      hp.facts.2.2.1.2.2.2.2.2.2.2.2 xs hx]
    exact units_mean h0 xs
  · intro j x hj hx0
    have hlt : j < p.weights.length := by
      by_contra hcon
      rw [List.getElem?_eq_none (by omega)] at hj; simp at hj
    unfold contributionAt
    rw [Nat.zero_add, getRisk_eq hp h0 hx mean j hlt, getRisk_eq hp h0 hx mean j hlt]
    simp only [Except.ok.injEq]
    rw [mean_add_smul, mean_add_smul]
    field_simp
    ring

omit [FloorRing K] in
/-- C48: the contributions to the variance, whatever the spacing, are the weights times twice the covariances of the assets'
net returns with the portfolio's; they add up to twice the variance of the portfolio. -/
theorem C48_variance [IsStrictOrderedRing K] (p : Ptf K P) (hp : Built p) (h0 : p.transactionCosts = .scalar 0) (h : K) (hh : h ≠ 0) (drop : Bool)
    (xs : List (List K)) (hx : p.X.Holds xs) :
    ∃ cs, p.contribution (fun q => variance q.returns) h drop = .ok cs ∧
      cs = ((p.weights.zipIdx.filter fun q => !drop || decide (q.1 ≠ 0)).map fun q =>
        (q.2, 2 * covariance p.returns (xs.map (unitReturn (p.managementFees.rates p.X.nAssets) q.2)) * q.1)) ∧
      (cs.map Prod.snd).sum = 2 * variance p.returns := by
  have hret := hp.facts.2.2.1.2.2.2.2.2.2.2.2 xs hx
  have hloop := contributionLoop_ok p.args p.weights (fun q => variance q.returns) h drop
    (fun i x => 2 * covariance p.returns (xs.map (unitReturn (p.managementFees.rates p.X.nAssets) i)) * x)
    p.weights 0 ?_ (by simp)
  · refine ⟨_, hloop, rfl, ?_⟩
    rw [contribution_sum drop
      (fun i x => 2 * covariance p.returns (xs.map (unitReturn (p.managementFees.rates p.X.nAssets) i)) * x) (by simp)]
    set ρ := netReturn p.weights p.previousWeights (p.transactionCosts.rates p.X.nAssets)
      (p.managementFees.rates p.X.nAssets) with hρ
    set u := unitReturn (p.managementFees.rates p.X.nAssets) with hu
    have e : (fun q : K × ℕ => 2 * covariance p.returns (xs.map (u q.2)) * q.1) =
        fun q => (xs.map fun x => (ρ x - mean (xs.map ρ)) * (q.1 * u q.2 x - mean (xs.map (u q.2)) * q.1)).sum *
          (2 / ((xs.length : K) - 1)) := by
      funext q
      rw [hret, covariance_map, div_eq_mul_inv, div_eq_mul_inv]
      rw [show ∀ a b : K, 2 * (a * b) * q.1 = a * q.1 * (2 * b) from fun a b => by ring, ← List.sum_map_mul_right]
      congr 3
      funext x
      ring
    rw [e, List.sum_map_mul_right, sum_swap, hret]
    have e2 : ∀ x, ((p.weights.zipIdx).map fun q =>
        (ρ x - mean (xs.map ρ)) * (q.1 * u q.2 x - mean (xs.map (u q.2)) * q.1)).sum = (ρ x - mean (xs.map ρ)) ^ 2 := by
      intro x
      rw [List.sum_map_mul_left, sum_sub, units_sum h0, units_mean h0]
      ring
    simp only [e2]
    unfold variance
    rw [List.map_map, List.length_map]
    simp only [Function.comp_def]
    ring
  · intro j x hj hx0
    have hlt : j < p.weights.length := by
      by_contra hcon
      rw [List.getElem?_eq_none (by omega)] at hj; simp at hj
    unfold contributionAt
    rw [Nat.zero_add, getRisk_eq hp h0 hx variance j hlt, getRisk_eq hp h0 hx variance j hlt]
    simp only [Except.ok.injEq]
    rw [variance_diff, hret]
    field_simp
    ring

end contribution

/-! ### Instances and findings -/

/-- Three periods of two assets. -/
def panel3 : Panel ℚ := ⟨2, [[some 1, some 2], [some 3, some 0], [some (-1), some 1]], by decide⟩

/-- A portfolio with both a transaction cost and a management fee. -/
def costly (w : List ℚ) : Args ℚ Unit :=
  { X := panel3, weights := w, previousWeights := some [1 / 2, 1 / 2], transactionCosts := some (.scalar (1 / 10)),
    managementFees := some (.vector [1 / 10, 0]), params := (), name := "p", tag := "" }

/-- One without transaction costs. -/
def cheap (w : List ℚ) : Args ℚ Unit := { costly w with transactionCosts := none }

example : (construct (costly [1, 0])).map Ptf.returns = .ok [4 / 5, 14 / 5, -6 / 5] := by decide +kernel

/-- The hypotheses of `C24_linear`, `C48_mean` and `C48_variance` are met. -/
example : ∃ p : Ptf ℚ Unit, Built p ∧ p.transactionCosts = .scalar 0 ∧ (∃ xs, p.X.Holds xs) ∧ p.returns = [29 / 20, 29 / 20, -1 / 20] :=
  match h : construct (cheap [1 / 2, 1 / 2]) with
  | .ok p => ⟨p, ⟨_, h⟩, by
      have : (construct (cheap [1 / 2, 1 / 2])).map Ptf.transactionCosts = .ok (.scalar 0) := by decide +kernel
      rw [h] at this; simpa [Except.map] using this, (Built.facts ⟨_, h⟩).2.1, by
      have : (construct (cheap [1 / 2, 1 / 2])).map Ptf.returns = .ok [29 / 20, 29 / 20, -1 / 20] := by decide +kernel
      rw [h] at this; simpa [Except.map] using this⟩
  | .error _ => by
      have : (construct (cheap [1 / 2, 1 / 2])).isOk = true := by decide +kernel
      rw [h] at this; simp [Except.isOk, Except.toBool] at this

/-- A missing return is rejected also for an asset of weight zero. -/
example : construct ({ costly [1, 0] with X := ⟨2, [[some 1, none]], by decide⟩ } : Args ℚ Unit) = .error .valueError := by
  decide +kernel

/-- C24, finding: with transaction costs returns are not linear, since every operand and the result pay for the trade from the
same previous weights: the returns of `p + p` (second) are not twice those of `p` (first). -/
theorem C24_not_linear_with_costs :
    ((construct (costly [1 / 2, 1 / 2])).bind fun p => (p.add p).map fun r => (p.returns, r.returns)) =
      .ok ([29 / 20, 29 / 20, -1 / 20], [14 / 5, 14 / 5, -1 / 5]) := by
  decide +kernel

end Skfolio.Portfolio.Arith
