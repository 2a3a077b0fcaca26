import Verif.Portfolio.MultiModel
import Mathlib.Order.Basic
import Mathlib.Order.Nat
import Mathlib.Data.List.GetD
import Mathlib.Data.List.Chain
import Mathlib.Algebra.Group.Int.Defs
import Mathlib.Algebra.Group.Basic

/-!
# MultiPeriodPortfolio is the concatenation of its portfolios: the claims
-/

set_option autoImplicit false

namespace Skfolio.Portfolio.Multi

variable {D K : Type} [LinearOrder D]

/-! ### Specification -/

/-- The list of portfolios object `o` refers to. -/
def World.items (w : World D K) (o : Mpp D K) : List (Item D K) := w.heap.getD o.ref []

/-- The object is the concatenation of its portfolios. -/
def Concatenated (items : List (Item D K)) (o : Mpp D K) : Prop :=
  ∃ ps : List (Ptf D K), items = ps.map .ptf ∧ o.obs = ps.flatMap Ptf.obs ∧ o.rets = ps.flatMap Ptf.rets

/-- Consecutive portfolios do not overlap: each starts strictly after the previous one has ended. -/
def Ordered (items : List (Item D K)) : Prop :=
  ∀ (i : ℕ) (p q : Ptf D K), items[i]? = some (.ptf p) → items[i + 1]? = some (.ptf q) →
    ∃ a b, p.obs.getLast? = some a ∧ q.obs.head? = some b ∧ a < b

/-- As `Ordered`, but the first date of a portfolio may be the last date of the previous one. -/
def WeaklyOrdered (items : List (Item D K)) : Prop :=
  ∀ (i : ℕ) (p q : Ptf D K), items[i]? = some (.ptf p) → items[i + 1]? = some (.ptf q) →
    ∃ a b, p.obs.getLast? = some a ∧ q.obs.head? = some b ∧ a ≤ b

/-- Operations that do not share a list between two holders and append only portfolios. -/
def Op.Private : Op D K → Prop
  | .construct (.share _) _ => False
  | .setPortfolios _ (.share _) => False
  | .append _ .other => False
  | .copy _ => False
  | .listAppend _ _ => False
  | _ => True

/-! ### Proofs -/

omit [LinearOrder D] in
theorem portfoliosOf_ok {items : List (Item D K)} {ps : List (Ptf D K)} (h : portfoliosOf items = .ok ps) :
    items = ps.map .ptf := by
  induction items generalizing ps with
  | nil => simp only [portfoliosOf, Except.ok.injEq] at h; subst h; rfl
  | cons a items ih =>
    cases a with
    | other => simp [portfoliosOf] at h
    | ptf p =>
      simp only [portfoliosOf] at h
      split at h
      · rename_i ps' e
        simp only [Except.ok.injEq] at h
        subst h
        rw [ih e]; rfl
      · simp at h

omit [LinearOrder D] in
theorem portfoliosOf_map (ps : List (Ptf D K)) : portfoliosOf (ps.map .ptf) = .ok ps := by
  induction ps with
  | nil => rfl
  | cons p ps ih => simp [portfoliosOf, ih]

/-- Strict order of consecutive portfolios, as a relation. -/
def Before (p q : Ptf D K) : Prop := ∃ a b, p.obs.getLast? = some a ∧ q.obs.head? = some b ∧ a < b

theorem checkOrder_ok {prev : Ptf D K} {ps : List (Ptf D K)} (h : checkOrder prev ps = .ok ()) :
    List.IsChain Before (prev :: ps) := by
  induction ps generalizing prev with
  | nil => exact .singleton _
  | cons p ps ih =>
    simp only [checkOrder] at h
    split at h
    · rename_i a b h1 h2
      split at h
      · simp at h
      · rename_i hab
        exact .cons_cons ⟨b, a, h2, h1, not_le.mp hab⟩ (ih h)
    · simp at h

theorem ordered_of_chain {ps : List (Ptf D K)} (h : List.IsChain Before ps) : Ordered (ps.map .ptf) := by
  intro i p q h1 h2
  simp only [List.getElem?_map] at h1 h2
  cases e1 : ps[i]? with
  | none => simp [e1] at h1
  | some p' =>
    cases e2 : ps[i + 1]? with
    | none => simp [e2] at h2
    | some q' =>
      simp only [e1, e2, Option.map_some, Option.some.injEq, Item.ptf.injEq] at h1 h2
      subst h1 h2
      have hi : i + 1 < ps.length := by
        by_contra hc
        rw [List.getElem?_eq_none (by omega)] at e2; simp at e2
      have := (List.isChain_iff_getElem.mp h) i hi
      rw [List.getElem?_eq_getElem (by omega), Option.some.injEq] at e1
      rw [List.getElem?_eq_getElem hi, Option.some.injEq] at e2
      rw [e1, e2] at this
      exact this

theorem setPortfolios_ok {h : List (List (Item D K))} {o o' : Mpp D K} {ref : ℕ}
    (hs : setPortfolios h o ref = .ok o') :
    o'.ref = ref ∧ o'.check = o.check ∧ Concatenated (h.getD ref []) o' ∧
      (o.check = true → Ordered (h.getD ref [])) := by
  unfold setPortfolios at hs
  split at hs
  · simp at hs
  · rename_i e
    simp only [Except.ok.injEq] at hs
    subst hs
    have := portfoliosOf_ok e
    exact ⟨rfl, rfl, ⟨[], this, rfl, rfl⟩, fun _ => by rw [this]; intro i p q h; simp at h⟩
  · rename_i p ps e
    have hit := portfoliosOf_ok e
    split at hs
    · simp at hs
    · rename_i hc
      simp only [Except.ok.injEq] at hs
      subst hs
      refine ⟨rfl, rfl, ⟨p :: ps, hit, ?_, ?_⟩, fun hcheck => ?_⟩
      · rw [List.flatMap_def]
      · rw [List.flatMap_def]
      · rw [if_pos hcheck] at hc
        rw [hit]
        exact ordered_of_chain (checkOrder_ok hc)

/-- The invariant of private histories. -/
structure WInv (w : World D K) : Prop where
  bound : ∀ (i : ℕ) (o : Mpp D K), w.objs[i]? = some o → o.ref < w.heap.length
  distinct : ∀ (i j : ℕ) (o o' : Mpp D K), w.objs[i]? = some o → w.objs[j]? = some o' → o.ref = o'.ref → i = j
  concat : ∀ (i : ℕ) (o : Mpp D K), w.objs[i]? = some o → Concatenated (w.items o) o
  weak : ∀ (i : ℕ) (o : Mpp D K), w.objs[i]? = some o → o.check = true → WeaklyOrdered (w.items o)

theorem Ordered.weak {items : List (Item D K)} (h : Ordered items) : WeaklyOrdered items := by
  intro i p q h1 h2
  obtain ⟨a, b, x, y, z⟩ := h i p q h1 h2
  exact ⟨a, b, x, y, z.le⟩

omit [LinearOrder D] in
theorem items_alloc {w : World D K} {o : Mpp D K} (l : List (Item D K)) (h : o.ref < w.heap.length) :
    (w.alloc l).items o = w.items o := by
  unfold World.items World.alloc
  rw [List.getD_append _ _ _ _ h]

omit [LinearOrder D] in
theorem getD_alloc (w : World D K) (l : List (Item D K)) : (w.alloc l).heap.getD w.heap.length [] = l := by
  unfold World.alloc
  simp [List.getD]

theorem inv_alloc {w : World D K} (hi : WInv w) (l : List (Item D K)) : WInv (w.alloc l) := by
  refine ⟨?_, hi.distinct, ?_, ?_⟩
  · intro i o h
    have := hi.bound i o h
    simp only [World.alloc, List.length_append]; omega
  · intro i o h
    rw [items_alloc l (hi.bound i o h)]
    exact hi.concat i o h
  · intro i o h hc
    rw [items_alloc l (hi.bound i o h)]
    exact hi.weak i o h hc

/-- Assigning a freshly allocated list to an object. -/
theorem inv_assign {w : World D K} (hi : WInv w) (l : List (Item D K)) (i : ℕ) (o : Mpp D K)
    (ho : w.objs[i]? = some o) : WInv ((w.alloc l).assign i o w.heap.length).1 := by
  unfold World.assign
  split
  · exact inv_alloc hi l
  · rename_i o' hs
    obtain ⟨h1, h2, h3, h4⟩ := setPortfolios_ok hs
    rw [getD_alloc] at h3 h4
    have hia := inv_alloc hi l
    have hit : ∀ o : Mpp D K, World.items { (w.alloc l) with objs := (w.alloc l).objs.set i o' } o = (w.alloc l).items o :=
      fun _ => rfl
    have hnew : (w.alloc l).items o' = l := by unfold World.items; rw [h1, getD_alloc]
    have hcases : ∀ j p, ((w.alloc l).objs.set i o')[j]? = some p → (j = i ∧ p = o') ∨ (j ≠ i ∧ w.objs[j]? = some p) := by
      intro j p hj
      rw [List.getElem?_set] at hj
      split at hj
      · rename_i e
        split at hj
        · simp only [Option.some.injEq] at hj; exact .inl ⟨e.symm, hj.symm⟩
        · simp at hj
      · rename_i e; exact .inr ⟨fun h => e h.symm, hj⟩
    refine ⟨?_, ?_, ?_, ?_⟩
    · intro j p hj
      rcases hcases j p hj with ⟨-, rfl⟩ | ⟨-, hj⟩
      · rw [h1]; simp [World.alloc]
      · exact hia.bound j p hj
    · intro j k p q hj hk hpq
      rcases hcases j p hj with ⟨e1, rfl⟩ | ⟨e1, hj'⟩ <;> rcases hcases k q hk with ⟨e2, rfl⟩ | ⟨e2, hk'⟩
      · omega
      · have := hi.bound k q hk'; omega
      · have := hi.bound j p hj'; omega
      · exact hi.distinct j k p q hj' hk' hpq
    · intro j p hj
      rw [hit]
      rcases hcases j p hj with ⟨-, rfl⟩ | ⟨-, hj⟩
      · rw [hnew]; exact h3
      · exact hia.concat j p hj
    · intro j p hj hc
      rw [hit]
      rcases hcases j p hj with ⟨-, rfl⟩ | ⟨-, hj⟩
      · rw [hnew]; exact (h4 (h2 ▸ hc)).weak
      · exact hia.weak j p hj hc

theorem inv_append {w : World D K} (hi : WInv w) (i : ℕ) (o : Mpp D K) (ho : w.objs[i]? = some o) (p : Ptf D K) :
    WInv (w.append i o (.ptf p)).1 := by
  unfold World.append
  split
  · exact hi
  · rename_i hchk
    have hb := hi.bound i o ho
    obtain ⟨ps, hps, hobs, hrets⟩ := hi.concat i o ho
    obtain ⟨o', ho'⟩ : ∃ o' : Mpp D K, o' = if o.obs.length = 0 then { o with obs := p.obs, rets := p.rets }
        else { o with obs := o.obs ++ p.obs, rets := o.rets ++ p.rets } := ⟨_, rfl⟩
    simp only [← ho']
    have e1 : o'.ref = o.ref := by rw [ho']; split <;> rfl
    have e2 : o'.check = o.check := by rw [ho']; split <;> rfl
    have hlens : (ps.flatMap Ptf.obs).length = (ps.flatMap Ptf.rets).length := by
      rw [List.length_flatMap, List.length_flatMap]
      exact congrArg List.sum (List.map_congr_left fun q _ => q.len)
    have e3 : o'.obs = o.obs ++ p.obs := by
      rw [ho']
      split
      · rename_i h; rw [List.length_eq_zero_iff.mp h]; rfl
      · rfl
    have e4 : o'.rets = o.rets ++ p.rets := by
      rw [ho']
      split
      · rename_i h
        rw [hobs] at h
        rw [hrets, List.length_eq_zero_iff.mp (hlens.symm.trans h)]; rfl
      · rfl
    have hitems : ∀ q : Mpp D K, (w.heap.modify o.ref (· ++ [Item.ptf p])).getD q.ref [] =
        if q.ref = o.ref then w.items o ++ [.ptf p] else w.items q := by
      intro q
      unfold World.items
      rw [List.getD_eq_getElem?_getD, List.getElem?_modify]
      by_cases hq : q.ref = o.ref
      · rw [if_pos hq, hq, List.getElem?_eq_getElem hb, List.getD_eq_getElem _ _ hb]
        simp
      · rw [if_neg hq, List.getD_eq_getElem?_getD]
        simp [Ne.symm hq]
    have hcases : ∀ (j : ℕ) (q : Mpp D K), (w.objs.set i o')[j]? = some q →
        (j = i ∧ q = o') ∨ (j ≠ i ∧ w.objs[j]? = some q ∧ q.ref ≠ o.ref) := by
      intro j q hj
      rw [List.getElem?_set] at hj
      split at hj
      · rename_i e
        split at hj
        · simp only [Option.some.injEq] at hj; exact .inl ⟨e.symm, hj.symm⟩
        · simp at hj
      · rename_i e
        exact .inr ⟨fun h => e h.symm, hj, fun hr => e (hi.distinct i j o q ho hj hr.symm)⟩
    refine ⟨?_, ?_, ?_, ?_⟩
    · intro j q hj
      rw [List.length_modify]
      rcases hcases j q hj with ⟨-, rfl⟩ | ⟨-, hj, -⟩
      · rw [e1]; exact hb
      · exact hi.bound j q hj
    · intro j k q r hj hk hqr
      rcases hcases j q hj with ⟨a1, rfl⟩ | ⟨a1, hj, n1⟩ <;> rcases hcases k r hk with ⟨a2, rfl⟩ | ⟨a2, hk, n2⟩
      · omega
      · exact absurd (hqr.symm.trans e1) n2
      · exact absurd (hqr.trans e1) n1
      · exact hi.distinct j k q r hj hk hqr
    · intro j q hj
      unfold World.items
      rw [hitems]
      rcases hcases j q hj with ⟨-, rfl⟩ | ⟨-, hj, n1⟩
      · rw [if_pos e1]
        exact ⟨ps ++ [p], by rw [hps]; simp, by rw [e3, hobs]; simp, by rw [e4, hrets]; simp⟩
      · rw [if_neg n1]
        exact hi.concat j q hj
    · intro j q hj hc
      unfold World.items
      rw [hitems]
      rcases hcases j q hj with ⟨-, rfl⟩ | ⟨-, hj, n1⟩
      · rw [if_pos e1]
        rw [e2] at hc
        intro k a b ha hb'
        by_cases hk : k + 1 < (w.items o).length
        · rw [List.getElem?_append_left (by omega)] at ha
          rw [List.getElem?_append_left hk] at hb'
          exact hi.weak i o ho hc k a b ha hb'
        · have hk' : k + 1 = (w.items o).length := by
            have : k + 1 < (w.items o ++ [Item.ptf p]).length := by
              by_contra hcon
              rw [List.getElem?_eq_none (by omega)] at hb'; simp at hb'
            simp at this; omega
          rw [List.getElem?_append_right (by omega), hk'] at hb'
          rw [List.getElem?_append_left (by omega)] at ha
          simp only [Nat.sub_self, List.getElem?_cons_zero, Option.some.injEq, Item.ptf.injEq] at hb'
          subst hb'
          have hlast : (w.heap.getD o.ref []).getLast? = some (.ptf a) := by
            rw [List.getLast?_eq_getElem?]
            unfold World.items at ha hk'
            rw [← hk']; simpa using ha
          unfold appendCheck at hchk
          rw [if_pos hc, hlast] at hchk
          simp only at hchk
          split at hchk
          · rename_i x y hx hy
            split at hchk
            · simp at hchk
            · rename_i hxy
              exact ⟨y, x, hy, hx, not_lt.mp hxy⟩
          · simp at hchk
      · rw [if_neg n1]
        exact hi.weak j q hj hc

theorem inv_step {w : World D K} (hi : WInv w) (op : Op D K) (hop : op.Private) : WInv (step w op).1 := by
  cases op with
  | construct arg check =>
    cases arg with
    | share r => exact hop.elim
    | fresh items =>
      simp only [step, World.eval]
      split
      · exact inv_alloc hi items
      · rename_i o hs
        obtain ⟨h1, h2, h3, h4⟩ := setPortfolios_ok hs
        rw [getD_alloc] at h3 h4
        have hia := inv_alloc hi items
        have hnew : (w.alloc items).items o = items := by unfold World.items; rw [h1, getD_alloc]
        have hcases : ∀ (j : ℕ) (q : Mpp D K), ((w.alloc items).objs ++ [o])[j]? = some q →
            (j = w.objs.length ∧ q = o) ∨ w.objs[j]? = some q := by
          intro j q hj
          by_cases hlt : j < w.objs.length
          · right
            rwa [List.getElem?_append_left (by exact hlt)] at hj
          · left
            rw [List.getElem?_append_right (by simpa [World.alloc] using hlt)] at hj
            have : j - w.objs.length = 0 := by
              by_contra hcon
              rw [List.getElem?_eq_none (by simp [World.alloc]; omega)] at hj; simp at hj
            simp only [World.alloc, this, List.getElem?_cons_zero, Option.some.injEq] at hj
            exact ⟨by omega, hj.symm⟩
        refine ⟨?_, ?_, ?_, ?_⟩
        · intro j q hj
          rcases hcases j q hj with ⟨-, rfl⟩ | hj
          · rw [h1]; simp [World.alloc]
          · exact hia.bound j q hj
        · intro j k q r hj hk hqr
          rcases hcases j q hj with ⟨a1, rfl⟩ | hj' <;> rcases hcases k r hk with ⟨a2, rfl⟩ | hk'
          · omega
          · have := hi.bound k r hk'; omega
          · have := hi.bound j q hj'; omega
          · exact hi.distinct j k q r hj' hk' hqr
        · intro j q hj
          rcases hcases j q hj with ⟨-, rfl⟩ | hj
          · change Concatenated ((w.alloc items).items q) q
            rw [hnew]; exact h3
          · exact hia.concat j q hj
        · intro j q hj hc
          rcases hcases j q hj with ⟨-, rfl⟩ | hj
          · change WeaklyOrdered ((w.alloc items).items q)
            rw [hnew]; exact (h4 (h2 ▸ hc)).weak
          · exact hia.weak j q hj hc
  | append i item =>
    simp only [step]
    split
    · exact hi
    · rename_i o ho
      cases item with
      | other => exact hop.elim
      | ptf p => exact inv_append hi i o ho p
  | setItem i key item =>
    simp only [step]
    split
    · exact hi
    · rename_i o ho
      cases item with
      | other => exact hi
      | ptf p =>
        simp only
        split
        · exact hi
        · exact inv_assign hi _ i o ho
  | delItem i key =>
    simp only [step]
    split
    · exact hi
    · rename_i o ho
      split
      · exact hi
      · exact inv_assign hi _ i o ho
  | setPortfolios i arg =>
    cases arg with
    | share r => exact hop.elim
    | fresh items =>
      simp only [step, World.eval]
      split
      · exact hi
      · rename_i o ho
        exact inv_assign hi _ i o ho
  | copy i => exact hop.elim
  | listAppend r item => exact hop.elim

theorem inv_run (ops : List (Op D K)) (hops : ∀ op ∈ ops, op.Private) : WInv (run ops) := by
  unfold run
  have : ∀ w : World D K, WInv w → WInv (ops.foldl (fun w op => (step w op).1) w) := by
    induction ops with
    | nil => exact fun w h => h
    | cons op ops ih =>
      exact fun w h => ih (fun o ho => hops o (by simp [ho])) _ (inv_step h op (hops op (by simp)))
  exact this _ ⟨by simp, by simp, by simp, by simp⟩

/-- C26: after any history of construction, append, item assignment, item deletion and whole-list assignment in which no list
is shared and only portfolios are appended, the observations and returns of every multi-period portfolio are the
concatenation of those of its current portfolios.  (Sharing a list breaks this: `C26_copy_then_append`,
`C26_caller_list`.) -/
theorem C26_concatenation_partial (ops : List (Op D K)) (hops : ∀ op ∈ ops, op.Private) :
    ∀ o ∈ (run ops).objs, Concatenated ((run ops).items o) o := by
  intro o ho
  obtain ⟨i, hi, rfl⟩ := List.getElem_of_mem ho
  exact (inv_run ops hops).concat i _ (List.getElem?_eq_getElem hi)

/-- C26: under the same hypotheses, with `check_observations_order` no portfolio starts before the previous one has ended.
(It may start on the very last date: `C26_append_accepts_equal_date`.) -/
theorem C26_order_partial (ops : List (Op D K)) (hops : ∀ op ∈ ops, op.Private) :
    ∀ o ∈ (run ops).objs, o.check = true → WeaklyOrdered ((run ops).items o) := by
  intro o ho
  obtain ⟨i, hi, rfl⟩ := List.getElem_of_mem ho
  exact (inv_run ops hops).weak i _ (List.getElem?_eq_getElem hi)

/-- C26: the operations that rebuild the list (item assignment and deletion, whole-list assignment) reject every overlap, also
of a single date. -/
theorem C26_rebuild_is_strict (w : World D K) (i : ℕ) (o : Mpp D K) (hi : w.objs[i]? = some o) (hc : o.check = true)
    (op : Op D K) (hop : (∃ k it, op = .setItem i k it) ∨ (∃ k, op = .delItem i k) ∨ ∃ a, op = .setPortfolios i a)
    (hok : (step w op).2 = none) :
    ∃ o', (step w op).1.objs[i]? = some o' ∧ Ordered ((step w op).1.items o') := by
  have hlt : i < w.objs.length := by
    by_contra hcon
    rw [List.getElem?_eq_none (by omega)] at hi; simp at hi
  have key : ∀ (w1 : World D K) (ref : ℕ), w1.objs = w.objs → (w1.assign i o ref).2 = none →
      ∃ o', (w1.assign i o ref).1.objs[i]? = some o' ∧ Ordered ((w1.assign i o ref).1.items o') := by
    intro w1 ref hw h
    unfold World.assign at h ⊢
    split
    · rename_i e hs; rw [hs] at h; simp at h
    · rename_i o' hs
      obtain ⟨h1, h2, h3, h4⟩ := setPortfolios_ok hs
      refine ⟨o', ?_, ?_⟩
      · simp only
        rw [hw, List.getElem?_set]
        simp [hlt]
      · change Ordered (w1.heap.getD o'.ref [])
        rw [h1]; exact h4 hc
  rcases hop with ⟨k, it, rfl⟩ | ⟨k, rfl⟩ | ⟨a, rfl⟩
  · simp only [step, hi] at hok ⊢
    cases it with
    | other => simp at hok
    | ptf p =>
      simp only at hok ⊢
      split at hok
      · simp at hok
      · rename_i idx he
        exact key _ _ rfl hok
  · simp only [step, hi] at hok ⊢
    split at hok
    · simp at hok
    · rename_i idx he
      exact key _ _ rfl hok
  · simp only [step, hi] at hok ⊢
    cases a with
    | fresh l => exact key _ _ rfl hok
    | share r => exact key _ _ rfl hok

/-- What a program can see of the objects: their attributes and the items of their lists. -/
def World.view (w : World D K) : List (Mpp D K × List (Item D K)) := w.objs.map fun o => (o, w.items o)

/-- C26: an operation that raises changes nothing (appending an object that is not a portfolio is the exception,
`C26_failed_append_corrupts`). -/
theorem C26_raising_changes_nothing (w : World D K) (hb : ∀ o ∈ w.objs, o.ref < w.heap.length) (op : Op D K)
    (hop : ∀ i, op ≠ .append i .other) (hr : (step w op).2 ≠ none) : (step w op).1.view = w.view := by
  have halloc : ∀ l, (w.alloc l).view = w.view := by
    intro l
    unfold World.view
    apply List.map_congr_left
    intro o ho
    rw [items_alloc l (hb o ho)]
  have key : ∀ (w1 : World D K) (i : ℕ) (o : Mpp D K) (ref : ℕ), w1.view = w.view → (w1.assign i o ref).2 ≠ none →
      (w1.assign i o ref).1.view = w.view := by
    intro w1 i o ref hw h
    unfold World.assign at h ⊢
    split
    · exact hw
    · rename_i o' hs; rw [hs] at h; simp at h
  cases op with
  | construct arg check =>
    simp only [step] at hr ⊢
    split
    · cases arg with
      | fresh l => exact halloc l
      | share r => rfl
    · rename_i o hs
      rw [hs] at hr
      simp at hr
  | append i item =>
    simp only [step] at hr ⊢
    split
    · rfl
    · rename_i o ho
      rw [ho] at hr
      simp only [World.append] at hr ⊢
      split
      · rfl
      · rename_i hc
        rw [hc] at hr
        cases item with
        | other => exact absurd rfl (hop i)
        | ptf p => simp at hr
  | setItem i key' item =>
    simp only [step] at hr ⊢
    split
    · rfl
    · rename_i o ho
      rw [ho] at hr
      cases item with
      | other => rfl
      | ptf p =>
        simp only at hr ⊢
        split
        · rfl
        · rename_i k hk
          rw [hk] at hr
          exact key _ _ _ _ (halloc _) hr
  | delItem i key' =>
    simp only [step] at hr ⊢
    split
    · rfl
    · rename_i o ho
      rw [ho] at hr
      simp only at hr ⊢
      split
      · rfl
      · rename_i k hk
        rw [hk] at hr
        exact key _ _ _ _ (halloc _) hr
  | setPortfolios i arg =>
    simp only [step] at hr ⊢
    split
    · rfl
    · rename_i o ho
      rw [ho] at hr
      cases arg with
      | fresh l => exact key _ _ _ _ (halloc l) hr
      | share r => exact key _ _ _ _ rfl hr
  | copy i =>
    simp only [step] at hr ⊢
    split
    · rfl
    · rename_i o ho; rw [ho] at hr; simp at hr
  | listAppend r item => simp [step] at hr

/-! ### What each operation does to the list -/

/-- C26: `append` adds the portfolio at the end, item assignment replaces the addressed item, deletion removes it, assignment
of a list replaces all.  The item `k` is addressed by `k` or, counting from the end, by `k - len`. -/
theorem C26_effect (w : World D K) (i : ℕ) (o : Mpp D K) (hi : w.objs[i]? = some o) (p : Ptf D K) (l : List (Item D K))
    (k : ℕ) (key : ℤ) (hkey : key = k ∨ key = (k : ℤ) - (w.items o).length) (hb : ∀ o ∈ w.objs, o.ref < w.heap.length) :
    ((step w (.append i (.ptf p))).2 = none →
      ∃ o', (step w (.append i (.ptf p))).1.objs[i]? = some o' ∧
        (step w (.append i (.ptf p))).1.items o' = w.items o ++ [.ptf p]) ∧
    (k < (w.items o).length → (step w (.setItem i key (.ptf p))).2 = none →
      ∃ o', (step w (.setItem i key (.ptf p))).1.objs[i]? = some o' ∧
        (step w (.setItem i key (.ptf p))).1.items o' = (w.items o).set k (.ptf p)) ∧
    (k < (w.items o).length → (step w (.delItem i key)).2 = none →
      ∃ o', (step w (.delItem i key)).1.objs[i]? = some o' ∧
        (step w (.delItem i key)).1.items o' = (w.items o).eraseIdx k) ∧
    ((step w (.setPortfolios i (.fresh l))).2 = none →
      ∃ o', (step w (.setPortfolios i (.fresh l))).1.objs[i]? = some o' ∧
        (step w (.setPortfolios i (.fresh l))).1.items o' = l) := by
  have hlt : i < w.objs.length := by
    by_contra hcon
    rw [List.getElem?_eq_none (by omega)] at hi; simp at hi
  have hbo := hb o (List.mem_of_getElem? hi)
  have hassign : ∀ l : List (Item D K), ((w.alloc l).assign i o w.heap.length).2 = none →
      ∃ o', ((w.alloc l).assign i o w.heap.length).1.objs[i]? = some o' ∧
        ((w.alloc l).assign i o w.heap.length).1.items o' = l := by
    intro l h
    unfold World.assign at h ⊢
    split
    · rename_i e hs; rw [hs] at h; simp at h
    · rename_i o' hs
      obtain ⟨h1, -⟩ := setPortfolios_ok hs
      refine ⟨o', ?_, ?_⟩
      · simp only
        rw [List.getElem?_set]
        simp [World.alloc, hlt]
      · change (w.alloc l).heap.getD o'.ref [] = l
        rw [h1, getD_alloc]
  have hidx : k < (w.items o).length → pyIndex (w.heap.getD o.ref []).length key = some k := by
    intro hk
    have hk' : k < (w.heap.getD o.ref []).length := hk
    have hkey' : key = k ∨ key = (k : ℤ) - (w.heap.getD o.ref []).length := hkey
    unfold pyIndex
    rcases hkey' with rfl | rfl
    · have h0 : ¬ (k : ℤ) < 0 := by omega
      simp only [h0, if_false]
      rw [if_pos (by omega)]
      simp
    · have h0 : (k : ℤ) - (w.heap.getD o.ref []).length < 0 := by omega
      simp only [h0, if_true, sub_add_cancel]
      rw [if_pos (by omega)]
      simp
  refine ⟨?_, ?_, ?_, ?_⟩
  · intro h
    simp only [step, hi, World.append] at h ⊢
    split
    · rename_i e hs; rw [hs] at h; simp at h
    · refine ⟨_, by rw [List.getElem?_set, if_pos rfl, if_pos hlt], ?_⟩
      unfold World.items
      have : (if o.obs.length = 0 then { o with obs := p.obs, rets := p.rets }
        else { o with obs := o.obs ++ p.obs, rets := o.rets ++ p.rets } : Mpp D K).ref = o.ref := by split <;> rfl
      simp only
      rw [this, List.getD_eq_getElem?_getD, List.getElem?_modify, List.getElem?_eq_getElem hbo,
        List.getD_eq_getElem _ _ hbo]
      simp
  · intro hk h
    simp only [step, hi, hidx hk] at h ⊢
    exact hassign _ h
  · intro hk h
    simp only [step, hi, hidx hk] at h ⊢
    exact hassign _ h
  · intro h
    simp only [step, hi] at h ⊢
    exact hassign _ h

theorem checkOrder_chain {prev : Ptf D K} {ps : List (Ptf D K)} (h : List.IsChain Before (prev :: ps)) :
    checkOrder prev ps = .ok () := by
  induction ps generalizing prev with
  | nil => rfl
  | cons p ps ih =>
    rw [List.isChain_cons_cons] at h
    obtain ⟨⟨a, b, h1, h2, hab⟩, hc⟩ := h
    simp only [checkOrder, h1, h2, if_neg (not_le.mpr hab), ih hc]

/-- C26: lists of non-overlapping portfolios are accepted, any list of portfolios without the check. -/
theorem C26_accepts (w : World D K) (ps : List (Ptf D K)) (check : Bool)
    (h : check = true → Ordered (ps.map Item.ptf)) :
    (step w (.construct (.fresh (ps.map Item.ptf)) check)).2 = none := by
  simp only [step, World.eval]
  have hs : ∃ o, setPortfolios (w.alloc (ps.map Item.ptf)).heap
      (⟨w.heap.length, [], [], check⟩ : Mpp D K) w.heap.length = .ok o := by
    unfold setPortfolios
    rw [getD_alloc, portfoliosOf_map]
    cases ps with
    | nil => exact ⟨_, rfl⟩
    | cons p ps =>
      simp only
      cases check with
      | false => exact ⟨_, rfl⟩
      | true =>
        have hc : List.IsChain Before (p :: ps) := by
          rw [List.isChain_iff_getElem]
          intro i hi
          exact h rfl i _ _ (by rw [List.getElem?_map, List.getElem?_eq_getElem (by omega)]; rfl)
            (by rw [List.getElem?_map, List.getElem?_eq_getElem hi]; rfl)
        simp only [if_true, checkOrder_chain hc]
        exact ⟨_, rfl⟩
  obtain ⟨o, ho⟩ := hs
  rw [ho]

/-! ### Instances and findings -/

/-- One period of two days. -/
def day (d : ℕ) : Item ℕ ℤ := .ptf ⟨[d, d + 1], [(d : ℤ), -1], rfl⟩

/-- A non-trivial private history: two portfolios, an append, a replacement, a deletion. -/
example : (run [.construct (.fresh [day 0, day 2]) true, .append 0 (day 4), .setItem 0 (-1) (day 6), .delItem 0 0]).objs =
    [⟨2, [2, 3, 6, 7], [2, -1, 6, -1], true⟩] := by decide

/-- C26, finding: `copy` shares the list of portfolios.  After appending to the copy the original holds two portfolios but
the returns of one. -/
theorem C26_copy_then_append :
    let w := run [.construct (.fresh [day 0]) false, .copy 0, .append 1 (day 2)]
    ∃ o, w.objs[0]? = some o ∧ w.items o = [day 0, day 2] ∧ o.rets = [0, -1] ∧ ¬ Concatenated (w.items o) o := by
  refine ⟨⟨0, [0, 1], [0, -1], false⟩, by decide, by decide, by decide, ?_⟩
  rintro ⟨ps, h1, h2, -⟩
  have h3 : World.items (run [.construct (.fresh [day 0]) false, .copy 0, .append 1 (day 2)])
      (⟨0, [0, 1], [0, -1], false⟩ : Mpp ℕ ℤ) = [day 0, day 2] := by decide
  rw [h3] at h1
  match ps, h1 with
  | [p, q], h1 =>
    simp only [day, List.map_cons, List.map_nil, List.cons.injEq, Item.ptf.injEq, and_true] at h1
    obtain ⟨rfl, rfl⟩ := h1
    exact absurd h2 (by decide)

/-- C26, finding: the constructor keeps the caller's list.  A later `append` to that list by the caller (or to another
multi-period portfolio built from it) leaves the returns behind. -/
theorem C26_caller_list :
    let w := run [.construct (.fresh [day 0]) false, .construct (.share 0) false, .append 1 (day 2)]
    ∃ o, w.objs[0]? = some o ∧ w.items o = [day 0, day 2] ∧ o.rets = [0, -1] := by
  exact ⟨⟨0, [0, 1], [0, -1], false⟩, by decide, by decide, by decide⟩

/-- C26, finding: appending an object that is not a portfolio raises, but only after the list was extended. -/
theorem C26_failed_append_corrupts :
    let w : World ℕ ℤ := run [.construct (.fresh [day 0]) false]
    (step w (.append 0 .other)).2 = some .attributeError ∧ (step w (.append 0 .other)).1.view ≠ w.view := by
  decide

/-- C26, finding: with `check_observations_order` the constructor rejects a period that starts on the last date of the
previous one, but `append` accepts it. -/
theorem C26_append_accepts_equal_date :
    (step (run []) (.construct (.fresh [day 0, day 1]) true)).2 = some .valueError ∧
    (step (run [.construct (.fresh [day 0]) true]) (.append 0 (day 1))).2 = none := by
  decide

end Skfolio.Portfolio.Multi
