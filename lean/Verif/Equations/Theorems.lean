import Verif.Equations.ConstraintLemmas
import Mathlib.Data.Rat.Defs
import Mathlib.Algebra.Order.Ring.Rat
import Mathlib.Algebra.BigOperators.Fin

/-!
Claims C09, C10 and C11 about linear constraint strings and group cardinalities. The specification (syntax, layout and meaning of a
constraint) is in `Spec.lean`.
-/
set_option autoImplicit false

namespace Skfolio.Equations

section
variable {K : Type} [Field K] [LinearOrder K] [IsStrictOrderedRing K] {n : Nat}

/-! ### C09 -/

/-- **C09.** The row parsed from any text of a well-formed constraint (any white space except new lines, any number of terms below
the code's own limit of a million) means, for every weight vector, what the constraint says. -/
theorem C09_constraint_string (num : Word → Option K) (G : List (Fin n → Word)) (avg : Bool) (c : Constraint) (hwf : c.WF num G)
    (hsize : c.size < 1000000) (s : Word) (hs : Layout c.tokens s) (hn : '\n' ∉ s) :
    ∃ a b, stringToEquation num G avg s = .ok (a, b, c.op.isInequality) ∧
      ∀ w, RowHolds c.op.isInequality a b w ↔ c.Holds num G avg w := by
  obtain ⟨st, h1, h2, h3, h4⟩ := run_constraint num G avg c (constraint_ok num G c hwf) hsize
  refine ⟨fun j => st.left j * c.op.sign, st.right * -c.op.sign, ?_, fun w => ?_⟩
  · unfold stringToEquation
    rw [split_of_layout num G c hwf s hs hn]
    simp only [h1, h2, h3]
  · exact row_of_phi st.left st.right c.op w _ _ (h4 w)

theorem foldlM_constraints (num : Word → Option K) (G : List (Fin n → Word)) (avg raise : Bool) (cs : List Constraint) (ss : List Word)
    (hf : List.Forall₂ (fun c s => c.WF num G ∧ c.size < 1000000 ∧ Layout c.tokens s ∧ '\n' ∉ s) cs ss) (m0 : Matrices K n) :
    ∃ e q, ss.foldlM (step num G avg raise) m0 = .ok ⟨m0.eqRows ++ e, m0.ineqRows ++ q, m0.warned⟩ ∧
      List.Forall₂ (fun c r => ∀ w, RowHolds false r.1 r.2 w ↔ c.Holds num G avg w) (cs.filter fun c => !c.op.isInequality) e ∧
      List.Forall₂ (fun c r => ∀ w, RowHolds true r.1 r.2 w ↔ c.Holds num G avg w) (cs.filter fun c => c.op.isInequality) q := by
  induction hf generalizing m0 with
  | nil => exact ⟨[], [], by simp [pure, Except.pure], .nil, .nil⟩
  | @cons c s cs ss h hf ih =>
    obtain ⟨h1, h2, h3, h4⟩ := h
    obtain ⟨a, b, e1, e2⟩ := C09_constraint_string num G avg c h1 h2 s h3 h4
    cases hq : c.op.isInequality with
    | true =>
      rw [hq] at e1 e2
      obtain ⟨e, q, g1, g2, g3⟩ := ih { m0 with ineqRows := m0.ineqRows ++ [(a, b)] }
      refine ⟨e, (a, b) :: q, ?_, ?_, ?_⟩
      · rw [List.foldlM_cons, step, e1]
        simp only [bind, Except.bind, g1, List.append_assoc, List.singleton_append]
      · rw [List.filter_cons_of_neg (by simp [hq])]; exact g2
      · rw [List.filter_cons_of_pos (by simp [hq])]; exact .cons e2 g3
    | false =>
      rw [hq] at e1 e2
      obtain ⟨e, q, g1, g2, g3⟩ := ih { m0 with eqRows := m0.eqRows ++ [(a, b)] }
      refine ⟨(a, b) :: e, q, ?_, ?_, ?_⟩
      · rw [List.foldlM_cons, step, e1]
        simp only [bind, Except.bind, g1, List.append_assoc, List.singleton_append]
      · rw [List.filter_cons_of_pos (by simp [hq])]; exact .cons e2 g2
      · rw [List.filter_cons_of_neg (by simp [hq])]; exact g3

theorem forall₂_rows (num : Word → Option K) (G : List (Fin n → Word)) (avg b : Bool) (w : Fin n → K) (cs : List Constraint)
    (rs : List ((Fin n → K) × K)) (h : List.Forall₂ (fun c r => ∀ w, RowHolds b r.1 r.2 w ↔ c.Holds num G avg w) cs rs) :
    (∀ c ∈ cs, c.Holds num G avg w) ↔ ∀ r ∈ rs, RowHolds b r.1 r.2 w := by
  induction h with
  | nil => simp
  | cons h _ ih => simp only [List.mem_cons, forall_eq_or_imp, ih, h w]

/-- **C09.** A list of well-formed constraints gives one row per constraint, equalities and inequalities each in their order, no
warning; a weight vector satisfies all the constraints iff it satisfies all the rows. -/
theorem C09_equations_to_matrix (num : Word → Option K) (G : List (Fin n → Word)) (hG : G.Pairwise fun r r' => ∀ i j, r i ≠ r' j)
    (avg raise : Bool) (cs : List Constraint) (ss : List Word)
    (hf : List.Forall₂ (fun c s => c.WF num G ∧ c.size < 1000000 ∧ Layout c.tokens s ∧ '\n' ∉ s) cs ss) :
    ∃ m, equationsToMatrix num G ss avg raise = .ok m ∧ m.warned = [] ∧
      List.Forall₂ (fun c r => ∀ w, RowHolds false r.1 r.2 w ↔ c.Holds num G avg w) (cs.filter fun c => !c.op.isInequality) m.eqRows ∧
      List.Forall₂ (fun c r => ∀ w, RowHolds true r.1 r.2 w ↔ c.Holds num G avg w) (cs.filter fun c => c.op.isInequality) m.ineqRows ∧
      ∀ w, (∀ c ∈ cs, c.Holds num G avg w) ↔
        (∀ r ∈ m.eqRows, RowHolds false r.1 r.2 w) ∧ (∀ r ∈ m.ineqRows, RowHolds true r.1 r.2 w) := by
  obtain ⟨e, q, h1, h2, h3⟩ := foldlM_constraints num G avg raise cs ss hf ⟨[], [], []⟩
  refine ⟨⟨e, q, []⟩, ?_, rfl, h2, h3, fun w => ?_⟩
  · unfold equationsToMatrix
    rw [if_pos (show validGroups G from hG), h1]; rfl
  · rw [← forall₂_rows num G avg false w _ _ h2, ← forall₂_rows num G avg true w _ _ h3]
    constructor
    · intro h
      exact ⟨fun c hc => h c (List.mem_of_mem_filter hc), fun c hc => h c (List.mem_of_mem_filter hc)⟩
    · intro h c hc
      cases hq : c.op.isInequality with
      | true => exact h.2 c (List.mem_filter.2 ⟨hc, hq⟩)
      | false => exact h.1 c (List.mem_filter.2 ⟨hc, by simp [hq]⟩)

/-! ### C10 -/

/-- **C10.** A text without `=`, `<=`, `>=` or `==` is rejected with `EquationToMatrixError`. -/
theorem C10_no_comparison (num : Word → Option K) (G : List (Fin n → Word)) (avg : Bool) (s : Word) (h : '=' ∉ s) :
    stringToEquation num G avg s = .error .equation := by
  have hc : ∀ b, hasComparison b s = false := by
    induction s with
    | nil => intro b; rfl
    | cons c s ih =>
      intro b
      have h1 : c ≠ '=' := fun e => h (by simp [e])
      rw [hasComparison, ih (fun hh => h (by simp [hh]))]
      simp [h1]
  unfold stringToEquation splitEquationString
  rw [hc, if_pos rfl]

/-- The two characters before the current one after `u` has been read. -/
private def lastTwo : (p2 p1 : Option Char) → Word → Option Char × Option Char
  | p2, p1, [] => (p2, p1)
  | _, p1, x :: u => lastTwo p1 (some x) u

private theorem hasInvalid_append (u w : Word) (p2 p1 : Option Char) (h : hasInvalid (lastTwo p2 p1 u).1 (lastTwo p2 p1 u).2 w = true) :
    hasInvalid p2 p1 (u ++ w) = true := by
  induction u generalizing p2 p1 with
  | nil => exact h
  | cons x u ih =>
    rw [List.cons_append, hasInvalid, ih p1 (some x) h, Bool.or_true]

private theorem lastTwo_snoc (u : Word) (x : Char) (p2 p1 : Option Char) : (lastTwo p2 p1 (u ++ [x])).2 = some x := by
  induction u generalizing p2 p1 with
  | nil => rfl
  | cons y u ih => exact ih p1 (some y)

private theorem lastTwo_snoc2 (u : Word) (x y : Char) (p2 p1 : Option Char) : lastTwo p2 p1 (u ++ [x, y]) = (some x, some y) := by
  induction u generalizing p2 p1 with
  | nil => rfl
  | cons z u ih => exact ih p1 (some z)

private theorem lastTwo_snd (u : Word) (c : Char) (h : (lastTwo none none u).2 = some c) : [c] <:+ u := by
  rcases List.eq_nil_or_concat u with rfl | ⟨u, x, rfl⟩
  · cases h
  · rw [List.concat_eq_append, lastTwo_snoc] at h
    cases h
    exact ⟨u, by simp⟩

private theorem lastTwo_fst (u : Word) (c d : Char) (h : (lastTwo none none u).1 = some c) (h' : (lastTwo none none u).2 = some d) : [c, d] <:+ u := by
  rcases List.eq_nil_or_concat u with rfl | ⟨u, x, rfl⟩
  · cases h
  · rw [List.concat_eq_append] at h h' ⊢
    rcases List.eq_nil_or_concat u with rfl | ⟨u, y, rfl⟩
    · cases h
    · rw [List.concat_eq_append, List.append_assoc] at h h' ⊢
      rw [List.singleton_append, lastTwo_snoc2] at h h'
      cases h
      cases h'
      exact ⟨u, rfl⟩

private theorem ends_of_head {v : Word} (h : ¬ ['='] <+: v) : (v.head? != some '=') = true := by
  cases v with
  | nil => rfl
  | cons x v =>
    by_cases hx : x = '='
    · subst hx
      exact absurd ⟨v, rfl⟩ h
    · simp [hx]

/-- **C10.** A strict comparison is rejected: `>` that is not followed by `=` (and is not the end of `<>` or `<=>`) and `<` that is neither followed by `=` nor preceded by `>`. -/
theorem C10_strict_rejected (num : Word → Option K) (G : List (Fin n → Word)) (avg : Bool) (u v : Word) (hv : ¬ ['='] <+: v) :
    (¬ ['<'] <:+ u → ¬ ['<', '='] <:+ u → stringToEquation num G avg (u ++ '>' :: v) = .error .equation) ∧
    (¬ ['>'] <:+ u → stringToEquation num G avg (u ++ '<' :: v) = .error .equation) := by
  have key : ∀ s : Word, hasInvalid none none s = true → stringToEquation num G avg s = .error .equation := by
    intro s hs
    unfold stringToEquation splitEquationString
    rw [hs]
    by_cases hc : hasComparison false s = false <;> simp [hc]
  refine ⟨fun h1 h2 => key _ (hasInvalid_append _ _ _ _ ?_), fun h1 => key _ (hasInvalid_append _ _ _ _ ?_)⟩
  · have e1 : (lastTwo none none u).2 ≠ some '<' := fun h => h1 (lastTwo_snd u _ h)
    have e2 : ¬ ((lastTwo none none u).1 = some '<' ∧ (lastTwo none none u).2 = some '=') := fun h => h2 (lastTwo_fst u _ _ h.1 h.2)
    rw [hasInvalid, ends_of_head hv]
    have e3 : ((lastTwo none none u).1 == some '<' && (lastTwo none none u).2 == some '=') = false := by
      rw [Bool.eq_false_iff]
      intro h
      rw [Bool.and_eq_true, beq_iff_eq, beq_iff_eq] at h
      exact e2 h
    rw [e3]
    simp [e1]
  · have e1 : (lastTwo none none u).2 ≠ some '>' := fun h => h1 (lastTwo_snd u _ h)
    rw [hasInvalid, ends_of_head hv]
    simp [e1]

/-- The hypotheses of `C10_strict_rejected` hold for "a > 2 <= 3" and "a >= 0 < 1". -/
example : ¬ ['='] <+: " 2 <= 3".toList ∧ ¬ ['<'] <:+ "a ".toList ∧ ¬ ['<', '='] <:+ "a ".toList ∧ ¬ ['='] <+: " 1".toList ∧ ¬ ['>'] <:+ "a >= 0 ".toList := by
  decide

/-- **C10 (partial).** Whatever is accepted is, as text, a constraint whose numbers and names all exist, and the row means what that
constraint says. Missing compared to the claim: texts with two or more comparison operators and texts whose left side is empty are
accepted as well (see `C10_chained_accepted` and `C10_empty_side_accepted`). The hypotheses on `num` and `G` say that no number and no
group is spelled like an operator. -/
theorem C10_accepted_partial (num : Word → Option K) (G : List (Fin n → Word)) (hnum : ∀ o ∈ operators, num o = none)
    (hG : ∀ o ∈ operators, ¬ IsName G o) (avg : Bool) (s : Word) (a : Fin n → K) (b : K) (q : Bool)
    (h : stringToEquation num G avg s = .ok (a, b, q)) :
    (∃ c : Constraint, Layout c.tokens s ∧ c.lhs.Known num G ∧ c.rhs.Known num G ∧ q = c.op.isInequality ∧
      ∀ w, RowHolds q a b w ↔ c.Holds num G avg w) ∨
    (∃ ts, Layout ts s ∧ 2 ≤ ts.countP fun t => decide (t ∈ comparisonOps)) ∨
    (∃ t ts, Layout (t :: ts) s ∧ t ∈ comparisonOps) := by
  obtain ⟨items, st, c0, hl, -, hok, hled, hlen, hrun, hc, hq, ha, hb⟩ := stringToEquation_inv num G hnum hG avg s a b q h
  rcases split_items items with hnone | ⟨l, it, r, e, hlnone, hit⟩
  · exfalso
    obtain ⟨st', r1, r2, r3, r4⟩ := run_items num G avg items hok hled 1000000 hlen St.init none rfl rfl
    rw [hrun] at r1
    simp only [Except.ok.injEq] at r1
    subst r1
    have : lastCmp none items = none := by
      clear hok hled hlen hrun r2 r3 r4 hl
      induction items with
      | nil => rfl
      | cons x items ih =>
        rw [lastCmp, hnone x (by simp)]
        exact ih (fun y hy => hnone y (by simp [hy]))
    rw [this, hc] at r2
    simp at r2
  · cases l with
    | nil =>
      right; right
      obtain ⟨cc, hcc⟩ := Option.ne_none_iff_exists'.1 hit
      rw [e] at hl
      simp only [List.nil_append, List.flatMap_cons, Item.tokens, hcc, optCmpTokens, List.cons_append] at hl
      exact ⟨_, _, hl, cmp_mem cc⟩
    | cons x l =>
      by_cases hr : ∀ y ∈ r, y.cmp = none
      · left
        subst e
        have hx := hlnone x (by simp)
        obtain ⟨r1, hr1⟩ := rest_of_items l (fun y hy => hlnone y (by simp [hy])) (fun y hy => hled y (by simp [hy]))
        obtain ⟨r2, hr2⟩ := rest_of_items r hr (fun y hy => hled y (by simp [hy]))
        obtain ⟨cc, hcc⟩ := Option.ne_none_iff_exists'.1 hit
        let c : Constraint := ⟨⟨x.sgn, x.term, r1⟩, cc, ⟨it.sgn, it.term, r2⟩⟩
        have hitems : x :: l ++ it :: r = constraintItems c := by
          unfold constraintItems sideItems
          rw [hr1, hr2]
          obtain ⟨xc, xs, xt⟩ := x
          obtain ⟨ic, is, itt⟩ := it
          simp only at hx hcc
          subst hx hcc
          rfl
        have htok : (x :: l ++ it :: r).flatMap Item.tokens = c.tokens := by
          rw [hitems]
          unfold constraintItems Constraint.tokens
          rw [List.flatMap_append, sideItems_tokens, sideItems_tokens]
          rfl
        have hsz : c.size < 1000000 := by
          have : (constraintItems c).length = c.size := by
            unfold constraintItems sideItems Constraint.size
            simp; omega
          rw [← this, ← hitems]; exact hlen
        rw [hitems] at hok
        obtain ⟨st', s1, s2, s3, s4⟩ := run_constraint num G avg c hok hsz
        rw [← htok, hrun] at s1
        simp only [Except.ok.injEq] at s1
        subst s1
        rw [hc] at s2
        rw [hq] at s3
        simp only [Option.some.injEq] at s2 s3
        have hknown : ∀ t : Term, t.Ok num G → t.Known num G := by
          intro t ht
          cases t with
          | num s => exact ht.2.2
          | name g => exact (isGroup_iff G g).1 ht.2
          | mulL s g => exact ⟨ht.2.2.1, (isGroup_iff G g).1 ht.2.2.2.1⟩
          | mulR g s => exact ⟨ht.2.2.1, (isGroup_iff G g).1 ht.2.1⟩
        have hmem : ∀ y ∈ constraintItems c, y.term.Known num G := fun y hy => hknown _ (hok y hy)
        refine ⟨c, by rw [← htok]; exact hl, ⟨?_, ?_⟩, ⟨?_, ?_⟩, s3, ?_⟩
        · exact hmem ⟨none, x.sgn, x.term⟩ (by simp [constraintItems, sideItems, c])
        · intro p hp
          exact hmem ⟨none, some p.1, p.2⟩ (by
            simp only [constraintItems, sideItems, List.mem_append, List.mem_cons, List.mem_map]
            exact Or.inl (Or.inr ⟨p, hp, rfl⟩))
        · exact hmem ⟨some cc, it.sgn, it.term⟩ (by simp [constraintItems, sideItems, c])
        · intro p hp
          exact hmem ⟨none, some p.1, p.2⟩ (by
            simp only [constraintItems, sideItems, List.mem_append, List.mem_cons, List.mem_map]
            exact Or.inr (Or.inr ⟨p, hp, rfl⟩))
        · intro w
          rw [ha, hb, s2, s3]
          exact row_of_phi st.left st.right cc w _ _ (s4 w)
      · right; left
        push Not at hr
        obtain ⟨y, hy, hyc⟩ := hr
        refine ⟨_, hl, ?_⟩
        obtain ⟨r1, r2, hrr⟩ := List.append_of_mem hy
        have h1 := cmp_count it hit
        have h2 := cmp_count y hyc
        rw [e, hrr]
        simp only [List.flatMap_append, List.flatMap_cons, List.countP_append]
        omega

omit [LinearOrder K] [IsStrictOrderedRing K] in
/-- **C10.** A text with an unknown name (a word that is neither a number nor a name of a group or asset, for instance two names
next to each other without operator) is never turned into a row, whatever the rest of it is. -/
theorem C10_unknown_name_rejected (num : Word → Option K) (G : List (Fin n → Word)) (hnum : ∀ o ∈ operators, num o = none)
    (hG : ∀ o ∈ operators, ¬ IsName G o) (avg : Bool) (s : Word) (ts : List Word) (hl : Layout ts s)
    (hlex : ∀ t ∈ ts, t ∈ operators ∨ Atom t)
    (hadj : ts.IsChain fun x y => (x ∈ operators ∨ y ∈ operators) ∧ ¬ (x ∈ comparisonOps ∧ y ∈ comparisonOps))
    (t : Word) (ht : t ∈ ts) (hop : t ∉ operators) (hnn : num t = none) (hng : ¬ IsName G t) :
    ∃ err, stringToEquation num G avg s = .error err := by
  cases h : stringToEquation num G avg s with
  | error err => exact ⟨err, rfl⟩
  | ok x =>
    exfalso
    obtain ⟨a, b, q⟩ := x
    obtain ⟨items, st, c0, -, htok, hok, -⟩ := stringToEquation_inv num G hnum hG avg s a b q h
    have : clean (splitOps s []) = ts := (tokens_of_layout hl hlex).1 [] (by simp) hadj
    rw [this] at htok
    rw [htok] at ht
    obtain ⟨it, hit, hti⟩ := List.mem_flatMap.1 ht
    have hk := hok it hit
    have hng' : isGroup G t = false := by
      rw [← isGroup_iff] at hng; simpa using hng
    unfold Item.tokens at hti
    rcases List.mem_append.1 hti with h1 | h1
    · cases hcm : it.cmp with
      | none => rw [hcm] at h1; simp [optCmpTokens] at h1
      | some cc =>
        rw [hcm] at h1; simp only [optCmpTokens, List.mem_singleton] at h1
        subst h1
        exact hop (by simp [operators, nonMulOps, cmp_mem cc])
    · rcases List.mem_append.1 h1 with h1 | h1
      · cases hsg : it.sgn with
        | none => rw [hsg] at h1; simp [optSgnTokens] at h1
        | some sg =>
          rw [hsg] at h1; simp only [optSgnTokens, List.mem_singleton] at h1
          subst h1
          exact hop (by simp [operators, nonMulOps, sgn_mem sg])
      · cases htm : it.term with
        | num u =>
          rw [htm] at h1 hk; simp only [Term.tokens, List.mem_singleton] at h1
          subst h1; exact hk.2.2 hnn
        | name u =>
          rw [htm] at h1 hk; simp only [Term.tokens, List.mem_singleton] at h1
          subst h1; exact absurd hk.2 (by simp [hng'])
        | mulL u g =>
          rw [htm] at h1 hk; simp only [Term.tokens, List.mem_cons, List.not_mem_nil, or_false] at h1
          rcases h1 with rfl | rfl | rfl
          · exact hk.2.2.1 hnn
          · exact hop (by decide)
          · exact absurd hk.2.2.2.1 (by simp [hng'])
        | mulR g u =>
          rw [htm] at h1 hk; simp only [Term.tokens, List.mem_cons, List.not_mem_nil, or_false] at h1
          rcases h1 with rfl | rfl | rfl
          · exact absurd hk.2.1 (by simp [hng'])
          · exact hop (by decide)
          · exact hk.2.2.1 hnn

omit [LinearOrder K] [IsStrictOrderedRing K] in
/-- **C10.** If `equations_to_matrix` returns, every text was either turned into a row or dropped with a warning, the latter only for
texts naming an unknown group and only if `raise_if_group_missing` is false; every other malformed text makes the call raise. -/
theorem C10_report (num : Word → Option K) (G : List (Fin n → Word)) (ss : List Word) (avg raise : Bool) (m : Matrices K n)
    (h : equationsToMatrix num G ss avg raise = .ok m) :
    m.warned = ss.filter (fun s => groupError (stringToEquation num G avg s)) ∧
    (raise = true → m.warned = []) ∧
    m.eqRows.length + m.ineqRows.length + m.warned.length = ss.length ∧
    (∀ s ∈ ss, ∀ err, stringToEquation num G avg s = .error err → err = .group ∧ raise = false) := by
  unfold equationsToMatrix at h
  split_ifs at h with hG
  obtain ⟨h1, h2, h3, h4⟩ := foldlM_report num G avg raise ss _ m h
  simp only [List.nil_append, List.length_nil, zero_add] at h1 h2
  refine ⟨h1, ?_, h2, ?_⟩
  · intro hr
    rw [h1, List.filter_eq_nil_iff]
    intro s hs hg
    cases he : stringToEquation num G avg s with
    | ok x => rw [he] at hg; simp [groupError] at hg
    | error e =>
      have := h4 s hs e he
      exact h3 hr s hs (by rw [he, this])
  · intro s hs err he
    have := h4 s hs err he
    refine ⟨this, ?_⟩
    cases raise with
    | false => rfl
    | true => exact absurd (by rw [he, this]) (h3 rfl s hs)

end

/-! ### concrete data for the examples and the counterexamples -/

/-- Three assets `A`, `B`, `C`; `A` and `B` are in group `X`, `C` in group `Y`. -/
def exG : List (Fin 3 → Word) := [fun j => [['A'], ['B'], ['C']].getD j [], fun j => [['X'], ['X'], ['Y']].getD j []]

/-- A number syntax for the examples. -/
def exNum (w : Word) : Option ℚ :=
  if w = "2".toList then some 2 else if w = "0.5".toList then some (1 / 2) else if w = "3".toList then some 3 else none

/-- `2 * A + X <= 0.5 - B`. -/
def exC : Constraint :=
  ⟨⟨none, .mulL ['2'] ['A'], [(.pos, .name ['X'])]⟩, .le, ⟨none, .num ['0', '.', '5'], [(.neg, .name ['B'])]⟩⟩

def exS : Word := "2*A + X <=  0.5 - B ".toList

theorem exName (g : Word) (h : isGroup exG g = true) : IsName exG g := (isGroup_iff exG g).1 h
theorem exNotName (g : Word) (h : isGroup exG g = false) : ¬ IsName exG g := by
  rw [← isGroup_iff, h]; simp

theorem exWF : exC.WF exNum exG := by
  have a2 : Atom ['2'] := ⟨by decide, by decide, by decide, by decide⟩
  have aA : Atom ['A'] := ⟨by decide, by decide, by decide, by decide⟩
  have aX : Atom ['X'] := ⟨by decide, by decide, by decide, by decide⟩
  have aB : Atom ['B'] := ⟨by decide, by decide, by decide, by decide⟩
  have a5 : Atom ['0', '.', '5'] := ⟨by decide, by decide, by decide, by decide⟩
  refine ⟨⟨⟨⟨by decide, exNotName _ (by decide)⟩, a2, exName _ (by decide), aA⟩, ?_⟩, ⟨⟨⟨by decide, exNotName _ (by decide)⟩, a5⟩, ?_⟩⟩
  · intro p hp
    simp only [exC, List.mem_singleton] at hp
    subst hp
    exact ⟨exName _ (by decide), aX⟩
  · intro p hp
    simp only [exC, List.mem_singleton] at hp
    subst hp
    exact ⟨exName _ (by decide), aB⟩

theorem exLayout : Layout exC.tokens exS := by
  have h := layout_tokens exS []
  have e : clean (splitOps exS []) = exC.tokens := by decide
  rw [e] at h
  exact h

/-- The hypotheses of `C09_constraint_string` are met by `2*A + X <=  0.5 - B `. -/
example : exC.WF exNum exG ∧ exC.size < 1000000 ∧ Layout exC.tokens exS ∧ '\n' ∉ exS := ⟨exWF, by decide, exLayout, by decide⟩

/-- ... and the constraint of the example is not trivial: some weights satisfy it, some do not. -/
example : exC.Holds exNum exG false (fun _ => 0) ∧ ¬ exC.Holds exNum exG false (fun _ => 1) := by
  simp only [Constraint.Holds, exC, Cmp.holds, Side.val, optSgnVal, Term.val, groupVal, numVal, List.map_cons, List.map_nil, List.sum_cons,
    List.sum_nil, Sgn.val]
  constructor <;> decide +kernel

/-- The hypotheses of `C09_equations_to_matrix` are met by this list. -/
example : exG.Pairwise (fun r r' => ∀ i j, r i ≠ r' j) ∧
    List.Forall₂ (fun c s => c.WF exNum exG ∧ c.size < 1000000 ∧ Layout c.tokens s ∧ '\n' ∉ s) [exC] [exS] :=
  ⟨by decide, .cons ⟨exWF, by decide, exLayout, by decide⟩ .nil⟩

/-- The hypotheses of `C10_accepted_partial` on numbers and groups are met. -/
example : (∀ o ∈ operators, exNum o = none) ∧ (∀ o ∈ operators, ¬ IsName exG o) := by
  refine ⟨by decide, ?_⟩
  intro o ho
  apply exNotName
  revert o
  decide

/-- The hypotheses of `C10_no_comparison` are met by `A + B`. -/
example : '=' ∉ "A + B".toList := by decide

/-- The hypotheses of `C10_unknown_name_rejected` are met by `A B <= 3`: the word `A B` is unknown. -/
example : ∃ ts : List Word, Layout ts "A B <= 3".toList ∧ (∀ t ∈ ts, t ∈ operators ∨ Atom t) ∧
    (ts.IsChain fun x y => (x ∈ operators ∨ y ∈ operators) ∧ ¬ (x ∈ comparisonOps ∧ y ∈ comparisonOps)) ∧
    ∃ t ∈ ts, t ∉ operators ∧ exNum t = none ∧ ¬ IsName exG t := by
  refine ⟨["A B".toList, "<=".toList, "3".toList], ?_, ?_, ?_, ⟨"A B".toList, by simp, by decide, by decide, exNotName _ (by decide)⟩⟩
  · have h := layout_tokens "A B <= 3".toList []
    have e : clean (splitOps "A B <= 3".toList []) = ["A B".toList, "<=".toList, "3".toList] := by decide
    rw [e] at h
    exact h
  · intro t ht
    simp only [List.mem_cons, List.not_mem_nil, or_false] at ht
    rcases ht with rfl | rfl | rfl
    · exact Or.inr ⟨by decide, by decide, by decide, by decide⟩
    · exact Or.inl (by decide)
    · exact Or.inr ⟨by decide, by decide, by decide, by decide⟩
  · simp only [List.isChain_cons_cons, List.isChain_singleton, and_true]
    decide

/-- **C10, negated.** A chained comparison is accepted without warning and means something else: the row of `A <= B <= C` is
`A - B - C <= 0`, which accepts the weights (3, 1, 2) although 3 <= 1 is false. -/
theorem C10_chained_accepted :
    ∃ a b, stringToEquation exNum exG false "A <= B <= C".toList = .ok (a, b, true) ∧
      (∀ w, RowHolds true a b w ↔ w 0 - w 1 - w 2 ≤ 0) ∧
      ∃ w : Fin 3 → ℚ, RowHolds true a b w ∧ ¬ (w 0 ≤ w 1 ∧ w 1 ≤ w 2) := by
  let items : List Item := [⟨none, none, .name ['A']⟩, ⟨some .le, none, .name ['B']⟩, ⟨some .le, none, .name ['C']⟩]
  obtain ⟨a, b, h1, h2⟩ := accept_items exNum exG false items (by
      intro it hit
      simp only [items, List.mem_cons, List.not_mem_nil, or_false] at hit
      rcases hit with rfl | rfl | rfl <;> exact ⟨by decide, by decide⟩)
    (by
      intro it hit
      simp only [items, List.tail_cons, List.mem_cons, List.not_mem_nil, or_false] at hit
      rcases hit with rfl | rfl <;> exact Or.inl rfl)
    (by simp [items]) .le rfl "A <= B <= C".toList (by decide)
  have hA : ∀ w : Fin 3 → ℚ, groupVal exG false w ['A'] = w 0 := by
    intro w
    have e0 : Belongs exG ['A'] 0 := by decide
    have e1 : ¬ Belongs exG ['A'] 1 := by decide
    have e2 : ¬ Belongs exG ['A'] 2 := by decide
    simp [groupVal, Fin.sum_univ_three, e0, e1, e2]
  have hB : ∀ w : Fin 3 → ℚ, groupVal exG false w ['B'] = w 1 := by
    intro w
    have e0 : ¬ Belongs exG ['B'] 0 := by decide
    have e1 : Belongs exG ['B'] 1 := by decide
    have e2 : ¬ Belongs exG ['B'] 2 := by decide
    simp [groupVal, Fin.sum_univ_three, e0, e1, e2]
  have hC : ∀ w : Fin 3 → ℚ, groupVal exG false w ['C'] = w 2 := by
    intro w
    have e0 : ¬ Belongs exG ['C'] 0 := by decide
    have e1 : ¬ Belongs exG ['C'] 1 := by decide
    have e2 : Belongs exG ['C'] 2 := by decide
    simp [groupVal, Fin.sum_univ_three, e0, e1, e2]
  have hrow : ∀ w, RowHolds true a b w ↔ w 0 - w 1 - w 2 ≤ 0 := by
    intro w
    have := h2 w
    simp only [Cmp.isInequality] at this
    rw [this]
    simp only [Cmp.holds, items, itemsVal, mainAfter, optSgnVal, Term.val, hA, hB, hC]
    constructor <;> intro hh <;> linarith
  refine ⟨a, b, h1, hrow, fun j => [3, 1, 2].getD j 0, ?_, ?_⟩
  · rw [hrow]; norm_num
  · simp

/-- **C10, negated.** A missing left side is accepted without warning and read as 0: ` <= 3`. -/
theorem C10_empty_side_accepted : ∃ a b, stringToEquation exNum exG false " <= 3".toList = .ok (a, b, true) ∧
    ∀ w, RowHolds true a b w := by
  let items : List Item := [⟨some .le, none, .num ['3']⟩]
  obtain ⟨a, b, h1, h2⟩ := accept_items exNum exG false items (by
      intro it hit
      simp only [items, List.mem_cons, List.not_mem_nil, or_false] at hit
      subst hit
      exact ⟨by decide, by decide, by decide⟩)
    (by simp [items]) (by simp [items]) .le rfl " <= 3".toList (by decide)
  refine ⟨a, b, h1, fun w => ?_⟩
  rw [show true = Cmp.le.isInequality from rfl, h2 w]
  have h3 : numVal exNum ['3'] = 3 := by decide +kernel
  simp only [Cmp.holds, items, itemsVal, mainAfter, optSgnVal, Term.val, h3]
  norm_num

/-- **C10, negated.** A trailing `*` after a name is neither an `EquationToMatrixError` nor a warning but a `TypeError`
(`float(None)`). -/
theorem C10_trailing_star_type_error :
    stringToEquation exNum exG false "3 <= A *".toList = .error .type := by
  have hs : splitEquationString "3 <= A *".toList = .ok [['3'], le, ['A'], times] := by decide
  have n3 : exNum ['3'] = some 3 := by decide +kernel
  have g3 : isGroup exG ['3'] = false := by decide
  have gA : isGroup exG ['A'] = true := by decide
  obtain ⟨arr, harr⟩ := matchingArray_ok_or (K := ℚ) exG ['A'] false gA
  have o1 : (['3'] : Word) ∉ comparisonOps := by decide
  have o2 : (['3'] : Word) ∉ subAddOps := by decide
  have o3 : (['3'] : Word) ∉ mulOps := by decide
  have o4 : (['3'] : Word) ∉ operators := by decide
  have o5 : le ∉ mulOps := by decide
  have o6 : le ∈ nonMulOps := by decide
  have o7 : le ∈ comparisonOps := by decide
  have o8 : (['A'] : Word) ∉ subAddOps := by decide
  have o9 : (['A'] : Word) ∉ operators := by decide
  have o10 : times ∉ nonMulOps := by decide
  have o11 : times ∈ mulOps := by decide
  unfold stringToEquation
  rw [hs]
  simp [run, readHead, readTerm, readSign, n3, g3, gA, harr, o1, o2, o3, o4, o5, o6, o7, o8, o9, o10, o11]

/-! ### C11 -/

section
variable {K : Type} [Field K] {n : Nat}

theorem cards_fold (G : List (Fin n → Word)) (raise : Bool) (cards : List (Word × Nat)) (hc : ∀ gc ∈ cards, IsName G gc.1)
    (m0 : List ((Fin n → K) × Nat) × List Word) :
    cards.foldlM (cardStep G raise) m0 =
      .ok (m0.1 ++ cards.map (fun gc => (fun j => if ∃ row ∈ G, row j = gc.1 then 1 else 0, gc.2)), m0.2) := by
  induction cards generalizing m0 with
  | nil => simp [pure, Except.pure]
  | cons gc cards ih =>
    obtain ⟨row, hr, j, hj⟩ := hc gc (by simp)
    rw [List.foldlM_cons, cardStep]
    unfold matchingArray
    rw [if_pos ⟨j, row, hr, hj⟩]
    simp only [bind, Except.bind, Bool.false_eq_true, if_false, div_one]
    rw [ih (fun x hx => hc x (by simp [hx]))]
    simp

/-- **C11.** If every group exists, the result has one row per entry of the dictionary, in order: ones exactly at the assets
of the group, paired with the cardinality of the group, and no warning. -/
theorem C11_rows (G : List (Fin n → Word)) (hG : G.Pairwise fun r r' => ∀ i j, r i ≠ r' j) (raise : Bool) (cards : List (Word × Nat))
    (hc : ∀ gc ∈ cards, IsName G gc.1) :
    ∃ rows : List ((Fin n → K) × Nat), groupCardinalitiesToMatrix G cards raise = .ok (rows, []) ∧
      List.Forall₂ (fun gc r => r.2 = gc.2 ∧ ∀ j, r.1 j = if Belongs G gc.1 j then 1 else 0) cards rows := by
  refine ⟨cards.map (fun gc => (fun j => if ∃ row ∈ G, row j = gc.1 then 1 else 0, gc.2)), ?_, ?_⟩
  · unfold groupCardinalitiesToMatrix
    rw [if_pos (show validGroups G from hG), cards_fold G raise cards hc, List.nil_append]
  · rw [List.forall₂_map_right_iff]
    apply List.forall₂_same.2
    intro gc _
    refine ⟨rfl, fun j => ?_⟩
    by_cases hj : Belongs G gc.1 j
    · rw [if_pos hj]; exact if_pos hj
    · rw [if_neg hj]; exact if_neg hj

/-- The hypotheses of `C11_rows` are met. -/
example : exG.Pairwise (fun r r' => ∀ i j, r i ≠ r' j) ∧ ∀ gc ∈ [((['X'] : Word), 1), (['Y'], 1)], IsName exG gc.1 := by
  refine ⟨by decide, ?_⟩
  intro gc hgc
  simp only [List.mem_cons, List.not_mem_nil, or_false] at hgc
  rcases hgc with rfl | rfl <;> exact exName _ (by decide)

/-- **C11, negated and made exact.** A missing group always raises (`EquationToMatrixError`), even with `raise_if_group_missing=False`: the
warning branch is never reached. -/
theorem C11_missing_group_always_raises (G : List (Fin n → Word)) (raise : Bool) (cards : List (Word × Nat)) (gc : Word × Nat)
    (hmem : gc ∈ cards) (hmiss : ¬ IsName G gc.1) :
    ∃ err, groupCardinalitiesToMatrix (K := K) G cards raise = .error err ∧ (err = .equation ∨ err = .duplicate) := by
  unfold groupCardinalitiesToMatrix
  split_ifs with hG
  · refine ⟨.equation, ?_, Or.inl rfl⟩
    obtain ⟨l, r, e, h1, y, hy, hyn⟩ : ∃ l r, cards = l ++ r ∧ (∀ x ∈ l, IsName G x.1) ∧ ∃ y, r.head? = some y ∧ ¬ IsName G y.1 := by
      clear hG
      induction cards with
      | nil => simp at hmem
      | cons x cards ih =>
        by_cases hx : IsName G x.1
        · have : gc ∈ cards := by
            rcases List.mem_cons.1 hmem with rfl | h
            · exact absurd hx hmiss
            · exact h
          obtain ⟨l, r, e, h1, h2⟩ := ih this
          refine ⟨x :: l, r, by rw [e]; rfl, ?_, h2⟩
          intro y hy
          rcases List.mem_cons.1 hy with rfl | hy
          · exact hx
          · exact h1 y hy
        · exact ⟨[], x :: cards, rfl, by simp, x, rfl, hx⟩
    rw [e, List.foldlM_append, cards_fold G raise l h1]
    cases r with
    | nil => simp at hy
    | cons z r =>
      simp only [List.head?_cons, Option.some.injEq] at hy
      subst hy
      have hno : ¬ ∃ j : Fin n, ∃ row ∈ G, row j = z.1 := fun ⟨j, row, hr, hj⟩ => hyn ⟨row, hr, j, hj⟩
      simp only [bind, Except.bind, List.foldlM_cons, cardStep]
      unfold matchingArray
      rw [if_neg hno]
  · exact ⟨.duplicate, rfl, Or.inr rfl⟩

end

end Skfolio.Equations
