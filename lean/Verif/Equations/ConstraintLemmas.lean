import Verif.Equations.ParseLemmas

/-! Helper lemmas relating constraints and the items read by the parser. -/
set_option autoImplicit false

namespace Skfolio.Equations

section
variable {K : Type} [Field K] [LinearOrder K] [IsStrictOrderedRing K] {n : Nat}

/-- The items of one side of a constraint. -/
def sideItems (c : Option Cmp) (s : Side) : List Item := ⟨c, s.sgn, s.first⟩ :: s.rest.map fun p => ⟨none, some p.1, p.2⟩

omit [Field K] [LinearOrder K] [IsStrictOrderedRing K] in
theorem sideItems_tokens (c : Option Cmp) (s : Side) : (sideItems c s).flatMap Item.tokens = optCmpTokens c ++ s.tokens := by
  unfold sideItems Side.tokens
  rw [List.flatMap_cons, List.flatMap_map]
  simp only [Item.tokens, optCmpTokens, optSgnTokens, List.append_assoc, List.nil_append, List.cons_append]

omit [IsStrictOrderedRing K] in
theorem itemsVal_rest (num : Word → Option K) (G : List (Fin n → Word)) (avg : Bool) (w : Fin n → K) (m : K) (r : List (Sgn × Term)) (l : List Item) :
    itemsVal num G avg w m ((r.map fun p => (⟨none, some p.1, p.2⟩ : Item)) ++ l) =
      m * (r.map fun p => p.1.val * p.2.val num G avg w).sum + itemsVal num G avg w m l := by
  induction r with
  | nil => simp
  | cons p r ih =>
    rw [List.map_cons, List.cons_append, itemsVal, mainAfter, ih]
    simp only [List.map_cons, List.sum_cons, optSgnVal]; ring

omit [IsStrictOrderedRing K] in
theorem itemsVal_side (num : Word → Option K) (G : List (Fin n → Word)) (avg : Bool) (w : Fin n → K) (m : K) (c : Option Cmp) (s : Side) (l : List Item) :
    itemsVal num G avg w m (sideItems c s ++ l) = mainAfter m c * s.val num G avg w + itemsVal num G avg w (mainAfter m c) l := by
  unfold sideItems
  rw [List.cons_append, itemsVal, itemsVal_rest]
  simp only [Side.val]; ring

omit [Field K] [LinearOrder K] [IsStrictOrderedRing K] in
theorem lastCmp_rest (c : Option Cmp) (r : List (Sgn × Term)) : lastCmp c (r.map fun p => (⟨none, some p.1, p.2⟩ : Item)) = c := by
  induction r with
  | nil => rfl
  | cons p r ih => rw [List.map_cons, lastCmp]; simpa using ih

omit [Field K] [LinearOrder K] [IsStrictOrderedRing K] in
theorem lastCmp_append (c : Option Cmp) (l l' : List Item) : lastCmp c (l ++ l') = lastCmp (lastCmp c l) l' := by
  induction l generalizing c with
  | nil => rfl
  | cons it l ih => rw [List.cons_append, lastCmp, lastCmp, ih]

/-- The items of a constraint. -/
def constraintItems (c : Constraint) : List Item := sideItems none c.lhs ++ sideItems (some c.op) c.rhs

/-- The row of a successful run, as a condition. -/
theorem row_of_phi (left : Fin n → K) (right : K) (op : Cmp) (w : Fin n → K) (a b : K) (h : (∑ j, left j * w j) + right = a - b) :
    RowHolds op.isInequality (fun j => left j * op.sign) (right * -op.sign) w ↔ op.holds a b := by
  have e1 : ∑ j, left j * (1 : K) * w j = ∑ j, left j * w j := by simp
  have e2 : ∑ j, left j * (-1 : K) * w j = -∑ j, left j * w j := by simp
  unfold RowHolds
  cases op with
  | le =>
    simp only [Cmp.isInequality, Cmp.sign, Cmp.holds, if_true, e1]
    constructor <;> intro hh <;> linarith
  | ge =>
    simp only [Cmp.isInequality, Cmp.sign, Cmp.holds, if_true, e2]
    constructor <;> intro hh <;> linarith
  | eqeq =>
    simp only [Cmp.isInequality, Cmp.sign, Cmp.holds, e1]
    constructor
    · intro hh; simp at hh; linarith
    · intro hh; simp; linarith
  | eq =>
    simp only [Cmp.isInequality, Cmp.sign, Cmp.holds, e1]
    constructor
    · intro hh; simp at hh; linarith
    · intro hh; simp; linarith

/-- What the parser does on the tokens of a constraint. -/
theorem run_constraint (num : Word → Option K) (G : List (Fin n → Word)) (avg : Bool) (c : Constraint)
    (hok : ∀ it ∈ constraintItems c, it.term.Ok num G) (hsize : c.size < 1000000) :
    ∃ st, run num G avg 1000000 St.init c.tokens = .ok st ∧ st.comparisonSign = some (c.op.sign) ∧
      st.isInequality = some c.op.isInequality ∧ ∀ w, st.phi w = c.lhs.val num G avg w - c.rhs.val num G avg w := by
  have htok : (constraintItems c).flatMap Item.tokens = c.tokens := by
    unfold constraintItems Constraint.tokens
    rw [List.flatMap_append, sideItems_tokens, sideItems_tokens]
    rfl
  have hlen : (constraintItems c).length = c.size := by
    unfold constraintItems sideItems Constraint.size
    simp; omega
  have hled : ∀ it ∈ (constraintItems c).tail, it.led := by
    intro it hit
    unfold constraintItems sideItems at hit
    simp only [List.cons_append, List.tail_cons, List.mem_append, List.mem_map, List.mem_cons] at hit
    rcases hit with ⟨p, _, rfl⟩ | rfl | ⟨p, _, rfl⟩
    · exact Or.inr rfl
    · exact Or.inl rfl
    · exact Or.inr rfl
  obtain ⟨st, h1, h2, h3, h4⟩ := run_items num G avg (constraintItems c) hok hled 1000000 (by omega) St.init none rfl rfl
  have hlast : lastCmp none (constraintItems c) = some c.op := by
    unfold constraintItems
    rw [lastCmp_append]
    unfold sideItems
    rw [lastCmp, lastCmp, lastCmp_rest, lastCmp_rest]
    rfl
  rw [htok] at h1
  rw [hlast] at h2 h3
  refine ⟨st, h1, h2, h3, fun w => ?_⟩
  have h0 : (St.init : St K n).phi w = 0 := by simp [St.phi, St.init]
  rw [h4, h0]
  unfold constraintItems
  rw [itemsVal_side]
  have := itemsVal_side num G avg w (mainAfter (St.init : St K n).mainSign none) (some c.op) c.rhs []
  rw [List.append_nil] at this
  rw [this]
  simp only [mainAfter, itemsVal, St.init]
  ring

omit [Field K] [LinearOrder K] [IsStrictOrderedRing K] in
theorem side_chain (s : Side) (num : Word → Option K) (G : List (Fin n → Word)) (h : s.WF num G) :
    s.tokens.IsChain Adj ∧ (∀ t ∈ s.tokens, t ∈ operators ∨ Atom t) ∧
    (∀ t, s.tokens.head? = some t → t ∉ comparisonOps) ∧ (∀ t, s.tokens.getLast? = some t → t ∉ operators) := by
  have hcs : ∀ {w : Word}, Atom w → w ∉ comparisonOps := fun hw hc => by
    have := atom_not_op hw
    exact this (by simp [operators, nonMulOps, hc])
  have htimes : (['*'] : Word) ∈ operators := by decide
  have htc : (['*'] : Word) ∉ comparisonOps := by decide
  -- terms
  have hterm : ∀ t : Term, t.WF num G → t.tokens.IsChain Adj ∧ (∀ x ∈ t.tokens, x ∈ operators ∨ Atom x) ∧
      (∀ x, t.tokens.head? = some x → x ∉ operators) ∧ (∀ x, t.tokens.getLast? = some x → x ∉ operators) ∧ t.tokens ≠ [] := by
    intro t ht
    cases t with
    | num s =>
      refine ⟨by simp [Term.tokens], ?_, ?_, ?_, by simp [Term.tokens]⟩
      · intro x hx; simp [Term.tokens] at hx; subst hx; exact Or.inr ht.2
      · intro x hx; simp [Term.tokens] at hx; subst hx; exact atom_not_op ht.2
      · intro x hx; simp [Term.tokens] at hx; subst hx; exact atom_not_op ht.2
    | name s =>
      refine ⟨by simp [Term.tokens], ?_, ?_, ?_, by simp [Term.tokens]⟩
      · intro x hx; simp [Term.tokens] at hx; subst hx; exact Or.inr ht.2
      · intro x hx; simp [Term.tokens] at hx; subst hx; exact atom_not_op ht.2
      · intro x hx; simp [Term.tokens] at hx; subst hx; exact atom_not_op ht.2
    | mulL s g =>
      obtain ⟨-, h1, -, h2⟩ := ht
      refine ⟨?_, ?_, ?_, ?_, by simp [Term.tokens]⟩
      · simp only [Term.tokens, List.isChain_cons_cons, List.isChain_singleton, and_true]
        exact ⟨⟨Or.inr htimes, fun hh => htc hh.2⟩, ⟨Or.inl htimes, fun hh => htc hh.1⟩⟩
      · intro x hx; simp [Term.tokens] at hx
        rcases hx with rfl | rfl | rfl
        · exact Or.inr h1
        · exact Or.inl htimes
        · exact Or.inr h2
      · intro x hx; simp [Term.tokens] at hx; subst hx; exact atom_not_op h1
      · intro x hx; simp [Term.tokens] at hx; subst hx; exact atom_not_op h2
    | mulR g s =>
      obtain ⟨-, h1, -, h2⟩ := ht
      refine ⟨?_, ?_, ?_, ?_, by simp [Term.tokens]⟩
      · simp only [Term.tokens, List.isChain_cons_cons, List.isChain_singleton, and_true]
        exact ⟨⟨Or.inr htimes, fun hh => htc hh.2⟩, ⟨Or.inl htimes, fun hh => htc hh.1⟩⟩
      · intro x hx; simp [Term.tokens] at hx
        rcases hx with rfl | rfl | rfl
        · exact Or.inr h2
        · exact Or.inl htimes
        · exact Or.inr h1
      · intro x hx; simp [Term.tokens] at hx; subst hx; exact atom_not_op h2
      · intro x hx; simp [Term.tokens] at hx; subst hx; exact atom_not_op h1
  have hsop : ∀ s : Sgn, s.token ∈ operators := fun s => by cases s <;> decide
  have hsc : ∀ s : Sgn, s.token ∉ comparisonOps := fun s => by cases s <;> decide
  have hnc : ∀ {x : Word}, x ∉ operators → x ∉ comparisonOps := fun hx hc => hx (by simp [operators, nonMulOps, hc])
  -- a signed term
  have hsigned : ∀ (sg : Sgn) (t : Term), t.WF num G → (sg.token :: t.tokens).IsChain Adj := by
    intro sg t ht
    obtain ⟨a1, a2, a3, a4, a5⟩ := hterm t ht
    rw [List.isChain_cons]
    refine ⟨fun y hy => ⟨Or.inl (hsop sg), fun hh => hsc sg hh.1⟩, a1⟩
  -- the rest
  have hrest : ∀ r : List (Sgn × Term), (∀ p ∈ r, p.2.WF num G) → (r.flatMap fun p => p.1.token :: p.2.tokens).IsChain Adj ∧
      (∀ x ∈ r.flatMap (fun p => p.1.token :: p.2.tokens), x ∈ operators ∨ Atom x) ∧
      (∀ x, (r.flatMap fun p => p.1.token :: p.2.tokens).head? = some x → x ∈ operators ∧ x ∉ comparisonOps) ∧
      (∀ x, (r.flatMap fun p => p.1.token :: p.2.tokens).getLast? = some x → x ∉ operators) := by
    intro r
    induction r with
    | nil => intro _; refine ⟨by simp, by simp, by simp, by simp⟩
    | cons p r ih =>
      intro hp
      obtain ⟨i1, i2, i3, i4⟩ := ih (fun q hq => hp q (by simp [hq]))
      have hpt := hp p (by simp)
      obtain ⟨a1, a2, a3, a4, a5⟩ := hterm p.2 hpt
      rw [List.flatMap_cons]
      refine ⟨?_, ?_, ?_, ?_⟩
      · refine List.isChain_append.2 ⟨hsigned p.1 p.2 hpt, i1, ?_⟩
        intro x hx y hy
        obtain ⟨y1, y2⟩ := i3 y hy
        exact ⟨Or.inr y1, fun hh => y2 hh.2⟩
      · intro x hx
        rcases List.mem_append.1 hx with hx | hx
        · rcases List.mem_cons.1 hx with rfl | hx
          · exact Or.inl (hsop _)
          · exact a2 x hx
        · exact i2 x hx
      · intro x hx
        simp only [List.cons_append, List.head?_cons, Option.some.injEq] at hx
        rw [← hx]; exact ⟨hsop _, hsc _⟩
      · intro x hx
        by_cases hr : (r.flatMap fun p => p.1.token :: p.2.tokens) = []
        · rw [hr, List.append_nil] at hx
          rw [← List.singleton_append, List.getLast?_append_of_ne_nil _ a5] at hx
          exact a4 x hx
        · rw [List.getLast?_append_of_ne_nil _ hr] at hx
          exact i4 x hx
  obtain ⟨hf, hr⟩ := h
  obtain ⟨a1, a2, a3, a4, a5⟩ := hterm s.first hf
  obtain ⟨i1, i2, i3, i4⟩ := hrest s.rest hr
  -- first term with the rest
  have hfr : (s.first.tokens ++ s.rest.flatMap fun p => p.1.token :: p.2.tokens).IsChain Adj := by
    refine List.isChain_append.2 ⟨a1, i1, ?_⟩
    intro x hx y hy
    obtain ⟨y1, y2⟩ := i3 y hy
    exact ⟨Or.inr y1, fun hh => y2 hh.2⟩
  have hlast : ∀ (pre : List Word) (t : Word), (pre ++ (s.first.tokens ++ s.rest.flatMap fun p => p.1.token :: p.2.tokens)).getLast? = some t →
      t ∉ operators := by
    intro pre t ht
    rw [List.getLast?_append_of_ne_nil _ (by simp [a5])] at ht
    by_cases hrr : (s.rest.flatMap fun p => p.1.token :: p.2.tokens) = []
    · rw [hrr, List.append_nil] at ht
      exact a4 t ht
    · rw [List.getLast?_append_of_ne_nil _ hrr] at ht
      exact i4 t ht
  unfold Side.tokens
  cases hsg : s.sgn with
  | none =>
    simp only [optSgnTokens, List.nil_append]
    refine ⟨hfr, ?_, ?_, ?_⟩
    · intro x hx
      rcases List.mem_append.1 hx with hx | hx
      · exact a2 x hx
      · exact i2 x hx
    · intro t ht
      rw [List.head?_append_of_ne_nil _ a5] at ht
      exact hnc (a3 t ht)
    · intro t ht
      exact hlast [] t (by simpa using ht)
  | some sg =>
    simp only [optSgnTokens, List.append_assoc]
    refine ⟨?_, ?_, ?_, ?_⟩
    · rw [List.singleton_append, List.isChain_cons]
      exact ⟨fun y _ => ⟨Or.inl (hsop sg), fun hh => hsc sg hh.1⟩, hfr⟩
    · intro x hx
      rw [List.singleton_append] at hx
      rcases List.mem_cons.1 hx with rfl | hx
      · exact Or.inl (hsop _)
      · rcases List.mem_append.1 hx with hx | hx
        · exact a2 x hx
        · exact i2 x hx
    · intro t ht
      simp only [List.singleton_append, List.head?_cons, Option.some.injEq] at ht
      rw [← ht]; exact hsc sg
    · intro t ht
      exact hlast _ t ht

omit [Field K] [LinearOrder K] [IsStrictOrderedRing K] in
theorem constraint_lex (num : Word → Option K) (G : List (Fin n → Word)) (c : Constraint) (h : c.WF num G) :
    c.tokens.IsChain Adj ∧ (∀ t ∈ c.tokens, t ∈ operators ∨ Atom t) ∧ (∀ t, c.tokens.head? = some t → t ∉ comparisonOps) ∧
    c.op.token ∈ c.tokens := by
  obtain ⟨l1, l2, l3, l4⟩ := side_chain c.lhs num G h.1
  obtain ⟨r1, r2, r3, r4⟩ := side_chain c.rhs num G h.2
  have hne : c.lhs.tokens ≠ [] := by
    unfold Side.tokens
    cases c.lhs.first <;> simp [Term.tokens]
  have hop : c.op.token ∈ operators := by
    have := cmp_mem c.op
    simp [operators, nonMulOps, this]
  unfold Constraint.tokens
  refine ⟨?_, ?_, ?_, by simp⟩
  · refine List.isChain_append.2 ⟨l1, ?_, ?_⟩
    · rw [List.isChain_cons]
      exact ⟨fun y hy => ⟨Or.inl hop, fun hh => r3 y hy hh.2⟩, r1⟩
    · intro x hx y hy
      simp only [List.head?_cons, Option.mem_def, Option.some.injEq] at hy
      subst hy
      exact ⟨Or.inr hop, fun hh => l4 x hx (by simp [operators, nonMulOps, hh.1])⟩
  · intro t ht
    rcases List.mem_append.1 ht with ht | ht
    · exact l2 t ht
    · rcases List.mem_cons.1 ht with rfl | ht
      · exact Or.inl hop
      · exact r2 t ht
  · intro t ht
    rw [List.head?_append_of_ne_nil _ hne] at ht
    exact l3 t ht

omit [Field K] [LinearOrder K] [IsStrictOrderedRing K] in
theorem split_of_layout (num : Word → Option K) (G : List (Fin n → Word)) (c : Constraint) (h : c.WF num G) (s : Word)
    (hl : Layout c.tokens s) (hn : '\n' ∉ s) : splitEquationString s = .ok c.tokens := by
  obtain ⟨h1, h2, h3, h4⟩ := constraint_lex num G c h
  have heq : '=' ∈ s := layout_mem hl c.op.token h4 '=' (by cases c.op <;> decide)
  have hhead : s.head? ≠ some '=' := by
    intro he
    obtain ⟨t, ts', e, ht⟩ := layout_head hl h2 he
    exact h3 t (by rw [e]; rfl) ht
  have htail : '=' ∈ s.tail := by
    cases s with
    | nil => simp at heq
    | cons x s =>
      rcases List.mem_cons.1 heq with rfl | hh
      · simp at hhead
      · exact hh
  unfold splitEquationString
  rw [hasComparison_tail s hn, hasInvalid_good s (good_layout hl h2)]
  simp only [htail, decide_true, Bool.true_eq_false, Bool.false_eq_true, if_false]
  rw [(tokens_of_layout hl h2).1 [] (by simp) h1]

omit [LinearOrder K] [IsStrictOrderedRing K] in
theorem constraint_ok (num : Word → Option K) (G : List (Fin n → Word)) (c : Constraint) (h : c.WF num G) :
    ∀ it ∈ constraintItems c, it.term.Ok num G := by
  intro it hit
  unfold constraintItems sideItems at hit
  simp only [List.mem_append, List.mem_cons, List.mem_map] at hit
  rcases hit with (rfl | ⟨p, hp, rfl⟩) | (rfl | ⟨p, hp, rfl⟩)
  · exact h.1.1.ok
  · exact (h.1.2 p hp).ok
  · exact h.2.1.ok
  · exact (h.2.2 p hp).ok

omit [LinearOrder K] [IsStrictOrderedRing K] in
theorem stringToEquation_inv (num : Word → Option K) (G : List (Fin n → Word)) (hnum : ∀ o ∈ operators, num o = none)
    (hG : ∀ o ∈ operators, ¬ IsName G o) (avg : Bool) (s : Word) (a : Fin n → K) (b : K) (q : Bool)
    (h : stringToEquation num G avg s = .ok (a, b, q)) :
    ∃ (items : List Item) (st : St K n) (c : K), Layout (items.flatMap Item.tokens) s ∧ clean (splitOps s []) = items.flatMap Item.tokens ∧
      (∀ it ∈ items, it.term.Ok num G) ∧ (∀ it ∈ items.tail, it.led) ∧ items.length < 1000000 ∧
      run num G avg 1000000 St.init (items.flatMap Item.tokens) = .ok st ∧ st.comparisonSign = some c ∧ st.isInequality = some q ∧
      a = (fun j => st.left j * c) ∧ b = st.right * -c := by
  unfold stringToEquation splitEquationString at h
  split_ifs at h with h1 h2
  · simp only at h
    cases hr : run num G avg 1000000 St.init (clean (splitOps s [])) with
    | error e => simp [hr] at h
    | ok st =>
      simp only [hr] at h
      obtain ⟨items, i1, i2, i3, i4⟩ := run_inv num G hnum hG avg 1000000 St.init st _ (chain_tokens s []) hr
      cases hc : st.comparisonSign with
      | none => simp [hc] at h
      | some c =>
        cases hq : st.isInequality with
        | none => simp [hc, hq] at h
        | some q' =>
          simp only [hc, hq, Except.ok.injEq, Prod.mk.injEq] at h
          obtain ⟨e1, e2, e3⟩ := h
          have hl := layout_tokens s []
          rw [List.nil_append, i4] at hl
          refine ⟨items, st, c, hl, i4, i1, i2, i3, ?_, hc, by rw [hq, e3], e1.symm, e2.symm⟩
          rw [← i4]; exact hr

omit [Field K] [LinearOrder K] [IsStrictOrderedRing K] in
theorem split_items (items : List Item) :
    (∀ it ∈ items, it.cmp = none) ∨ ∃ l it r, items = l ++ it :: r ∧ (∀ x ∈ l, x.cmp = none) ∧ it.cmp ≠ none := by
  induction items with
  | nil => exact Or.inl (by simp)
  | cons x items ih =>
    by_cases hx : x.cmp = none
    · rcases ih with h | ⟨l, it, r, h1, h2, h3⟩
      · left; intro it hit
        rcases List.mem_cons.1 hit with rfl | hit
        · exact hx
        · exact h it hit
      · right
        refine ⟨x :: l, it, r, by rw [h1]; rfl, ?_, h3⟩
        intro y hy
        rcases List.mem_cons.1 hy with rfl | hy
        · exact hx
        · exact h2 y hy
    · exact Or.inr ⟨[], x, items, rfl, by simp, hx⟩

omit [Field K] [LinearOrder K] [IsStrictOrderedRing K] in
theorem rest_of_items (l : List Item) (h : ∀ x ∈ l, x.cmp = none) (hled : ∀ x ∈ l, x.led) :
    ∃ r : List (Sgn × Term), l = r.map fun p => (⟨none, some p.1, p.2⟩ : Item) := by
  induction l with
  | nil => exact ⟨[], rfl⟩
  | cons x l ih =>
    obtain ⟨r, hr⟩ := ih (fun y hy => h y (by simp [hy])) (fun y hy => hled y (by simp [hy]))
    have h1 := h x (by simp)
    have h2 := hled x (by simp)
    obtain ⟨xc, xs, xt⟩ := x
    simp only at h1
    subst h1
    cases xs with
    | none => rcases h2 with h2 | h2 <;> simp at h2
    | some sg => exact ⟨(sg, xt) :: r, by rw [hr]; rfl⟩

omit [Field K] [LinearOrder K] [IsStrictOrderedRing K] in
theorem cmp_count (it : Item) (h : it.cmp ≠ none) : 1 ≤ it.tokens.countP (fun t => decide (t ∈ comparisonOps)) := by
  obtain ⟨c, hc⟩ := Option.ne_none_iff_exists'.1 h
  unfold Item.tokens
  rw [hc]
  simp only [optCmpTokens, List.singleton_append]
  rw [List.countP_cons_of_pos (by simpa using cmp_mem c)]
  omega

omit [LinearOrder K] [IsStrictOrderedRing K] in
theorem foldlM_report (num : Word → Option K) (G : List (Fin n → Word)) (avg raise : Bool) (ss : List Word) (m0 m : Matrices K n)
    (h : ss.foldlM (step num G avg raise) m0 = .ok m) :
    m.warned = m0.warned ++ ss.filter (fun s => groupError (stringToEquation num G avg s)) ∧
    (m.eqRows.length + m.ineqRows.length + m.warned.length = m0.eqRows.length + m0.ineqRows.length + m0.warned.length + ss.length) ∧
    (raise = true → ∀ s ∈ ss, stringToEquation num G avg s ≠ .error .group) ∧
    (∀ s ∈ ss, ∀ err, stringToEquation num G avg s = .error err → err = .group) := by
  induction ss generalizing m0 with
  | nil =>
    simp only [List.foldlM_nil, pure, Except.pure, Except.ok.injEq] at h
    subst h
    simp
  | cons s ss ih =>
    rw [List.foldlM_cons] at h
    cases he : stringToEquation num G avg s with
    | error e =>
      rw [step, he] at h
      cases e with
      | group =>
        cases raise with
        | true => simp [bind, Except.bind] at h
        | false =>
          simp only [Bool.false_eq_true, if_false, bind, Except.bind] at h
          obtain ⟨i1, i2, i3, i4⟩ := ih _ h
          refine ⟨?_, ?_, by simp, ?_⟩
          · rw [i1, List.filter_cons_of_pos (by rw [he]; rfl)]
            simp
          · rw [i2]; simp; omega
          · intro x hx err hxe
            rcases List.mem_cons.1 hx with rfl | hx
            · rw [he] at hxe; simpa using hxe.symm
            · exact i4 x hx err hxe
      | equation => simp [bind, Except.bind] at h
      | duplicate => simp [bind, Except.bind] at h
      | type => simp [bind, Except.bind] at h
      | recursion => simp [bind, Except.bind] at h
    | ok x =>
      obtain ⟨a, b, q⟩ := x
      rw [step, he] at h
      have key : ∀ m1 : Matrices K n, m1.warned = m0.warned →
          m1.eqRows.length + m1.ineqRows.length = m0.eqRows.length + m0.ineqRows.length + 1 →
          ss.foldlM (step num G avg raise) m1 = .ok m → _ := fun m1 hw hlen h => by
        obtain ⟨i1, i2, i3, i4⟩ := ih _ h
        show m.warned = m0.warned ++ (s :: ss).filter (fun s => groupError (stringToEquation num G avg s)) ∧
          (m.eqRows.length + m.ineqRows.length + m.warned.length = m0.eqRows.length + m0.ineqRows.length + m0.warned.length + (s :: ss).length) ∧
          (raise = true → ∀ x ∈ s :: ss, stringToEquation num G avg x ≠ .error .group) ∧
          (∀ x ∈ s :: ss, ∀ err, stringToEquation num G avg x = .error err → err = .group)
        refine ⟨?_, ?_, ?_, ?_⟩
        · rw [i1, hw, List.filter_cons_of_neg (by rw [he]; simp [groupError])]
        · rw [i2, hw]; simp; omega
        · intro hr x hx
          rcases List.mem_cons.1 hx with rfl | hx
          · rw [he]; simp
          · exact i3 hr x hx
        · intro x hx err hxe
          rcases List.mem_cons.1 hx with rfl | hx
          · rw [he] at hxe; simp at hxe
          · exact i4 x hx err hxe
      cases q with
      | true => exact key { m0 with ineqRows := m0.ineqRows ++ [(a, b)] } rfl (by simp; omega) h
      | false => exact key { m0 with eqRows := m0.eqRows ++ [(a, b)] } rfl (by simp; omega) h

/-- Texts made of items are accepted with the last comparison operator. -/
theorem accept_items (num : Word → Option K) (G : List (Fin n → Word)) (avg : Bool) (items : List Item)
    (hok : ∀ it ∈ items, it.term.Ok num G) (hled : ∀ it ∈ items.tail, it.led) (hlen : items.length < 1000000) (op : Cmp)
    (hop : lastCmp none items = some op) (s : Word) (hs : splitEquationString s = .ok (items.flatMap Item.tokens)) :
    ∃ a b, stringToEquation num G avg s = .ok (a, b, op.isInequality) ∧
      ∀ w, RowHolds op.isInequality a b w ↔ op.holds (itemsVal num G avg w 1 items) 0 := by
  obtain ⟨st, h1, h2, h3, h4⟩ := run_items num G avg items hok hled 1000000 hlen St.init none rfl rfl
  rw [hop] at h2 h3
  refine ⟨fun j => st.left j * op.sign, st.right * -op.sign, ?_, fun w => ?_⟩
  · unfold stringToEquation
    rw [hs]
    simp only [h1, h2, h3, Option.map_some]
  · refine row_of_phi st.left st.right op w _ _ ?_
    have h0 : (St.init : St K n).phi w = 0 := by simp [St.phi, St.init]
    have := h4 w
    rw [h0] at this
    unfold St.phi at this
    rw [this]; simp [St.init]

end

end Skfolio.Equations
