import Verif.Equations.LexLemmas
import Mathlib.Tactic.Ring
import Mathlib.Algebra.BigOperators.Ring.Finset
import Mathlib.Algebra.BigOperators.Field
import Mathlib.Tactic.Linarith

/-! Helper lemmas about the parser. -/
set_option autoImplicit false

namespace Skfolio.Equations

/-- One iteration of the loop reads one item: an optional comparison, an optional sign and a term. -/
structure Item where
  cmp : Option Cmp
  sgn : Option Sgn
  term : Term

def optCmpTokens : Option Cmp → List Word
  | none => []
  | some c => [c.token]

def Item.tokens (it : Item) : List Word := optCmpTokens it.cmp ++ (optSgnTokens it.sgn ++ it.term.tokens)

/-- The item starts with an operator. -/
def Item.led (it : Item) : Prop := it.cmp.isSome ∨ it.sgn.isSome

section
variable {K : Type} [Field K] {n : Nat}

/-- What the parser needs of a term. -/
def Term.Ok (num : Word → Option K) (G : List (Fin n → Word)) : Term → Prop
  | .num s => s ∉ operators ∧ isGroup G s = false ∧ num s ≠ none
  | .name g => g ∉ operators ∧ isGroup G g = true
  | .mulL s g => s ∉ operators ∧ isGroup G s = false ∧ num s ≠ none ∧ isGroup G g = true ∧ g ∉ operators
  | .mulR g s => g ∉ operators ∧ isGroup G g = true ∧ num s ≠ none ∧ s ∉ operators

theorem isGroup_iff (G : List (Fin n → Word)) (g : Word) : isGroup G g = true ↔ IsName G g := by
  unfold isGroup IsName
  simp [List.any_eq_true]

theorem atom_not_op {w : Word} (h : Atom w) : w ∉ operators := by
  intro hw
  rw [mem_operators] at hw
  rcases hw with rfl | rfl | rfl | rfl | rfl | rfl | rfl
  · exact absurd (h.noOp '>' (by simp [ge])) (by decide)
  · exact absurd (h.noOp '<' (by simp [le])) (by decide)
  · exact absurd (h.noOp '=' (by simp [eqeq])) (by decide)
  · exact absurd (h.noOp '=' (by simp [eq1])) (by decide)
  · exact absurd (h.noOp '-' (by simp [minus])) (by decide)
  · exact absurd (h.noOp '+' (by simp [plus])) (by decide)
  · exact absurd (h.noOp '*' (by simp [times])) (by decide)

theorem Term.WF.ok {num : Word → Option K} {G : List (Fin n → Word)} {t : Term} (h : t.WF num G) : t.Ok num G := by
  have hg : ∀ s, ¬ IsName G s → isGroup G s = false := by
    intro s hs
    rw [← isGroup_iff] at hs
    simpa using hs
  cases t with
  | num s => exact ⟨atom_not_op h.2, hg s h.1.2, h.1.1⟩
  | name g => exact ⟨atom_not_op h.2, (isGroup_iff G g).2 h.1⟩
  | mulL s g => exact ⟨atom_not_op h.2.1, hg s h.1.2, h.1.1, (isGroup_iff G g).2 h.2.2.1, atom_not_op h.2.2.2⟩
  | mulR g s => exact ⟨atom_not_op h.2.2.2, (isGroup_iff G g).2 h.2.2.1, h.1.1, atom_not_op h.2.1⟩

/-! ### values -/

/-- `left · w + right`. -/
def St.phi (st : St K n) (w : Fin n → K) : K := (∑ j, st.left j * w j) + st.right

theorem phi_addRight (st : St K n) (c : K) (w : Fin n → K) : (st.addRight c).phi w = st.phi w + c := by
  unfold St.phi St.addRight; simp only; ring

theorem phi_addLeft (st : St K n) (c : K) (arr w : Fin n → K) :
    (st.addLeft c arr).phi w = st.phi w + c * ∑ j, arr j * w j := by
  unfold St.phi St.addLeft
  simp only [add_mul, Finset.sum_add_distrib]
  rw [Finset.mul_sum]
  have : ∑ x, c * arr x * w x = ∑ i, c * (arr i * w i) := by
    apply Finset.sum_congr rfl; intros; ring
  rw [this]; ring

theorem matchingArray_group [LinearOrder K] (G : List (Fin n → Word)) (g : Word) (avg : Bool) (h : isGroup G g = true) :
    ∃ arr : Fin n → K, matchingArray G g avg = .ok arr ∧ ∀ w, ∑ j, arr j * w j = groupVal G avg w g := by
  have hex : ∃ j : Fin n, ∃ row ∈ G, row j = g := by
    obtain ⟨row, hr, j, hj⟩ := (isGroup_iff G g).1 h
    exact ⟨j, row, hr, hj⟩
  unfold matchingArray
  rw [if_pos hex]
  refine ⟨_, rfl, ?_⟩
  intro w
  unfold groupVal
  rw [Finset.sum_div]
  apply Finset.sum_congr rfl
  intro j _
  have hcard : groupCount G g = (Finset.univ.filter fun j : Fin n => Belongs G g j).card := by
    unfold groupCount Belongs
    congr 1
  rw [hcard]
  by_cases hj : Belongs G g j
  · rw [if_pos hj, if_pos (show ∃ row ∈ G, row j = g from hj)]; ring
  · rw [if_neg hj, if_neg (show ¬ ∃ row ∈ G, row j = g from hj)]; simp

theorem subAddSign_sgn (s : Sgn) : (subAddSign s.token : K) = s.val := by
  cases s
  · simp [subAddSign, Sgn.token, Sgn.val, minus]
  · simp [subAddSign, Sgn.token, Sgn.val, minus]

theorem sgn_mem (s : Sgn) : s.token ∈ subAddOps := by cases s <;> decide

theorem cmp_mem (c : Cmp) : c.token ∈ comparisonOps := by cases c <;> decide

theorem cmp_not_sub (o : Word) (h : o ∈ comparisonOps) : o ∉ subAddOps := by
  rw [mem_comparisonOps] at h
  rcases h with rfl | rfl | rfl | rfl <;> decide

theorem not_op_parts {w : Word} (h : w ∉ operators) : w ∉ comparisonOps ∧ w ∉ subAddOps ∧ w ∉ mulOps := by
  refine ⟨?_, ?_, ?_⟩ <;> intro hw <;> apply h <;> simp [operators, nonMulOps, hw]

theorem op_cases {w : Word} (h : w ∈ operators) : w ∈ nonMulOps ∨ w ∈ mulOps := by
  simpa [operators] using h

theorem sub_exists {o : Word} (h : o ∈ subAddOps) : ∃ s : Sgn, o = s.token := by
  rw [mem_subAddOps] at h
  rcases h with rfl | rfl
  · exact ⟨.neg, rfl⟩
  · exact ⟨.pos, rfl⟩

theorem cmp_exists {o : Word} (h : o ∈ comparisonOps) : ∃ c : Cmp, o = c.token := by
  rw [mem_comparisonOps] at h
  rcases h with rfl | rfl | rfl | rfl
  · exact ⟨.ge, rfl⟩
  · exact ⟨.le, rfl⟩
  · exact ⟨.eqeq, rfl⟩
  · exact ⟨.eq, rfl⟩

/-! ### the head of an item -/

/-- The sign of a comparison in the final row. -/
def Cmp.sign : Cmp → K
  | .le => 1
  | .ge => -1
  | .eqeq => 1
  | .eq => 1

/-- Effect of the comparison of an item on the state. -/
def applyCmp (st : St K n) : Option Cmp → St K n
  | none => st
  | some c => { st with isInequality := some c.isInequality, mainSign := -1, comparisonSign := some c.sign }

theorem readHead_item (st : St K n) (it : Item) (num : Word → Option K) (G : List (Fin n → Word)) (h : it.term.Ok num G) (r : List Word) :
    readHead st (it.tokens ++ r) = .ok (optSgnVal it.sgn, applyCmp st it.cmp, it.term.tokens ++ r) := by
  obtain ⟨t0, tl, htok, hno⟩ : ∃ t0 tl, it.term.tokens = t0 :: tl ∧ t0 ∉ operators := by
    cases ht : it.term with
    | num s => rw [ht] at h; exact ⟨s, [], rfl, h.1⟩
    | name s => rw [ht] at h; exact ⟨s, [], rfl, h.1⟩
    | mulL s g => rw [ht] at h; exact ⟨s, _, rfl, h.1⟩
    | mulR s g => rw [ht] at h; exact ⟨s, _, rfl, h.1⟩
  obtain ⟨hc, hs, hm⟩ := not_op_parts hno
  have hread : readSign (K := K) (optSgnTokens it.sgn ++ it.term.tokens ++ r) = (optSgnVal it.sgn, it.term.tokens ++ r) := by
    cases hsg : it.sgn with
    | none =>
      rw [htok]
      simp [optSgnTokens, readSign, hs, optSgnVal]
    | some s =>
      simp [optSgnTokens, readSign, sgn_mem, optSgnVal, subAddSign_sgn]
  unfold Item.tokens
  cases hcmp : it.cmp with
  | some c =>
    simp only [optCmpTokens, List.cons_append, List.nil_append]
    rw [readHead]
    rw [if_pos (cmp_mem c)]
    simp only [hread, applyCmp]
    congr 3
    cases c <;> rfl
  | none =>
    simp only [optCmpTokens, List.nil_append, applyCmp]
    cases hsg : it.sgn with
    | none =>
      simp only [optSgnTokens, List.nil_append, htok, List.cons_append, optSgnVal]
      rw [readHead]
      rw [if_neg hc, if_neg hs, if_neg hm]
    | some s =>
      simp only [optSgnTokens, List.cons_append, List.nil_append, optSgnVal]
      rw [readHead]
      rw [if_neg (fun hx => cmp_not_sub _ hx (sgn_mem s)), if_pos (sgn_mem s), subAddSign_sgn]

/-- `r` is empty or starts with an operator other than `*`. -/
def EndsTerm (r : List Word) : Prop := ∀ t, r.head? = some t → t ∈ nonMulOps

theorem mul_not_nonMul : times ∉ nonMulOps := by decide

theorem readTerm_ok [LinearOrder K] (num : Word → Option K) (G : List (Fin n → Word)) (avg : Bool) (sign : K) (st : St K n) (t : Term)
    (ht : t.Ok num G) (r : List Word) (hr : EndsTerm r) :
    ∃ st', readTerm num G avg sign st (t.tokens ++ r) = .ok (st', r) ∧ st'.mainSign = st.mainSign ∧
      st'.comparisonSign = st.comparisonSign ∧ st'.isInequality = st.isInequality ∧
      ∀ w, st'.phi w = st.phi w + sign * t.val num G avg w := by
  have htimes : (['*'] : Word) ∈ mulOps := by decide
  have hnt : (['*'] : Word) ∉ nonMulOps := by decide
  cases t with
  | num s =>
    obtain ⟨h1, h2, h3⟩ := ht
    obtain ⟨x, hx⟩ := Option.ne_none_iff_exists'.1 h3
    refine ⟨st.addRight (x * sign), ?_, rfl, rfl, rfl, ?_⟩
    · unfold Term.tokens readTerm
      simp only [List.cons_append, List.nil_append]
      rw [if_neg h1, h2]
      simp only [Bool.false_eq_true, if_false, hx]
      cases r with
      | nil => rfl
      | cons e2 r2 =>
        have he2 := hr e2 rfl
        have : e2 ∉ mulOps := by
          intro hm; rw [mem_mulOps] at hm; rw [hm] at he2; exact mul_not_nonMul he2
        simp only [if_neg this, if_pos he2]
    · intro w; rw [phi_addRight]; simp only [Term.val, numVal, hx, Option.getD_some]; ring
  | name g =>
    obtain ⟨h1, h2⟩ := ht
    obtain ⟨arr, ha, hv⟩ := matchingArray_group (K := K) G g avg h2
    refine ⟨st.addLeft sign arr, ?_, rfl, rfl, rfl, ?_⟩
    · unfold Term.tokens readTerm
      simp only [List.cons_append, List.nil_append]
      rw [if_neg h1, h2]
      simp only [if_true, ha]
      cases r with
      | nil => rfl
      | cons e2 r2 =>
        have he2 := hr e2 rfl
        simp only [if_pos he2]
    · intro w; rw [phi_addLeft, hv]; rfl
  | mulL s g =>
    obtain ⟨h1, h2, h3, h4, -⟩ := ht
    obtain ⟨x, hx⟩ := Option.ne_none_iff_exists'.1 h3
    obtain ⟨arr, ha, hv⟩ := matchingArray_group (K := K) G g avg h4
    refine ⟨st.addLeft (x * sign) arr, ?_, rfl, rfl, rfl, ?_⟩
    · unfold Term.tokens readTerm
      simp only [List.cons_append, List.nil_append]
      rw [if_neg h1, h2]
      simp only [Bool.false_eq_true, if_false, hx, if_pos htimes, h4, if_true, ha]
    · intro w; rw [phi_addLeft, hv]; simp only [Term.val, numVal, hx, Option.getD_some]; ring
  | mulR g s =>
    obtain ⟨h1, h2, h3, -⟩ := ht
    obtain ⟨x, hx⟩ := Option.ne_none_iff_exists'.1 h3
    obtain ⟨arr, ha, hv⟩ := matchingArray_group (K := K) G g avg h2
    refine ⟨st.addLeft (x * sign) arr, ?_, rfl, rfl, rfl, ?_⟩
    · unfold Term.tokens readTerm
      simp only [List.cons_append, List.nil_append]
      rw [if_neg h1, h2]
      simp only [if_true, ha, if_neg hnt, if_pos htimes, hx]
    · intro w; rw [phi_addLeft, hv]; simp only [Term.val, numVal, hx, Option.getD_some]; ring

/-! ### the loop on a list of items -/

/-- Main sign after an item. -/
def mainAfter (main : K) : Option Cmp → K
  | none => main
  | some _ => -1

/-- Total contribution of a list of items. -/
def itemsVal [LinearOrder K] (num : Word → Option K) (G : List (Fin n → Word)) (avg : Bool) (w : Fin n → K) : K → List Item → K
  | _, [] => 0
  | main, it :: l => mainAfter main it.cmp * (optSgnVal it.sgn * it.term.val num G avg w) + itemsVal num G avg w (mainAfter main it.cmp) l

/-- Last comparison of a list of items. -/
def lastCmp : Option Cmp → List Item → Option Cmp
  | c, [] => c
  | c, it :: l => lastCmp (it.cmp.or c) l

theorem run_items [LinearOrder K] (num : Word → Option K) (G : List (Fin n → Word)) (avg : Bool) (items : List Item)
    (hok : ∀ it ∈ items, it.term.Ok num G) (hled : ∀ it ∈ items.tail, it.led) (fuel : Nat) (hf : items.length < fuel) (st : St K n)
    (c : Option Cmp) (hc1 : st.comparisonSign = c.map Cmp.sign) (hc2 : st.isInequality = c.map Cmp.isInequality) :
    ∃ st', run num G avg fuel st (items.flatMap Item.tokens) = .ok st' ∧
      st'.comparisonSign = (lastCmp c items).map Cmp.sign ∧ st'.isInequality = (lastCmp c items).map Cmp.isInequality ∧
      ∀ w, st'.phi w = st.phi w + itemsVal num G avg w st.mainSign items := by
  induction items generalizing fuel st c with
  | nil =>
    obtain ⟨f, rfl⟩ : ∃ f, fuel = f + 1 := ⟨fuel - 1, by simp at hf; omega⟩
    refine ⟨st, by simp [run], hc1, hc2, fun w => by simp [itemsVal]⟩
  | cons it items ih =>
    obtain ⟨f, rfl⟩ : ∃ f, fuel = f + 1 := ⟨fuel - 1, by simp at hf; omega⟩
    have hit := hok it (by simp)
    have hends : EndsTerm (items.flatMap Item.tokens) := by
      intro t ht
      cases items with
      | nil => simp at ht
      | cons it2 items =>
        have hl := hled it2 (by simp)
        rw [List.flatMap_cons] at ht
        unfold Item.tokens at ht
        cases hcm : it2.cmp with
        | some c =>
          rw [hcm] at ht
          simp only [optCmpTokens, List.cons_append, List.nil_append, List.head?_cons, Option.some.injEq] at ht
          rw [← ht, mem_nonMulOps]; exact Or.inl (cmp_mem c)
        | none =>
          cases hsg : it2.sgn with
          | some s =>
            rw [hcm, hsg] at ht
            simp only [optCmpTokens, optSgnTokens, List.cons_append, List.nil_append, List.head?_cons, Option.some.injEq] at ht
            rw [← ht, mem_nonMulOps]; exact Or.inr (sgn_mem s)
          | none => rw [Item.led, hcm, hsg] at hl; simp at hl
    have hne : it.tokens ++ items.flatMap Item.tokens ≠ [] := by
      unfold Item.tokens
      cases it.term <;> simp [Term.tokens]
    obtain ⟨st1, h1, h2, h3, h4, h5⟩ := readTerm_ok num G avg (optSgnVal it.sgn * (applyCmp st it.cmp).mainSign) (applyCmp st it.cmp)
      it.term hit _ hends
    have hcs : st1.comparisonSign = (it.cmp.or c).map Cmp.sign := by
      rw [h3]; cases it.cmp with
      | none => simpa [applyCmp] using hc1
      | some d => simp [applyCmp]
    have hci : st1.isInequality = (it.cmp.or c).map Cmp.isInequality := by
      rw [h4]; cases it.cmp with
      | none => simpa [applyCmp] using hc2
      | some d => simp [applyCmp]
    obtain ⟨st', g1, g2, g3, g4⟩ := ih (fun x hx => hok x (by simp [hx])) (fun x hx => hled x (by
      simp only [List.tail_cons]; exact List.mem_of_mem_tail hx)) f (by simp at hf; omega) st1 _ hcs hci
    refine ⟨st', ?_, g2, g3, ?_⟩
    · rw [List.flatMap_cons, run, if_neg hne, readHead_item st it num G hit]
      simp only [h1]
      exact g1
    · intro w
      have hm : st1.mainSign = mainAfter st.mainSign it.cmp := by
        rw [h2]; cases it.cmp <;> rfl
      have hm' : (applyCmp st it.cmp).mainSign = mainAfter st.mainSign it.cmp := by cases it.cmp <;> rfl
      have hphi : (applyCmp st it.cmp).phi w = st.phi w := by cases it.cmp <;> rfl
      rw [g4, h5, hm, hm', hphi, itemsVal]; ring

/-! ### the converse: what the loop accepts -/

theorem matchingArray_ok_or (G : List (Fin n → Word)) (g : Word) (avg : Bool) (h : isGroup G g = true) :
    ∃ arr : Fin n → K, matchingArray G g avg = .ok arr := by
  obtain ⟨row, hr, j, hj⟩ := (isGroup_iff G g).1 h
  unfold matchingArray
  rw [if_pos ⟨j, row, hr, hj⟩]
  exact ⟨_, rfl⟩

theorem readTerm_inv (num : Word → Option K) (G : List (Fin n → Word))
    (hnum : ∀ o ∈ operators, num o = none) (hG : ∀ o ∈ operators, ¬ IsName G o) (avg : Bool) (sign : K) (st st' : St K n) (ts r : List Word)
    (h : readTerm num G avg sign st ts = .ok (st', r)) : ∃ t : Term, t.Ok num G ∧ ts = t.tokens ++ r := by
  cases ts with
  | nil => simp [readTerm] at h
  | cons e r1 =>
    rw [readTerm] at h
    split_ifs at h with h1 h2
    · obtain ⟨arr, ha⟩ := matchingArray_ok_or (K := K) G e avg h2
      rw [ha] at h
      cases r1 with
      | nil =>
        simp only [Except.ok.injEq, Prod.mk.injEq] at h
        exact ⟨.name e, ⟨h1, h2⟩, by rw [← h.2]; rfl⟩
      | cons e2 r2 =>
        simp only at h
        split_ifs at h with h3 h4
        · simp only [Except.ok.injEq, Prod.mk.injEq] at h
          exact ⟨.name e, ⟨h1, h2⟩, by rw [← h.2]; rfl⟩
        · cases r2 with
          | nil => simp at h
          | cons e3 r3 =>
            cases hx : num e3 with
            | none => simp [hx] at h
            | some x =>
              simp only [hx, Except.ok.injEq, Prod.mk.injEq] at h
              rw [mem_mulOps] at h4
              exact ⟨.mulR e e3, ⟨h1, h2, by simp [hx], fun ho => by rw [hnum _ ho] at hx; simp at hx⟩, by rw [← h.2, h4]; rfl⟩
    · have h2' : isGroup G e = false := by simpa using h2
      cases hx : num e with
      | none => simp [hx] at h
      | some x =>
        simp only [hx] at h
        cases r1 with
        | nil =>
          simp only [Except.ok.injEq, Prod.mk.injEq] at h
          exact ⟨.num e, ⟨h1, h2', by simp [hx]⟩, by rw [← h.2]; rfl⟩
        | cons e2 r2 =>
          simp only at h
          split_ifs at h with h3 h4
          · cases r2 with
            | nil => simp at h
            | cons e3 r3 =>
              simp only at h
              split_ifs at h with h5
              obtain ⟨arr, ha⟩ := matchingArray_ok_or (K := K) G e3 avg h5
              rw [ha] at h
              simp only [Except.ok.injEq, Prod.mk.injEq] at h
              rw [mem_mulOps] at h3
              exact ⟨.mulL e e3, ⟨h1, h2', by simp [hx], h5, fun ho => hG _ ho ((isGroup_iff G _).1 h5)⟩, by rw [← h.2, h3]; rfl⟩
          · simp only [Except.ok.injEq, Prod.mk.injEq] at h
            exact ⟨.num e, ⟨h1, h2', by simp [hx]⟩, by rw [← h.2]; rfl⟩

theorem readSign_inv (ts : List Word) : ∃ s : Option Sgn, ts = optSgnTokens s ++ (readSign (K := K) ts).2 := by
  cases ts with
  | nil => exact ⟨none, rfl⟩
  | cons e r =>
    by_cases h : e ∈ subAddOps
    · obtain ⟨s, rfl⟩ := sub_exists h
      exact ⟨some s, by simp [readSign, h, optSgnTokens]⟩
    · exact ⟨none, by simp [readSign, h, optSgnTokens]⟩

theorem readHead_inv (st st' : St K n) (sign : K) (ts r : List Word) (hts : ts ≠ []) (h : readHead st ts = .ok (sign, st', r)) :
    ∃ (c : Option Cmp) (s : Option Sgn), ts = optCmpTokens c ++ (optSgnTokens s ++ r) := by
  cases ts with
  | nil => exact absurd rfl hts
  | cons e r1 =>
    rw [readHead] at h
    split_ifs at h with h1 h2 h3
    · simp only [Except.ok.injEq, Prod.mk.injEq] at h
      obtain ⟨s, hs⟩ := readSign_inv (K := K) r1
      obtain ⟨c, rfl⟩ := cmp_exists h1
      refine ⟨some c, s, ?_⟩
      rw [← h.2.2, ← hs]; rfl
    · simp only [Except.ok.injEq, Prod.mk.injEq] at h
      obtain ⟨s, rfl⟩ := sub_exists h2
      refine ⟨none, some s, ?_⟩
      rw [← h.2.2]; rfl
    · simp only [Except.ok.injEq, Prod.mk.injEq] at h
      refine ⟨none, none, ?_⟩
      rw [← h.2.2]; rfl

theorem item_tokens_ne (it : Item) : it.tokens ≠ [] := by
  unfold Item.tokens
  cases it.term <;> simp [Term.tokens]

theorem run_inv (num : Word → Option K) (G : List (Fin n → Word))
    (hnum : ∀ o ∈ operators, num o = none) (hG : ∀ o ∈ operators, ¬ IsName G o) (avg : Bool) (fuel : Nat) (st st' : St K n) (ts : List Word)
    (hch : ts.IsChain (fun a b => a ∈ operators ∨ b ∈ operators))
    (h : run num G avg fuel st ts = .ok st') :
    ∃ items : List Item, (∀ it ∈ items, it.term.Ok num G) ∧ (∀ it ∈ items.tail, it.led) ∧ items.length < fuel ∧
      ts = items.flatMap Item.tokens := by
  induction fuel generalizing st ts with
  | zero => simp [run] at h
  | succ f ih =>
    rw [run] at h
    split_ifs at h with hts
    · exact ⟨[], by simp, by simp, by simp, by simp [hts]⟩
    · cases hh : readHead st ts with
      | error e => simp [hh] at h
      | ok x =>
        obtain ⟨sign, st1, r1⟩ := x
        rw [hh] at h
        simp only at h
        cases ht : readTerm num G avg (sign * st1.mainSign) st1 r1 with
        | error e => simp [ht] at h
        | ok y =>
          obtain ⟨st2, r2⟩ := y
          rw [ht] at h
          simp only at h
          obtain ⟨c, s, hcs⟩ := readHead_inv st st1 sign ts r1 hts hh
          obtain ⟨t, htok, htt⟩ := readTerm_inv num G hnum hG avg _ st1 st2 r1 r2 ht
          have hts' : ts = (⟨c, s, t⟩ : Item).tokens ++ r2 := by
            rw [hcs, htt]; simp [Item.tokens]
          have hch2 : r2.IsChain (fun a b => a ∈ operators ∨ b ∈ operators) := by
            rw [hts'] at hch
            exact hch.right_of_append
          obtain ⟨items, i1, i2, i3, i4⟩ := ih st2 r2 hch2 h
          refine ⟨⟨c, s, t⟩ :: items, ?_, ?_, by simp; omega, by rw [hts', i4]; rfl⟩
          · intro it hit
            rcases List.mem_cons.1 hit with rfl | hit
            · exact htok
            · exact i1 it hit
          · intro it hit
            simp only [List.tail_cons] at hit
            cases items with
            | nil => simp at hit
            | cons it2 items =>
              rcases List.mem_cons.1 hit with rfl | hit
              · -- the first token after a term is an operator
                by_contra hled
                obtain ⟨ic, is, itt⟩ := it
                have hic : ic = none := by
                  cases ic with
                  | none => rfl
                  | some d => exact absurd (Or.inl rfl) hled
                have his : is = none := by
                  cases is with
                  | none => rfl
                  | some d => exact absurd (Or.inr rfl) hled
                subst hic his
                have hok2 := i1 _ (List.mem_cons_self)
                -- after the term `t`, either the check for an operator or the adjacency of tokens applies
                obtain ⟨t0, tl, e0, hno0⟩ : ∃ t0 tl, itt.tokens = t0 :: tl ∧ t0 ∉ operators := by
                  cases itt with
                  | num s => exact ⟨s, [], rfl, hok2.1⟩
                  | name s => exact ⟨s, [], rfl, hok2.1⟩
                  | mulL s g => exact ⟨s, _, rfl, hok2.1⟩
                  | mulR s g => exact ⟨s, _, rfl, hok2.1⟩
                have hr2 : r2 = t0 :: (tl ++ items.flatMap Item.tokens) := by
                  rw [i4, List.flatMap_cons]
                  simp [Item.tokens, optCmpTokens, optSgnTokens, e0]
                have hadj : ∀ u, t.tokens.getLast? = some u → u ∈ operators ∨ t0 ∈ operators := by
                  intro u hu
                  rw [hts', hr2] at hch
                  have hlast : (⟨c, s, t⟩ : Item).tokens.getLast? = some u := by
                    have hne : t.tokens ≠ [] := by cases t <;> simp [Term.tokens]
                    unfold Item.tokens
                    rw [List.getLast?_append_of_ne_nil _ (by simp [hne]), List.getLast?_append_of_ne_nil _ hne]
                    exact hu
                  exact (List.isChain_append.1 hch).2.2 u hlast t0 (by simp)
                cases t with
                | num x =>
                  rcases hadj x rfl with h' | h'
                  · exact htok.1 h'
                  · exact hno0 h'
                | name x =>
                  rcases hadj x rfl with h' | h'
                  · exact htok.1 h'
                  · exact hno0 h'
                | mulL x g =>
                  rcases hadj g rfl with h' | h'
                  · exact htok.2.2.2.2 h'
                  · exact hno0 h'
                | mulR g x =>
                  rcases hadj x rfl with h' | h'
                  · exact htok.2.2.2 h'
                  · exact hno0 h'
              · exact i2 it (by simpa using hit)

end

end Skfolio.Equations
