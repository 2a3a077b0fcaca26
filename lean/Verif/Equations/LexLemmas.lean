import Verif.Equations.Spec

/-! Helper lemmas about the tokenizer. -/
set_option autoImplicit false

namespace Skfolio.Equations

/-! ### strip -/

theorem dropWhile_spaces (sp w : Word) (h : ∀ c ∈ sp, isSpace c = true) : (sp ++ w).dropWhile isSpace = w.dropWhile isSpace := by
  induction sp with
  | nil => rfl
  | cons c sp ih =>
    rw [List.cons_append, List.dropWhile_cons_of_pos (h c (by simp))]
    exact ih (fun x hx => h x (by simp [hx]))

theorem dropWhile_split (w : Word) : ∃ sp, (∀ c ∈ sp, isSpace c = true) ∧ w = sp ++ w.dropWhile isSpace := by
  refine ⟨w.takeWhile isSpace, ?_, (List.takeWhile_append_dropWhile).symm⟩
  intro c hc
  induction w with
  | nil => simp at hc
  | cons a w ih =>
    rw [List.takeWhile_cons] at hc
    split_ifs at hc with ha
    · rcases List.mem_cons.1 hc with rfl | hc
      · exact ha
      · exact ih hc
    · simp at hc

theorem strip_split (w : Word) : ∃ sp sp', (∀ c ∈ sp, isSpace c = true) ∧ (∀ c ∈ sp', isSpace c = true) ∧ w = sp ++ strip w ++ sp' := by
  obtain ⟨sp, h1, h2⟩ := dropWhile_split w
  obtain ⟨sp', h3, h4⟩ := dropWhile_split (w.dropWhile isSpace).reverse
  refine ⟨sp, sp'.reverse, h1, fun c hc => h3 c (by simpa using hc), ?_⟩
  have h5 : w.dropWhile isSpace = strip w ++ sp'.reverse := by
    have := congrArg List.reverse h4
    rw [List.reverse_reverse, List.reverse_append] at this
    rw [this]; rfl
  rw [List.append_assoc, ← h5]; exact h2

theorem strip_spaces (w : Word) (h : ∀ c ∈ w, isSpace c = true) : strip w = [] := by
  unfold strip
  have : w.dropWhile isSpace = [] := by
    have := dropWhile_spaces w [] h
    simpa using this
  rw [this]; rfl

theorem dropWhile_head (w : Word) (h : ∀ c, w.head? = some c → isSpace c = false) : w.dropWhile isSpace = w := by
  cases w with
  | nil => rfl
  | cons c w => rw [List.dropWhile_cons_of_neg]; simp [h c rfl]

theorem strip_atom (sp t sp' : Word) (h1 : ∀ c ∈ sp, isSpace c = true) (h2 : ∀ c ∈ sp', isSpace c = true) (ht : Atom t) :
    strip (sp ++ t ++ sp') = t := by
  unfold strip
  rw [List.append_assoc, dropWhile_spaces _ _ h1]
  have e1 : (t ++ sp').dropWhile isSpace = t ++ sp' := by
    apply dropWhile_head
    intro c hc
    apply ht.head
    cases t with
    | nil => exact absurd rfl ht.ne
    | cons a t => simpa using hc
  rw [e1, List.reverse_append, dropWhile_spaces _ _ (fun c hc => h2 c (by simpa using hc))]
  rw [dropWhile_head]
  · simp
  · intro c hc
    apply ht.last
    rw [← List.head?_reverse]; exact hc

/-! ### one step of the splitter -/

theorem splitOps_char (c : Char) (r acc : Word) (h : isOpChar c = false) : splitOps (c :: r) acc = splitOps r (acc ++ [c]) := by
  rw [splitOps] <;> (intros; subst_vars; simp [isOpChar] at h)

theorem splitOps_word (u r acc : Word) (h : ∀ c ∈ u, isOpChar c = false) : splitOps (u ++ r) acc = splitOps r (acc ++ u) := by
  induction u generalizing acc with
  | nil => simp
  | cons c u ih =>
    rw [List.cons_append, splitOps_char _ _ _ (h c (by simp)), ih _ (fun x hx => h x (by simp [hx]))]
    simp

theorem isSpace_noOp (c : Char) (h : isSpace c = true) : isOpChar c = false := by
  unfold isSpace at h
  simp only [Bool.or_eq_true, beq_iff_eq] at h
  rcases h with ((((rfl | rfl) | rfl) | rfl) | rfl) | rfl <;> decide

theorem mem_operators (o : Word) : o ∈ operators ↔ (o = ge ∨ o = le ∨ o = eqeq ∨ o = eq1 ∨ o = minus ∨ o = plus ∨ o = times) := by
  simp only [operators, nonMulOps, comparisonOps, equalityOps, inequalityOps, subAddOps, mulOps, List.mem_append, List.mem_cons,
    List.not_mem_nil, or_false]
  constructor <;> rintro h <;> aesop

theorem mem_comparisonOps (o : Word) : o ∈ comparisonOps ↔ (o = ge ∨ o = le ∨ o = eqeq ∨ o = eq1) := by
  simp only [comparisonOps, equalityOps, inequalityOps, List.mem_append, List.mem_cons, List.not_mem_nil, or_false]
  constructor <;> rintro h <;> aesop

theorem mem_subAddOps (o : Word) : o ∈ subAddOps ↔ (o = minus ∨ o = plus) := by
  simp [subAddOps]

theorem mem_mulOps (o : Word) : o ∈ mulOps ↔ o = times := by simp [mulOps]

theorem mem_nonMulOps (o : Word) : o ∈ nonMulOps ↔ (o ∈ comparisonOps ∨ o ∈ subAddOps) := by simp [nonMulOps]

theorem splitOps_op (o r acc : Word) (ho : o ∈ operators) (he : o = eq1 → r.head? ≠ some '=') :
    splitOps (o ++ r) acc = acc :: o :: splitOps r [] := by
  rw [mem_operators] at ho
  rcases ho with rfl | rfl | rfl | rfl | rfl | rfl | rfl
  · simp [ge, splitOps]
  · simp [le, splitOps]
  · simp [eqeq, splitOps]
  · cases r with
    | nil => simp [eq1, splitOps]
    | cons c r =>
      have hc : c ≠ '=' := by
        intro h; exact he rfl (by rw [h]; rfl)
      simp only [eq1, List.cons_append, List.nil_append]
      rw [splitOps]
      · rfl
      · intro r' h
        simp only [List.cons.injEq] at h
        exact hc h.1
  · simp [minus, splitOps]
  · simp [plus, splitOps]
  · simp [times, splitOps]

/-! ### the tokens of a laid out text -/

/-- What may be adjacent in a token list. -/
def Adj (a b : Word) : Prop := (a ∈ operators ∨ b ∈ operators) ∧ ¬ (a ∈ comparisonOps ∧ b ∈ comparisonOps)

theorem clean_cons (x : Word) (l : List Word) : clean (x :: l) = if strip x = [] then clean l else strip x :: clean l := by
  unfold clean
  rw [List.map_cons, List.filter_cons]
  by_cases h : strip x = [] <;> simp [h]

theorem strip_op (o : Word) (ho : o ∈ operators) : strip o = o ∧ o ≠ [] := by
  rw [mem_operators] at ho
  rcases ho with rfl | rfl | rfl | rfl | rfl | rfl | rfl <;> decide

theorem layout_head {ts : List Word} {s : Word} (h : Layout ts s) (hlex : ∀ t ∈ ts, t ∈ operators ∨ Atom t)
    (he : s.head? = some '=') : ∃ t ts', ts = t :: ts' ∧ t ∈ comparisonOps := by
  cases h with
  | nil sp hsp =>
    cases s with
    | nil => simp at he
    | cons c s =>
      simp only [List.head?_cons, Option.some.injEq] at he
      subst he
      exact absurd (hsp '=' (by simp)) (by decide)
  | cons sp t ts s hsp hl =>
    cases sp with
    | cons c sp =>
      simp only [List.cons_append, List.head?_cons, Option.some.injEq] at he
      subst he
      exact absurd (hsp '=' (by simp)) (by decide)
    | nil =>
      refine ⟨t, ts, rfl, ?_⟩
      rcases hlex t (by simp) with ho | ha
      · rw [mem_operators] at ho
        rw [mem_comparisonOps]
        rcases ho with rfl | rfl | rfl | rfl | rfl | rfl | rfl
        · simp
        · simp
        · simp
        · simp
        · simp [minus] at he
        · simp [plus] at he
        · simp [times] at he
      · cases t with
        | nil => exact absurd rfl ha.ne
        | cons c t =>
          simp only [List.nil_append, List.cons_append, List.head?_cons, Option.some.injEq] at he
          subst he
          exact absurd (ha.noOp '=' (by simp)) (by decide)

theorem tokens_of_layout {ts : List Word} {s : Word} (h : Layout ts s) (hlex : ∀ t ∈ ts, t ∈ operators ∨ Atom t) :
    (∀ acc, (∀ c ∈ acc, isSpace c = true) → ts.IsChain Adj → clean (splitOps s acc) = ts) ∧
    (∀ sp t sp', (∀ c ∈ sp, isSpace c = true) → (∀ c ∈ sp', isSpace c = true) → Atom t → t ∉ operators → (t :: ts).IsChain Adj →
      clean (splitOps s (sp ++ t ++ sp')) = t :: ts) := by
  induction h with
  | nil sp hsp =>
    have e : ∀ acc, splitOps sp acc = [acc ++ sp] := by
      intro acc
      have := splitOps_word sp [] acc (fun c hc => isSpace_noOp c (hsp c hc))
      rw [List.append_nil] at this
      rw [this]; simp [splitOps]
    refine ⟨?_, ?_⟩
    · intro acc hacc _
      rw [e, clean_cons, strip_spaces]
      · rfl
      · intro c hc
        rcases List.mem_append.1 hc with h | h
        · exact hacc c h
        · exact hsp c h
    · intro sp1 t sp2 h1 h2 ht _ _
      rw [e, List.append_assoc, clean_cons, strip_atom _ _ _ h1 (by
        intro c hc
        rcases List.mem_append.1 hc with h | h
        · exact h2 c h
        · exact hsp c h) ht, if_neg ht.ne]
      rfl
  | cons sp u ts s hsp hl ih =>
    obtain ⟨ih1, ih2⟩ := ih (fun t ht => hlex t (by simp [ht]))
    have e : ∀ acc, splitOps (sp ++ (u ++ s)) acc = splitOps (u ++ s) (acc ++ sp) := fun acc =>
      splitOps_word sp _ acc (fun c hc => isSpace_noOp c (hsp c hc))
    have hop : u ∈ operators → (u :: ts).IsChain Adj → ∀ acc, splitOps (u ++ s) acc = acc :: u :: splitOps s [] := by
      intro hu hch acc
      apply splitOps_op _ _ _ hu
      intro h1 h2
      obtain ⟨t, ts', rfl, ht⟩ := layout_head hl (fun t ht => hlex t (by simp [ht])) h2
      have := (List.isChain_cons_cons.1 hch).1
      exact this.2 ⟨by rw [h1]; decide, ht⟩
    have hspaces : ∀ a : Word, (∀ c ∈ a, isSpace c = true) → ∀ c ∈ a ++ sp, isSpace c = true := by
      intro a ha c hc
      rcases List.mem_append.1 hc with h | h
      · exact ha c h
      · exact hsp c h
    have hnil : ∀ c ∈ ([] : Word), isSpace c = true := by simp
    refine ⟨?_, ?_⟩
    · intro acc hacc hch
      rw [e]
      by_cases hu : u ∈ operators
      · rw [hop hu hch, clean_cons, strip_spaces _ (hspaces acc hacc), if_pos rfl, clean_cons, (strip_op u hu).1,
          if_neg (strip_op u hu).2, ih1 [] hnil hch.tail]
      · have hau : Atom u := (hlex u (by simp)).resolve_left hu
        rw [splitOps_word u s _ hau.noOp]
        have := ih2 (acc ++ sp) u [] (hspaces acc hacc) hnil hau hu hch
        rw [List.append_nil] at this
        exact this
    · intro sp1 t sp2 h1 h2 ht hto hch
      have hadj := (List.isChain_cons_cons.1 hch).1
      have hu : u ∈ operators := hadj.1.resolve_left hto
      rw [e, hop hu hch.tail, clean_cons, List.append_assoc, strip_atom _ _ _ h1 (hspaces sp2 h2) ht, if_neg ht.ne, clean_cons,
        (strip_op u hu).1, if_neg (strip_op u hu).2, ih1 [] hnil hch.tail.tail]

/-! ### the two checks on laid out text -/

theorem hasComparison_started (s : Word) (h : '\n' ∉ s) : hasComparison true s = decide ('=' ∈ s) := by
  induction s with
  | nil => simp [hasComparison]
  | cons c s ih =>
    have hc : c ≠ '\n' := fun e => h (by simp [e])
    rw [hasComparison, ih (fun hm => h (by simp [hm]))]
    by_cases he : c = '='
    · simp [he]
    · have he' : ¬ '=' = c := fun e => he e.symm
      have e1 : (c == '=') = false := by simpa using he
      have e2 : (c != '\n') = true := by simpa using hc
      rw [e1, e2]; simp [he']

theorem hasComparison_tail (s : Word) (h : '\n' ∉ s) : hasComparison false s = decide ('=' ∈ s.tail) := by
  cases s with
  | nil => simp [hasComparison]
  | cons c s =>
    have hc : c ≠ '\n' := fun e => h (by simp [e])
    rw [hasComparison, hasComparison_started s (fun hm => h (by simp [hm]))]
    have e2 : (c != '\n') = true := by simpa using hc
    rw [e2, Bool.false_and, Bool.false_or, Bool.true_and, List.tail_cons]

/-- Every `<` and `>` is followed by `=`. -/
def Good : Word → Prop
  | [] => True
  | c :: r => ((c = '<' ∨ c = '>') → r.head? = some '=') ∧ Good r

theorem hasInvalid_good (s : Word) (h : Good s) (p2 p1 : Option Char) : hasInvalid p2 p1 s = false := by
  induction s generalizing p2 p1 with
  | nil => rfl
  | cons c r ih =>
    rw [hasInvalid, ih h.2]
    by_cases h1 : c = '<'
    · simp [h1, h.1 (Or.inl h1)]
    · by_cases h2 : c = '>'
      · simp [h2, h.1 (Or.inr h2)]
      · simp [h1, h2]

theorem good_append (u r : Word) (hu : ∀ c ∈ u, isOpChar c = false) (hr : Good r) : Good (u ++ r) := by
  induction u with
  | nil => exact hr
  | cons c u ih =>
    refine ⟨?_, ih (fun x hx => hu x (by simp [hx]))⟩
    have := hu c (by simp)
    rintro (rfl | rfl) <;> simp [isOpChar] at this

theorem good_layout {ts : List Word} {s : Word} (h : Layout ts s) (hlex : ∀ t ∈ ts, t ∈ operators ∨ Atom t) : Good s := by
  induction h with
  | nil sp hsp =>
    have := good_append sp [] (fun c hc => isSpace_noOp c (hsp c hc)) trivial
    simpa using this
  | cons sp u ts s hsp hl ih =>
    have hs := ih (fun t ht => hlex t (by simp [ht]))
    apply good_append _ _ (fun c hc => isSpace_noOp c (hsp c hc))
    rcases hlex u (by simp) with ho | ha
    · rw [mem_operators] at ho
      rcases ho with rfl | rfl | rfl | rfl | rfl | rfl | rfl <;> simp [ge, le, eqeq, eq1, minus, plus, times, Good, hs]
    · exact good_append _ _ ha.noOp hs

theorem layout_mem {ts : List Word} {s : Word} (h : Layout ts s) (t : Word) (ht : t ∈ ts) (c : Char) (hc : c ∈ t) : c ∈ s := by
  induction h with
  | nil sp hsp => simp at ht
  | cons sp u ts s hsp hl ih =>
    rcases List.mem_cons.1 ht with rfl | ht
    · simp [hc]
    · simp [ih ht]

/-! ### every text is a layout of its tokens -/

theorem layout_prepend {ts : List Word} {s : Word} (h : Layout ts s) (sp : Word) (hsp : ∀ c ∈ sp, isSpace c = true) :
    Layout ts (sp ++ s) := by
  cases h with
  | nil sp' h' =>
    apply Layout.nil
    intro c hc
    rcases List.mem_append.1 hc with h | h
    · exact hsp c h
    · exact h' c h
  | cons sp' t ts s h' hl =>
    rw [← List.append_assoc]
    apply Layout.cons _ _ _ _ _ hl
    intro c hc
    rcases List.mem_append.1 hc with h | h
    · exact hsp c h
    · exact h' c h

theorem layout_piece (acc : Word) {ts : List Word} {s : Word} (h : Layout ts s) :
    Layout (if strip acc = [] then ts else strip acc :: ts) (acc ++ s) := by
  obtain ⟨sp, sp', h1, h2, h3⟩ := strip_split acc
  by_cases he : strip acc = []
  · rw [if_pos he]
    rw [he, List.append_nil] at h3
    apply layout_prepend h
    intro c hc
    rw [h3] at hc
    rcases List.mem_append.1 hc with h | h
    · exact h1 c h
    · exact h2 c h
  · rw [if_neg he]
    have : acc ++ s = sp ++ (strip acc ++ (sp' ++ s)) := by
      conv_lhs => rw [h3]
      simp [List.append_assoc]
    rw [this]
    exact Layout.cons _ _ _ _ h1 (layout_prepend h sp' h2)

theorem layout_op (acc o : Word) (ho : o ∈ operators) (l : List Word) (r : Word) (h : Layout (clean l) r) :
    Layout (clean (acc :: o :: l)) (acc ++ (o ++ r)) := by
  have h' : Layout (o :: clean l) (o ++ r) := by
    have := Layout.cons [] o (clean l) r (by simp) h
    simpa using this
  rw [clean_cons, clean_cons, (strip_op o ho).1, if_neg (strip_op o ho).2]
  exact layout_piece acc h'

theorem layout_tokens (s acc : Word) : Layout (clean (splitOps s acc)) (acc ++ s) := by
  have hnil : Layout [] [] := Layout.nil [] (by simp)
  fun_induction splitOps s acc with
  | case1 r acc ih => exact layout_op acc ge (by decide) _ r (by simpa using ih)
  | case2 r acc ih => exact layout_op acc eqeq (by decide) _ r (by simpa using ih)
  | case3 r acc _ ih => exact layout_op acc eq1 (by decide) _ r (by simpa using ih)
  | case4 r acc ih => exact layout_op acc le (by decide) _ r (by simpa using ih)
  | case5 r acc ih => exact layout_op acc minus (by decide) _ r (by simpa using ih)
  | case6 r acc ih => exact layout_op acc plus (by decide) _ r (by simpa using ih)
  | case7 r acc ih => exact layout_op acc times (by decide) _ r (by simpa using ih)
  | case8 c r acc _ _ _ _ _ _ _ ih => simpa using ih
  | case9 acc =>
    rw [clean_cons]
    have := layout_piece acc hnil
    simpa [clean] using this

theorem chain_op (acc o : Word) (ho : o ∈ operators) (l : List Word)
    (h : (clean l).IsChain (fun a b => a ∈ operators ∨ b ∈ operators)) :
    (clean (acc :: o :: l)).IsChain (fun a b => a ∈ operators ∨ b ∈ operators) := by
  rw [clean_cons, clean_cons, (strip_op o ho).1, if_neg (strip_op o ho).2]
  have h1 : (o :: clean l).IsChain (fun a b => a ∈ operators ∨ b ∈ operators) := by
    rw [List.isChain_cons]
    exact ⟨fun y _ => Or.inl ho, h⟩
  split_ifs
  · exact h1
  · rw [List.isChain_cons]
    refine ⟨fun y hy => ?_, h1⟩
    simp only [List.head?_cons, Option.mem_def, Option.some.injEq] at hy
    subst hy
    exact Or.inr ho

theorem chain_tokens (s acc : Word) : (clean (splitOps s acc)).IsChain (fun a b => a ∈ operators ∨ b ∈ operators) := by
  fun_induction splitOps s acc with
  | case1 r acc ih => exact chain_op acc ge (by decide) _ ih
  | case2 r acc ih => exact chain_op acc eqeq (by decide) _ ih
  | case3 r acc _ ih => exact chain_op acc eq1 (by decide) _ ih
  | case4 r acc ih => exact chain_op acc le (by decide) _ ih
  | case5 r acc ih => exact chain_op acc minus (by decide) _ ih
  | case6 r acc ih => exact chain_op acc plus (by decide) _ ih
  | case7 r acc ih => exact chain_op acc times (by decide) _ ih
  | case8 c r acc _ _ _ _ _ _ _ ih => exact ih
  | case9 acc =>
    rw [clean_cons]
    split_ifs <;> simp [clean]

end Skfolio.Equations
