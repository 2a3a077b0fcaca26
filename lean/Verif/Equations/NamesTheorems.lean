import Verif.Equations.Theorems
import Mathlib.Tactic.FinCases
import Mathlib.Data.Fin.VecNotation

/-!
C126: what can be named and written in a constraint string. A name with an operator character (`BRK-B`), or with a space at an end, cannot be referred to at all; a number with a signed exponent (`1e-3`) cannot be written; a
name that is also a number takes its place.
-/
set_option autoImplicit false

namespace Skfolio.Equations

variable {K : Type} [Field K] [LinearOrder K] [IsStrictOrderedRing K] {n : Nat}

/-- The name contains `-`, `+`, `*` or `=`, begins or ends with a space, or is empty, and is not itself an operator. -/
def Unreadable (g : Word) : Prop :=
  ((∃ c ∈ g, c ∈ ['-', '+', '*', '=']) ∨ (∃ c, g.head? = some c ∧ isSpace c = true) ∨ (∃ c, g.getLast? = some c ∧ isSpace c = true) ∨ g = []) ∧ g ∉ operators

instance (g : Word) : Decidable (Unreadable g) := by
  unfold Unreadable
  haveI : Decidable (∃ c, g.head? = some c ∧ isSpace c = true) := by
    cases h : g.head? with
    | none => exact isFalse (by simp)
    | some c => exact decidable_of_iff (isSpace c = true) (by simp)
  haveI : Decidable (∃ c, g.getLast? = some c ∧ isSpace c = true) := by
    cases h : g.getLast? with
    | none => exact isFalse (by simp)
    | some c => exact decidable_of_iff (isSpace c = true) (by simp)
  infer_instance

theorem pieces_plain (s acc : Word) (hacc : ∀ c ∈ acc, c ∉ ['-', '+', '*', '=']) : ∀ t ∈ splitOps s acc, t ∈ operators ∨ ∀ c ∈ t, c ∉ ['-', '+', '*', '='] := by
  have step : ∀ (acc o : Word) (l : List Word), (∀ c ∈ acc, c ∉ ['-', '+', '*', '=']) → o ∈ operators → (∀ t ∈ l, t ∈ operators ∨ ∀ c ∈ t, c ∉ ['-', '+', '*', '=']) →
      ∀ t ∈ acc :: o :: l, t ∈ operators ∨ ∀ c ∈ t, c ∉ ['-', '+', '*', '='] := by
    intro acc o l h1 h2 h3 t ht
    rcases List.mem_cons.1 ht with rfl | ht
    · exact Or.inr h1
    · rcases List.mem_cons.1 ht with rfl | ht
      · exact Or.inl h2
      · exact h3 t ht
  have hnil : ∀ c ∈ ([] : Word), c ∉ ['-', '+', '*', '='] := by simp
  fun_induction splitOps s acc with
  | case1 r acc ih => exact step acc ge _ hacc (by decide) (ih hnil)
  | case2 r acc ih => exact step acc eqeq _ hacc (by decide) (ih hnil)
  | case3 r acc _ ih => exact step acc eq1 _ hacc (by decide) (ih hnil)
  | case4 r acc ih => exact step acc le _ hacc (by decide) (ih hnil)
  | case5 r acc ih => exact step acc minus _ hacc (by decide) (ih hnil)
  | case6 r acc ih => exact step acc plus _ hacc (by decide) (ih hnil)
  | case7 r acc ih => exact step acc times _ hacc (by decide) (ih hnil)
  | case8 c r acc h1 h2 h3 h4 h5 h6 h7 ih =>
    refine ih fun d hd => ?_
    rcases List.mem_append.1 hd with hd | hd
    · exact hacc d hd
    · rw [List.mem_singleton] at hd
      subst hd
      simp only [List.mem_cons, List.not_mem_nil, or_false, not_or]
      refine ⟨?_, ?_, ?_, ?_⟩ <;> rintro rfl <;> simp_all
  | case9 acc =>
    intro t ht
    rw [List.mem_singleton] at ht
    exact Or.inr (ht ▸ hacc)

theorem strip_head (w : Word) (c : Char) (h : (strip w).head? = some c) : isSpace c = false := by
  obtain ⟨sp, -, e⟩ := dropWhile_split (w.dropWhile isSpace).reverse
  have e2 : w.dropWhile isSpace = strip w ++ sp.reverse := by
    have := congrArg List.reverse e
    rw [List.reverse_reverse, List.reverse_append] at this
    exact this
  have := List.head?_dropWhile_not isSpace w
  rw [e2, List.head?_append, h] at this
  simpa using this

theorem strip_last (w : Word) (c : Char) (h : (strip w).getLast? = some c) : isSpace c = false := by
  unfold strip at h
  rw [List.getLast?_reverse] at h
  have := List.head?_dropWhile_not isSpace (w.dropWhile isSpace).reverse
  rw [h] at this
  simpa using this

theorem strip_mem (w : Word) (c : Char) (h : c ∈ strip w) : c ∈ w := by
  obtain ⟨sp, sp', -, -, e⟩ := strip_split w
  rw [e]
  simp [h]

/-- No token of any text is an unreadable name. -/
theorem tokens_readable (s : Word) (ts : List Word) (h : splitEquationString s = .ok ts) (t : Word) (ht : t ∈ ts) : ¬ Unreadable t := by
  unfold splitEquationString at h
  split_ifs at h
  cases h
  unfold clean at ht
  rw [List.mem_filter, List.mem_map] at ht
  obtain ⟨⟨u, hu, rfl⟩, hne⟩ := ht
  rintro ⟨hx, hop⟩
  rcases pieces_plain s [] (by simp) u hu with h | h
  · rw [(strip_op u h).1] at hop
    exact hop h
  rcases hx with ⟨c, hc, hm⟩ | ⟨c, hc, hm⟩ | ⟨c, hc, hm⟩ | hx
  · exact h c (strip_mem u c hc) hm
  · rw [strip_head u c hc] at hm
    cases hm
  · rw [strip_last u c hc] at hm
    cases hm
  · simp [hx] at hne

/-- The readable names have the same assets in both tables of groups. -/
def SameReadable (G G' : List (Fin n → Word)) : Prop := ∀ g, ¬ Unreadable g → ∀ j, Belongs G g j ↔ Belongs G' g j

section
omit [LinearOrder K] [IsStrictOrderedRing K]

theorem isGroup_same (G G' : List (Fin n → Word)) (h : SameReadable G G') (g : Word) (hg : ¬ Unreadable g) : isGroup G g = isGroup G' g := by
  rw [Bool.eq_iff_iff, isGroup_iff, isGroup_iff]
  constructor
  · rintro ⟨row, hr, j, hj⟩
    obtain ⟨row', hr', hj'⟩ := (h g hg j).1 ⟨row, hr, hj⟩
    exact ⟨row', hr', j, hj'⟩
  · rintro ⟨row, hr, j, hj⟩
    obtain ⟨row', hr', hj'⟩ := (h g hg j).2 ⟨row, hr, hj⟩
    exact ⟨row', hr', j, hj'⟩

theorem matchingArray_same (G G' : List (Fin n → Word)) (h : SameReadable G G') (g : Word) (hg : ¬ Unreadable g) (avg : Bool) :
    (matchingArray G g avg : Except Err (Fin n → K)) = matchingArray G' g avg := by
  have e : ∀ j, (∃ row ∈ G, row j = g) = (∃ row ∈ G', row j = g) := fun j => propext (h g hg j)
  unfold matchingArray groupCount
  simp only [e]

theorem readHead_suffix (st st' : St K n) (sign : K) (ts r : List Word) (hts : ts ≠ []) (h : readHead st ts = .ok (sign, st', r)) (t : Word) (ht : t ∈ r) : t ∈ ts := by
  obtain ⟨c, s, e⟩ := readHead_inv st st' sign ts r hts h
  rw [e]
  simp [ht]

theorem readTerm_suffix (num : Word → Option K) (G : List (Fin n → Word)) (avg : Bool) (sign : K) (st st' : St K n) (ts r : List Word) (h : readTerm num G avg sign st ts = .ok (st', r))
    (t : Word) (ht : t ∈ r) : t ∈ ts := by
  unfold readTerm at h
  repeat' split at h
  all_goals cases h
  all_goals simp_all

theorem readTerm_same (num : Word → Option K) (G G' : List (Fin n → Word)) (h : SameReadable G G') (avg : Bool) (sign : K) (st : St K n) (ts : List Word) (hts : ∀ t ∈ ts, ¬ Unreadable t) :
    readTerm num G avg sign st ts = readTerm num G' avg sign st ts := by
  cases ts with
  | nil => rfl
  | cons e r =>
    have he := hts e (by simp)
    rw [readTerm, readTerm, isGroup_same G G' h e he, matchingArray_same G G' h e he avg]
    rcases r with _ | ⟨e2, _ | ⟨e3, r3⟩⟩
    · rfl
    · rfl
    · have h3 := hts e3 (by simp)
      simp only [isGroup_same G G' h e3 h3, matchingArray_same G G' h e3 h3 avg]

theorem run_same (num : Word → Option K) (G G' : List (Fin n → Word)) (h : SameReadable G G') (avg : Bool) (fuel : Nat) (st : St K n) (ts : List Word) (hts : ∀ t ∈ ts, ¬ Unreadable t) :
    run num G avg fuel st ts = run num G' avg fuel st ts := by
  induction fuel generalizing st ts with
  | zero => rfl
  | succ f ih =>
    unfold run
    by_cases hne : ts = []
    · rw [if_pos hne, if_pos hne]
    rw [if_neg hne, if_neg hne]
    cases hh : readHead st ts with
    | error e => rfl
    | ok v =>
      obtain ⟨sign, st1, r⟩ := v
      have hr : ∀ t ∈ r, ¬ Unreadable t := fun t ht => hts t (readHead_suffix st st1 sign ts r hne hh t ht)
      simp only
      rw [readTerm_same num G G' h avg _ st1 r hr]
      cases ht : readTerm num G' avg (sign * st1.mainSign) st1 r with
      | error e => rfl
      | ok v =>
        obtain ⟨st2, r2⟩ := v
        exact ih st2 r2 fun t ht' => hr t (readTerm_suffix num G' avg _ st1 st2 r r2 ht t ht')

/-- **C126.** What an unreadable name stands for has no effect on any constraint string: no constraint can refer to it. -/
theorem C126_unreadable_invisible (num : Word → Option K) (G G' : List (Fin n → Word)) (h : SameReadable G G') (avg : Bool) (s : Word) :
    stringToEquation num G avg s = stringToEquation num G' avg s := by
  unfold stringToEquation
  cases hs : splitEquationString s with
  | error e => rfl
  | ok ts =>
    simp only
    rw [run_same num G G' h avg _ _ ts (tokens_readable s ts hs)]

/-! ### What short constraints mean -/

theorem split_of_tokens {ts : List Word} {s : Word} (hl : Layout ts s) (hlex : ∀ t ∈ ts, t ∈ operators ∨ Atom t) (hch : ts.IsChain Adj) (hn : '\n' ∉ s)
    (hhead : ∀ t, ts.head? = some t → t ∉ comparisonOps) (hop : le ∈ ts) : splitEquationString s = .ok ts := by
  have heq : '=' ∈ s := layout_mem hl le hop '=' (by decide)
  have htail : '=' ∈ s.tail := by
    cases s with
    | nil => simp at heq
    | cons x s =>
      rcases List.mem_cons.1 heq with rfl | hh
      · obtain ⟨t, ts', e, ht⟩ := layout_head hl hlex rfl
        exact absurd ht (hhead t (by rw [e]; rfl))
      · exact hh
  unfold splitEquationString
  rw [hasComparison_tail s hn, hasInvalid_good s (good_layout hl hlex)]
  simp only [htail, decide_true, Bool.true_eq_false, Bool.false_eq_true, if_false]
  rw [(tokens_of_layout hl hlex).1 [] (by simp) hch]

/-- The text `left <= right`. -/
def atMost (left right : Word) : Word := left ++ " <= ".toList ++ right

theorem atMost_layout {ts us : List Word} {left right : Word} (h1 : ∀ r us, Layout us r → Layout (ts ++ us) (left ++ r)) (h2 : Layout us right) : Layout (ts ++ le :: us) (atMost left right) := by
  have h3 : Layout (le :: us) ([' '] ++ (le ++ ([' '] ++ right))) := Layout.cons [' '] le us _ (by decide) (layout_prepend h2 [' '] (by decide))
  have := h1 _ _ h3
  unfold atMost
  rw [List.append_assoc]
  exact this

theorem word_layout (t : Word) (r : Word) (us : List Word) (h : Layout us r) : Layout ([t] ++ us) (t ++ r) := by
  have := Layout.cons [] t us r (by simp) h
  simpa using this

theorem difference_layout (a b : Word) (r : Word) (us : List Word) (h : Layout us r) : Layout ([a, minus, b] ++ us) ((a ++ '-' :: b) ++ r) := by
  have := word_layout a _ _ (word_layout minus _ _ (word_layout b r us h))
  simpa [minus] using this

theorem end_layout (t : Word) : Layout [t] t := by
  have := word_layout t [] [] (Layout.nil [] (by simp))
  simpa using this

theorem end_difference_layout (a b : Word) : Layout [a, minus, b] (a ++ '-' :: b) := by
  have := difference_layout a b [] [] (Layout.nil [] (by simp))
  simpa using this

theorem run_unfold (num : Word → Option K) (G : List (Fin n → Word)) (avg : Bool) (st : St K n) (ts : List Word) : run num G avg 1000000 st ts = run num G avg (999998 + 1 + 1) st ts := rfl

theorem unknown_first (num : Word → Option K) (G : List (Fin n → Word)) (avg : Bool) (s : Word) (a : Word) (ts : List Word) (hs : splitEquationString s = .ok (a :: ts)) (ha : Atom a) (hG : ¬ IsName G a)
    (hnum : num a = none) : stringToEquation num G avg s = .error .group := by
  obtain ⟨o1, o2, o3⟩ := not_op_parts (atom_not_op ha)
  have hg : isGroup G a = false := by rw [← isGroup_iff] at hG; simpa using hG
  unfold stringToEquation
  rw [hs]
  simp only
  rw [run_unfold, run, if_neg (by simp), readHead, if_neg o1, if_neg o2, if_neg o3]
  simp only
  rw [readTerm, if_neg (atom_not_op ha), hg]
  simp [hnum]

theorem unknown_right (num : Word → Option K) (G : List (Fin n → Word)) (avg : Bool) (s : Word) (g u : Word) (ts : List Word) (hs : splitEquationString s = .ok (g :: le :: u :: ts)) (hg : Atom g) (hname : IsName G g)
    (hu : Atom u) (hG : ¬ IsName G u) (hnum : num u = none) : stringToEquation num G avg s = .error .group := by
  obtain ⟨o1, o2, o3⟩ := not_op_parts (atom_not_op hg)
  obtain ⟨p1, p2, p3⟩ := not_op_parts (atom_not_op hu)
  have hgu : isGroup G u = false := by rw [← isGroup_iff] at hG; simpa using hG
  have hgg : isGroup G g = true := (isGroup_iff G g).2 hname
  obtain ⟨arr, harr⟩ := matchingArray_ok_or (K := K) G g avg hgg
  unfold stringToEquation
  rw [hs]
  simp only
  rw [run_unfold, run, if_neg (by simp), readHead, if_neg o1, if_neg o2, if_neg o3]
  simp only
  rw [readTerm, if_neg (atom_not_op hg), hgg, harr]
  simp only [if_true]
  rw [if_pos (by decide)]
  simp only
  rw [run, if_neg (by simp), readHead, if_pos (by decide)]
  simp only [readSign]
  rw [if_neg p2]
  simp only
  rw [readTerm, if_neg (atom_not_op hu), hgu]
  simp [hnum]

/-- The row is dropped with a warning when the group is not found. -/
theorem dropped (num : Word → Option K) (G : List (Fin n → Word)) (hG : validGroups G) (avg : Bool) (s : Word) (h : stringToEquation num G avg s = .error .group) :
    equationsToMatrix num G [s] avg false = .ok ⟨[], [], [s]⟩ := by
  unfold equationsToMatrix
  rw [if_pos hG, List.foldlM_cons, step, h]
  rfl

theorem adj_op (o b : Word) (ho : o ∈ operators) (hb : b ∉ comparisonOps) : Adj o b ∧ Adj b o := ⟨⟨Or.inl ho, fun h => hb h.2⟩, ⟨Or.inr ho, fun h => hb h.1⟩⟩

end

section
variable (num : Word → Option K) (G : List (Fin n → Word)) (avg : Bool)

/-- **C126.** A readable name of an asset or a group and a number without sign in it: `name <= number` bounds the sum (the average for views) of the weights of that name, and nothing else. -/
theorem C126_bound_partial (g x : Word) (v : K) (hg : Atom g) (hname : IsName G g) (hx : Atom x) (hnum : num x = some v) (hxn : ¬ IsName G x) (hn1 : '\n' ∉ g) (hn2 : '\n' ∉ x) :
    ∃ a b, stringToEquation num G avg (atMost g x) = .ok (a, b, true) ∧ ∀ w, RowHolds true a b w ↔ groupVal G avg w g ≤ v := by
  let c : Constraint := ⟨⟨none, .name g, []⟩, .le, ⟨none, .num x, []⟩⟩
  have hl : Layout c.tokens (atMost g x) := atMost_layout (word_layout g) (end_layout x)
  obtain ⟨a, b, h1, h2⟩ := C09_constraint_string num G avg c ⟨⟨⟨hname, hg⟩, by simp [c]⟩, ⟨⟨⟨by simp [hnum], hxn⟩, hx⟩, by simp [c]⟩⟩ (by simp [c, Constraint.size]) _ hl (by simp [atMost, hn1, hn2])
  refine ⟨a, b, h1, fun w => (h2 w).trans ?_⟩
  simp [c, Constraint.Holds, Cmp.holds, Side.val, Term.val, optSgnVal, numVal, hnum]

/-- **C126.** In particular, for the name of one asset. -/
theorem C126_asset_bound_partial (g x : Word) (v : K) (hg : Atom g) (j : Fin n) (hname : ∀ i, Belongs G g i ↔ i = j) (hx : Atom x) (hnum : num x = some v) (hxn : ¬ IsName G x) (hn1 : '\n' ∉ g) (hn2 : '\n' ∉ x) :
    ∃ a b, stringToEquation num G avg (atMost g x) = .ok (a, b, true) ∧ ∀ w, RowHolds true a b w ↔ w j ≤ v := by
  obtain ⟨row, hr, hj⟩ := (hname j).2 rfl
  obtain ⟨a, b, h1, h2⟩ := C126_bound_partial num G avg g x v hg ⟨row, hr, j, hj⟩ hx hnum hxn hn1 hn2
  refine ⟨a, b, h1, fun w => (h2 w).trans ?_⟩
  have e : groupVal G avg w g = w j := by
    unfold groupVal
    simp only [hname]
    have hc : (Finset.univ.filter fun i => i = j).card = 1 := by
      rw [Finset.card_eq_one]
      exact ⟨j, by ext i; simp⟩
    cases avg <;> simp [hc]
  rw [e]

/-- **C126, negated.** If `a` and `b` are names, `a-b <= x` bounds the difference of their weights, also if there is an asset called `a-b`. -/
theorem C126_hyphen_difference (a b x : Word) (v : K) (ha : Atom a) (hna : IsName G a) (hb : Atom b) (hnb : IsName G b) (hx : Atom x) (hnum : num x = some v) (hxn : ¬ IsName G x)
    (hn1 : '\n' ∉ a) (hn2 : '\n' ∉ b) (hn3 : '\n' ∉ x) :
    ∃ r q, stringToEquation num G avg (atMost (a ++ '-' :: b) x) = .ok (r, q, true) ∧ ∀ w, RowHolds true r q w ↔ groupVal G avg w a - groupVal G avg w b ≤ v := by
  let c : Constraint := ⟨⟨none, .name a, [(.neg, .name b)]⟩, .le, ⟨none, .num x, []⟩⟩
  have hl : Layout c.tokens (atMost (a ++ '-' :: b) x) := atMost_layout (difference_layout a b) (end_layout x)
  obtain ⟨r, q, h1, h2⟩ := C09_constraint_string num G avg c ⟨⟨⟨hna, ha⟩, by simpa [c, Term.WF] using ⟨hnb, hb⟩⟩, ⟨⟨⟨by simp [hnum], hxn⟩, hx⟩, by simp [c]⟩⟩ (by simp [c, Constraint.size]) _ hl
    (by simp [atMost, hn1, hn2, hn3])
  refine ⟨r, q, h1, fun w => (h2 w).trans ?_⟩
  simp [c, Constraint.Holds, Cmp.holds, Side.val, Term.val, optSgnVal, Sgn.val, numVal, hnum, sub_eq_add_neg]

/-- **C126, negated.** If `a` is not a name (nor a number), a bound on the asset called `a-b` is dropped with a warning, although there is such an asset. -/
theorem C126_hyphen_dropped (hv : validGroups G) (a b x : Word) (ha : Atom a) (hna : ¬ IsName G a) (hnum : num a = none) (hb : Atom b) (hx : Atom x) (hn1 : '\n' ∉ a) (hn2 : '\n' ∉ b) (hn3 : '\n' ∉ x) :
    equationsToMatrix num G [atMost (a ++ '-' :: b) x] avg false = .ok ⟨[], [], [atMost (a ++ '-' :: b) x]⟩ := by
  refine dropped num G hv avg _ (unknown_first num G avg _ a [minus, b, le, x] ?_ ha hna hnum)
  refine split_of_tokens (atMost_layout (difference_layout a b) (end_layout x)) ?_ ?_ (by simp [atMost, hn1, hn2, hn3]) ?_ (by simp)
  · intro t ht
    simp only [List.cons_append, List.nil_append, List.mem_cons, List.not_mem_nil, or_false] at ht
    rcases ht with rfl | rfl | rfl | rfl | rfl
    · exact Or.inr ha
    · exact Or.inl (by decide)
    · exact Or.inr hb
    · exact Or.inl (by decide)
    · exact Or.inr hx
  · simp only [List.cons_append, List.nil_append, List.isChain_cons_cons, List.isChain_singleton, and_true]
    exact ⟨(adj_op minus a (by decide) (not_op_parts (atom_not_op ha)).1).2, (adj_op minus b (by decide) (not_op_parts (atom_not_op hb)).1).1, (adj_op le b (by decide) (not_op_parts (atom_not_op hb)).1).2,
      (adj_op le x (by decide) (not_op_parts (atom_not_op hx)).1).1⟩
  · rintro t ⟨⟩
    exact (not_op_parts (atom_not_op ha)).1

/-- **C126, negated.** A number with a sign in its exponent (`1e-3`) is cut in two at the sign; as its beginning (`1e`) is not a number, the bound is dropped with a warning. -/
theorem C126_exponent_dropped (hv : validGroups G) (g u v : Word) (hg : Atom g) (hname : IsName G g) (hu : Atom u) (hun : ¬ IsName G u) (hnum : num u = none) (hvv : Atom v)
    (hn1 : '\n' ∉ g) (hn2 : '\n' ∉ u) (hn3 : '\n' ∉ v) :
    equationsToMatrix num G [atMost g (u ++ '-' :: v)] avg false = .ok ⟨[], [], [atMost g (u ++ '-' :: v)]⟩ := by
  refine dropped num G hv avg _ (unknown_right num G avg _ g u [minus, v] ?_ hg hname hu hun hnum)
  refine split_of_tokens (atMost_layout (word_layout g) (end_difference_layout u v)) ?_ ?_ (by simp [atMost, hn1, hn2, hn3]) ?_ (by simp)
  · intro t ht
    simp only [List.cons_append, List.nil_append, List.mem_cons, List.not_mem_nil, or_false] at ht
    rcases ht with rfl | rfl | rfl | rfl | rfl
    · exact Or.inr hg
    · exact Or.inl (by decide)
    · exact Or.inr hu
    · exact Or.inl (by decide)
    · exact Or.inr hvv
  · simp only [List.cons_append, List.nil_append, List.isChain_cons_cons, List.isChain_singleton, and_true]
    exact ⟨(adj_op le g (by decide) (not_op_parts (atom_not_op hg)).1).2, (adj_op le u (by decide) (not_op_parts (atom_not_op hu)).1).1, (adj_op minus u (by decide) (not_op_parts (atom_not_op hu)).1).2,
      (adj_op minus v (by decide) (not_op_parts (atom_not_op hvv)).1).1⟩
  · rintro t ⟨⟩
    exact (not_op_parts (atom_not_op hg)).1

omit [LinearOrder K] [IsStrictOrderedRing K] in
/-- **C126, negated.** Likewise for a factor after a name: a text that starts with `name * 1e-3` is dropped with a warning, whatever follows. -/
theorem C126_factor_dropped (hv : validGroups G) (s g u : Word) (ts : List Word) (hs : splitEquationString s = .ok (g :: times :: u :: ts)) (hg : Atom g) (hname : IsName G g) (hnum : num u = none) :
    equationsToMatrix num G [s] avg false = .ok ⟨[], [], [s]⟩ := by
  refine dropped num G hv avg s ?_
  obtain ⟨o1, o2, o3⟩ := not_op_parts (atom_not_op hg)
  have hgg : isGroup G g = true := (isGroup_iff G g).2 hname
  obtain ⟨arr, harr⟩ := matchingArray_ok_or (K := K) G g avg hgg
  unfold stringToEquation
  rw [hs]
  simp only
  rw [run_unfold, run, if_neg (by simp), readHead, if_neg o1, if_neg o2, if_neg o3]
  simp only
  rw [readTerm, if_neg (atom_not_op hg), hgg, harr]
  simp only [if_true]
  rw [if_neg (by decide), if_pos (by decide)]
  simp only [hnum]

/-- **C126, negated.** A name that is also a number takes its place: with a group called `2`, `name <= 2` compares with the weight of that group. -/
theorem C126_numeric_name (g x : Word) (hg : Atom g) (hname : IsName G g) (hx : Atom x) (hxn : IsName G x) (hn1 : '\n' ∉ g) (hn2 : '\n' ∉ x) :
    ∃ a b, stringToEquation num G avg (atMost g x) = .ok (a, b, true) ∧ ∀ w, RowHolds true a b w ↔ groupVal G avg w g ≤ groupVal G avg w x := by
  let c : Constraint := ⟨⟨none, .name g, []⟩, .le, ⟨none, .name x, []⟩⟩
  have hl : Layout c.tokens (atMost g x) := atMost_layout (word_layout g) (end_layout x)
  obtain ⟨a, b, h1, h2⟩ := C09_constraint_string num G avg c ⟨⟨⟨hname, hg⟩, by simp [c]⟩, ⟨⟨hxn, hx⟩, by simp [c]⟩⟩ (by simp [c, Constraint.size]) _ hl (by simp [atMost, hn1, hn2])
  refine ⟨a, b, h1, fun w => (h2 w).trans ?_⟩
  simp [c, Constraint.Holds, Cmp.holds, Side.val, Term.val, optSgnVal]

end

/-! ### Concrete cases -/

/-- Three assets called `A`, `B` and `A-B`. -/
def hyphenG : List (Fin 3 → Word) := [fun j => ["A".toList, "B".toList, "A-B".toList].getD j []]

/-- `A-B` cannot be referred to: it might as well be called something else that is unreadable. -/
example : Unreadable "A-B".toList ∧ SameReadable hyphenG [fun j => ["A".toList, "B".toList, " C".toList].getD j []] ∧ IsName hyphenG "A-B".toList := by
  refine ⟨by decide, fun g hg j => ?_, by unfold IsName; decide⟩
  fin_cases j
  · simp [Belongs, hyphenG]
  · simp [Belongs, hyphenG]
  · have h1 : "A-B".toList ≠ g := fun h => hg (h ▸ by decide)
    have h2 : " C".toList ≠ g := fun h => hg (h ▸ by decide)
    constructor
    · rintro ⟨row, hr, hj⟩
      rw [hyphenG, List.mem_singleton] at hr
      subst hr
      exact absurd hj h1
    · rintro ⟨row, hr, hj⟩
      rw [List.mem_singleton] at hr
      subst hr
      exact absurd hj h2

/-- `A-B <= 0.5` does not bound the asset `A-B`: its weight of 2 is accepted. -/
theorem C126_hyphen_example : ∃ r q, stringToEquation exNum hyphenG false "A-B <= 0.5".toList = .ok (r, q, true) ∧ RowHolds true r q ![-1, 0, 2] := by
  obtain ⟨r, q, h1, h2⟩ := C126_hyphen_difference exNum hyphenG false "A".toList "B".toList "0.5".toList (1 / 2) ⟨by decide, by decide, by decide, by decide⟩ (by unfold IsName; decide)
    ⟨by decide, by decide, by decide, by decide⟩ (by unfold IsName; decide) ⟨by decide, by decide, by decide, by decide⟩ (by decide +kernel) (by unfold IsName; decide) (by decide) (by decide) (by decide)
  refine ⟨r, q, h1, (h2 _).2 ?_⟩
  decide +kernel

/-- Two assets called `BRK-B` and `KO`: a bound on the first is dropped. -/
example : equationsToMatrix exNum (n := 2) [fun j => ["BRK-B".toList, "KO".toList].getD j []] ["BRK-B <= 0.5".toList] false false = .ok ⟨[], [], ["BRK-B <= 0.5".toList]⟩ :=
  C126_hyphen_dropped exNum _ false (by decide) "BRK".toList "B".toList "0.5".toList ⟨by decide, by decide, by decide, by decide⟩ (by unfold IsName; decide) (by decide)
    ⟨by decide, by decide, by decide, by decide⟩ ⟨by decide, by decide, by decide, by decide⟩ (by decide) (by decide) (by decide)

/-- `A <= 5e-2` is dropped. -/
example : equationsToMatrix exNum exG ["A <= 5e-2".toList] false false = .ok ⟨[], [], ["A <= 5e-2".toList]⟩ :=
  C126_exponent_dropped exNum exG false (by decide) "A".toList "5e".toList "2".toList ⟨by decide, by decide, by decide, by decide⟩ (by unfold IsName; decide) ⟨by decide, by decide, by decide, by decide⟩
    (by unfold IsName; decide) (by decide) ⟨by decide, by decide, by decide, by decide⟩ (by decide) (by decide) (by decide)

/-- `A*5e-2 <= 3` is dropped. -/
example : equationsToMatrix exNum exG ["A*5e-2 <= 3".toList] false false = .ok ⟨[], [], ["A*5e-2 <= 3".toList]⟩ :=
  C126_factor_dropped exNum exG false (by decide) _ "A".toList "5e".toList [minus, "2".toList, le, "3".toList] (by decide) ⟨by decide, by decide, by decide, by decide⟩ (by unfold IsName; decide) (by decide)

/-- `A <= 0.5` bounds the first asset. -/
example : ∃ a b, stringToEquation exNum exG false "A <= 0.5".toList = .ok (a, b, true) ∧ ∀ w : Fin 3 → ℚ, RowHolds true a b w ↔ w 0 ≤ 1 / 2 :=
  C126_asset_bound_partial exNum exG false "A".toList "0.5".toList (1 / 2) ⟨by decide, by decide, by decide, by decide⟩ 0 (by decide) ⟨by decide, by decide, by decide, by decide⟩ (by decide +kernel)
    (by unfold IsName; decide) (by decide) (by decide)

/-- Two sectors called `2` and `3`: `2 <= 3` compares their weights. -/
example : ∃ a b, stringToEquation exNum (n := 2) [fun j => ["2".toList, "3".toList].getD j []] false "2 <= 3".toList = .ok (a, b, true) ∧
    ∀ w, RowHolds true a b w ↔ groupVal [fun j : Fin 2 => ["2".toList, "3".toList].getD j []] false w "2".toList ≤ groupVal [fun j : Fin 2 => ["2".toList, "3".toList].getD j []] false w "3".toList :=
  C126_numeric_name exNum _ false "2".toList "3".toList ⟨by decide, by decide, by decide, by decide⟩ (by unfold IsName; decide) ⟨by decide, by decide, by decide, by decide⟩ (by unfold IsName; decide)
    (by decide) (by decide)

end Skfolio.Equations
