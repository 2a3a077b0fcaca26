import Verif.Selection.Model
import Mathlib.Data.List.Nodup
import Mathlib.Data.List.GetD
import Mathlib.Data.Nat.ModEq

/-!
# Stationary bootstrap and de-duplication of names: the claims
-/

set_option autoImplicit false

namespace Skfolio.Selection

/-! ### C29 -/

/-- `s` is a stationary resample of `rows`: there are positions in the data, one per row of `s`, the
first one drawn, each following one either the successor of the previous position (wrapping from the
last row to the first) when the block continues, or freshly drawn. -/
structure IsResample {Row : Type*} (rows : List Row) (draws : List (ℕ × Bool)) (s : List Row)
    (pos : List ℕ) : Prop where
  length : s.length = draws.length
  lengthPos : pos.length = draws.length
  inData : ∀ j (h : j < pos.length), pos[j] < rows.length
  row : ∀ j (hs : j < s.length) (hp : j < pos.length) (hr : pos[j] < rows.length), s[j] = rows[pos[j]]
  first : ∀ (hp : 0 < pos.length) (hd : 0 < draws.length), pos[0] = draws[0].1
  next : ∀ j (hp : j + 1 < pos.length) (hd : j + 1 < draws.length),
    pos[j + 1] = if draws[j + 1].2 then (pos[j] + 1) % rows.length else draws[j + 1].1

theorem mapM_some_of {α β : Type*} {f : α → Option β} {g : α → β} (l : List α)
    (h : ∀ x ∈ l, f x = some (g x)) : l.mapM f = some (l.map g) := by
  induction l with
  | nil => rfl
  | cons a l ih =>
    rw [List.mapM_cons, h a (by simp), ih fun x hx => h x (by simp [hx])]
    rfl

theorem length_bootChain (prev : ℕ) (l : List (ℕ × Bool)) : (bootChain prev l).length = l.length := by
  induction l generalizing prev with
  | nil => rfl
  | cons p l ih => obtain ⟨d, c⟩ := p; simp [bootChain, ih]

theorem length_bootIndices (l : List (ℕ × Bool)) : (bootIndices l).length = l.length := by
  cases l with
  | nil => rfl
  | cons p l => obtain ⟨d, c⟩ := p; simp [bootIndices, length_bootChain]

theorem bootChain_bound (n prev b : ℕ) (hb : n ≤ b + 1) (hprev : prev ≤ b) (l : List (ℕ × Bool))
    (hl : ∀ d ∈ l, d.1 < n) : ∀ j (h : j < (bootChain prev l).length), (bootChain prev l)[j] ≤ b + j + 1 := by
  induction l generalizing prev b with
  | nil => intro j h; simp [bootChain] at h
  | cons p l ih =>
    obtain ⟨d, c⟩ := p
    intro j h
    have hd := hl (d, c) (by simp)
    have hcur : (if c then prev + 1 else d) ≤ b + 1 := by
      split_ifs
      · omega
      · simp only at hd; omega
    cases j with
    | zero => simpa [bootChain] using hcur
    | succ j =>
      have := ih _ (b + 1) (by omega) hcur (fun d hd => hl d (by simp [hd])) j
        (by simpa [bootChain] using h)
      simp only [bootChain, List.getElem_cons_succ]
      omega

theorem bootIndices_bound (n : ℕ) (l : List (ℕ × Bool)) (hl : ∀ d ∈ l, d.1 < n) :
    ∀ j (h : j < (bootIndices l).length), (bootIndices l)[j] < n + j := by
  intro j h
  cases l with
  | nil => simp [bootIndices] at h
  | cons p l =>
    obtain ⟨d, c⟩ := p
    have hd : d < n := hl (d, c) (by simp)
    cases j with
    | zero => simpa [bootIndices] using hd
    | succ j =>
      have := bootChain_bound n d (n - 1) (by omega) (by omega) l (fun d hd => hl d (by simp [hd])) j
        (by simpa [bootIndices] using h)
      simp only [bootIndices, List.getElem_cons_succ]
      omega

theorem bootChain_next (prev : ℕ) (l : List (ℕ × Bool)) :
    (∀ (h : 0 < (bootChain prev l).length) (h' : 0 < l.length),
      (bootChain prev l)[0] = if l[0].2 then prev + 1 else l[0].1) ∧
    ∀ j (h : j + 1 < (bootChain prev l).length) (h' : j + 1 < l.length),
      (bootChain prev l)[j + 1] = if l[j + 1].2 then (bootChain prev l)[j] + 1 else l[j + 1].1 := by
  induction l generalizing prev with
  | nil => simp [bootChain]
  | cons p l ih =>
    obtain ⟨d, c⟩ := p
    refine ⟨fun _ _ => by simp [bootChain], fun j h h' => ?_⟩
    obtain ⟨i1, i2⟩ := ih (if c then prev + 1 else d)
    have hlen : j < (bootChain (if c then prev + 1 else d) l).length := by
      simpa [bootChain] using h
    cases j with
    | zero =>
      simp only [bootChain, List.getElem_cons_succ, List.getElem_cons_zero]
      exact i1 hlen (by simpa using h')
    | succ j =>
      simp only [bootChain, List.getElem_cons_succ]
      exact i2 j hlen (by simpa using h')

theorem bootIndices_next (l : List (ℕ × Bool)) :
    (∀ (h : 0 < (bootIndices l).length) (h' : 0 < l.length), (bootIndices l)[0] = l[0].1) ∧
    ∀ j (h : j + 1 < (bootIndices l).length) (h' : j + 1 < l.length),
      (bootIndices l)[j + 1] = if l[j + 1].2 then (bootIndices l)[j] + 1 else l[j + 1].1 := by
  cases l with
  | nil => simp [bootIndices]
  | cons p l =>
    obtain ⟨d, c⟩ := p
    refine ⟨fun _ _ => by simp [bootIndices], fun j h h' => ?_⟩
    obtain ⟨i1, i2⟩ := bootChain_next d l
    have hlen : j < (bootChain d l).length := by simpa [bootIndices] using h
    cases j with
    | zero =>
      simp only [bootIndices, List.getElem_cons_succ, List.getElem_cons_zero]
      exact i1 hlen (by simpa using h')
    | succ j =>
      simp only [bootIndices, List.getElem_cons_succ]
      exact i2 j hlen (by simpa using h')

/-- C29: for every data set, every sequence of draws and every outcome of the block coin flips, the
sample exists (no index is out of bounds) and is a stationary resample of the data. -/
theorem C29_sample_is_resample {Row : Type*} (rows : List Row) (draws : List (ℕ × Bool))
    (hd : ∀ d ∈ draws, d.1 < rows.length) (hlen : draws.length = rows.length) :
    ∃ s pos, bootSample rows draws = some s ∧ IsResample rows draws s pos := by
  set n := rows.length with hn
  have hb := bootIndices_bound n draws hd
  have hbl : (bootIndices draws).length = n := by rw [length_bootIndices, hlen]
  have hlt : ∀ i ∈ bootIndices draws, i < 2 * n := by
    intro i hi
    obtain ⟨j, hj, rfl⟩ := List.getElem_of_mem hi
    have := hb j hj
    omega
  have hguard : bootGuard n (bootIndices draws) = bootIndices draws := by
    unfold bootGuard
    conv_rhs => rw [← List.map_id (bootIndices draws)]
    apply List.map_congr_left
    intro i hi
    have := hlt i hi
    rw [if_neg (by omega)]
    rfl
  by_cases h0 : n = 0
  · have hdn : draws = [] := List.length_eq_zero_iff.mp (hlen.trans h0)
    subst hdn
    exact ⟨[], [], rfl, ⟨rfl, rfl, by simp, by simp, by simp, by simp⟩⟩
  have hpos : 0 < n := Nat.pos_of_ne_zero h0
  obtain ⟨row0, -⟩ : ∃ r, r ∈ rows := List.exists_mem_of_length_pos hpos
  let g : ℕ → Row := fun i => rows.getD (i % n) row0
  have hmap : bootSample rows draws = some ((bootIndices draws).map g) := by
    unfold bootSample
    rw [hguard]
    apply mapM_some_of
    intro i hi
    have h2 := hlt i hi
    have hmod : i % n < rows.length := Nat.mod_lt _ hpos
    simp only [g]
    rw [List.getD_eq_getElem _ _ hmod]
    by_cases hi' : i < n
    · rw [List.getElem?_append_left hi', List.getElem?_eq_getElem hi']
      congr 1
      simp only [Nat.mod_eq_of_lt hi']
    · rw [List.getElem?_append_right (by omega), List.getElem?_eq_getElem (by omega)]
      congr 1
      have : i % n = i - n := by
        rw [Nat.mod_eq_sub_mod (by omega), Nat.mod_eq_of_lt (by omega)]
      simp only [this]
      rfl
  obtain ⟨n1, n2⟩ := bootIndices_next draws
  refine ⟨_, (bootIndices draws).map (· % n), hmap, ⟨?_, ?_, ?_, ?_, ?_, ?_⟩⟩
  · rw [List.length_map, hbl, hlen]
  · rw [List.length_map, hbl, hlen]
  · intro j h
    rw [List.getElem_map]
    exact Nat.mod_lt _ hpos
  · intro j hs hp hr
    simp only [List.getElem_map, g]
    rw [List.getD_eq_getElem _ _ (Nat.mod_lt _ hpos)]
  · intro hp hd0
    rw [List.getElem_map, n1 (by simpa using hp) hd0]
    exact Nat.mod_eq_of_lt (hd _ (List.getElem_mem hd0))
  · intro j hp hdj
    rw [List.getElem_map, List.getElem_map, n2 j (by simpa using hp) hdj]
    split_ifs
    · exact (Nat.mod_add_mod _ _ _).symm
    · exact Nat.mod_eq_of_lt (hd _ (List.getElem_mem hdj))

/-- C29 for all samples: one resample per row of draws. -/
theorem C29_all_samples {Row : Type*} (rows : List Row) (draws : List (List (ℕ × Bool)))
    (hd : ∀ row ∈ draws, row.length = rows.length ∧ ∀ d ∈ row, d.1 < rows.length) :
    ∃ out, stationaryBootstrap rows draws = some out ∧
      List.Forall₂ (fun row s => ∃ pos, IsResample rows row s pos) draws out := by
  unfold stationaryBootstrap
  induction draws with
  | nil => exact ⟨[], rfl, .nil⟩
  | cons row draws ih =>
    obtain ⟨out, h1, h2⟩ := ih fun r hr => hd r (by simp [hr])
    obtain ⟨hl, hb⟩ := hd row (by simp)
    obtain ⟨s, pos, h3, h4⟩ := C29_sample_is_resample rows row hb hl
    refine ⟨s :: out, ?_, .cons ⟨pos, h4⟩ h2⟩
    rw [List.mapM_cons, h3, h1]
    rfl

/-- Three rows, a block that wraps around the end. -/
example : bootSample ["a", "b", "c"] [(2, true), (0, true), (1, true)] = some ["c", "a", "b"] := by
  decide

/-! ### C30 -/

/-- Number of earlier occurrences of the name at position `i`. -/
def earlier (names : List String) (i : ℕ) (h : i < names.length) : ℕ := (names.take i).count names[i]

theorem length_dedupLoop (counts : String → ℕ) (names : List String) :
    (dedupLoop counts names).length = names.length := by
  induction names generalizing counts with
  | nil => rfl
  | cons a l ih => simp [dedupLoop, ih]

theorem dedupLoop_get (counts : String → ℕ) (names : List String) (i : ℕ)
    (h : i < (dedupLoop counts names).length) (h' : i < names.length) :
    (dedupLoop counts names)[i] =
      if 0 < counts names[i] + earlier names i h' then
        names[i] ++ "_" ++ toString (counts names[i] + earlier names i h')
      else names[i] := by
  induction names generalizing counts i with
  | nil => simp at h'
  | cons a l ih =>
    cases i with
    | zero => simp [dedupLoop, earlier]
    | succ i =>
      simp only [dedupLoop, List.getElem_cons_succ]
      rw [ih _ i (by simpa [dedupLoop] using h) (by simpa using h')]
      have h'' : i < l.length := by simpa using h'
      have e : (if l[i] = a then counts a + 1 else counts l[i]) + earlier l i h''
          = counts l[i] + earlier (a :: l) (i + 1) h' := by
        simp only [earlier, List.getElem_cons_succ, List.take_succ_cons]
        by_cases hc : l[i] = a
        · simp [hc]; omega
        · rw [if_neg hc, List.count_cons_of_ne (fun h => hc h.symm)]
      rw [e]

/-- C30: what the output is.  Length and order are kept, a first occurrence is unchanged and the
`k`-th repetition of a name gets the suffix `_k`. -/
theorem C30_output (names : List String) :
    (deduplicateNames names).length = names.length ∧
    ∀ i (h : i < (deduplicateNames names).length) (h' : i < names.length),
      (deduplicateNames names)[i] =
        if earlier names i h' = 0 then names[i]
        else names[i] ++ "_" ++ toString (earlier names i h') := by
  refine ⟨length_dedupLoop _ _, fun i h h' => ?_⟩
  unfold deduplicateNames
  rw [dedupLoop_get _ _ i h h']
  simp only [zero_add]
  by_cases he : earlier names i h' = 0
  · rw [if_pos he, if_neg (by omega)]
  · rw [if_neg he, if_pos (by omega)]

theorem suffix_inj {a b : String} {k l : ℕ}
    (h : a ++ "_" ++ toString k = b ++ "_" ++ toString l) : a = b ∧ k = l := by
  have h1 := congrArg String.toList h
  simp only [String.toList_append] at h1
  have hk : (toString k).toList = Nat.toDigits 10 k := Nat.toList_repr
  have hl : (toString l).toList = Nat.toDigits 10 l := Nat.toList_repr
  rw [hk, hl] at h1
  have hu : ∀ (x y : List Char) (p q : List Char), '_' ∉ p → '_' ∉ q →
      x ++ "_".toList ++ p = y ++ "_".toList ++ q → x = y ∧ p = q := by
    intro x y p q hp hq hxy
    have e : "_".toList = ['_'] := rfl
    rw [e] at hxy
    have hr := congrArg List.reverse hxy
    simp only [List.reverse_append, List.reverse_cons, List.reverse_nil, List.nil_append,
      List.singleton_append] at hr
    have key : ∀ (p q x y : List Char), '_' ∉ p → '_' ∉ q → p ++ '_' :: x = q ++ '_' :: y →
        p = q ∧ x = y := by
      intro p
      induction p with
      | nil =>
        intro q x y _ hq h
        cases q with
        | nil => simpa using h
        | cons c q => simp at h; simp [← h.1] at hq
      | cons c p ih =>
        intro q x y hp hq h
        cases q with
        | nil => simp at h; simp [h.1] at hp
        | cons d q =>
          simp only [List.cons_append, List.cons.injEq] at h
          simp only [List.mem_cons, not_or] at hp hq
          obtain ⟨r1, r2⟩ := ih q x y hp.2 hq.2 h.2
          exact ⟨by rw [h.1, r1], r2⟩
    obtain ⟨r1, r2⟩ := key p.reverse q.reverse x.reverse y.reverse (by simpa using hp) (by simpa using hq)
      (by simpa using hr)
    exact ⟨List.reverse_injective r2, List.reverse_injective r1⟩
  obtain ⟨e1, e2⟩ := hu _ _ _ _ Nat.underscore_not_in_toDigits Nat.underscore_not_in_toDigits h1
  refine ⟨String.toList_injective e1, ?_⟩
  have := congrArg (fun d => Nat.ofDigitChars 10 d 0) e2
  simpa [Nat.ofDigitChars_toDigits] using this

/-- C30, distinctness, under the hypothesis that no name of the list already looks like a suffixed
version of a name of the list.  Without it the claim is false (`C30_collision`). -/
theorem C30_distinct_partial (names : List String)
    (h : ∀ a ∈ names, ∀ b ∈ names, ∀ k : ℕ, a ≠ b ++ "_" ++ toString k) :
    (deduplicateNames names).Nodup := by
  obtain ⟨hlen, hout⟩ := C30_output names
  rw [List.nodup_iff_getElem?_ne_getElem?]
  intro i j hij hj heq
  have hj' : j < names.length := hlen ▸ hj
  have hi : i < (deduplicateNames names).length := by omega
  have hi' : i < names.length := by omega
  rw [List.getElem?_eq_getElem hi, List.getElem?_eq_getElem hj, Option.some.injEq,
    hout i hi hi', hout j hj hj'] at heq
  have hmem : names[i] = names[j] → earlier names i hi' < earlier names j hj' := by
    intro e
    unfold earlier
    rw [← e]
    have : names.take j = names.take i ++ names[i] :: (names.take j).drop (i + 1) := by
      conv_lhs => rw [← List.take_append_drop i (names.take j)]
      rw [List.take_take, min_eq_left hij.le, List.drop_eq_getElem_cons (by simp; omega),
        List.getElem_take]
    rw [this, List.count_append, List.count_cons_self]
    omega
  split_ifs at heq with c1 c2 c2
  · have := hmem heq; omega
  · exact h _ (List.getElem_mem hi') _ (List.getElem_mem hj') _ heq
  · exact h _ (List.getElem_mem hj') _ (List.getElem_mem hi') _ heq.symm
  · obtain ⟨e1, e2⟩ := suffix_inj heq
    have := hmem e1
    omega

/-- C30 fails as stated: a generated name can collide with an existing one. -/
theorem C30_collision : deduplicateNames ["a", "a", "a_1"] = ["a", "a_1", "a_1"] := by decide

example : deduplicateNames ["x", "y", "x", "x"] = ["x", "y", "x_1", "x_2"] := by decide

end Skfolio.Selection
