import Verif.Preprocessing.Spec
import Mathlib.Tactic.Ring
import Mathlib.Tactic.FieldSimp
import Mathlib.Tactic.Linarith

/-! C33. -/
set_option autoImplicit false

namespace Skfolio.Preprocessing

section
variable {ι K : Type} [DecidableEq ι] [Field K] [LinearOrder K] [IsStrictOrderedRing K] {c : Nat}

omit [DecidableEq ι] [LinearOrder K] [IsStrictOrderedRing K] in
theorem pctChange_length (g : K → K) : ∀ rows : List (Row ι K c), (pctChange g rows).length = rows.length - 1
  | [] => rfl
  | [_] => rfl
  | _ :: q :: rest => by
    simp only [pctChange, List.length_cons]
    rw [pctChange_length g (q :: rest)]
    simp

omit [DecidableEq ι] [LinearOrder K] [IsStrictOrderedRing K] in
theorem pctChange_getElem? (g : K → K) : ∀ (rows : List (Row ι K c)) (t : Nat) (p q : Row ι K c), rows[t]? = some p → rows[t + 1]? = some q →
    (pctChange g rows)[t]? = some (q.1, fun a => change g (p.2 a) (q.2 a))
  | [], t, p, q, h, _ => by simp at h
  | [_], t, p, q, _, h => by simp at h
  | x :: y :: rest, 0, p, q, hp, hq => by
    simp only [List.getElem?_cons_zero, Option.some.injEq, zero_add, List.getElem?_cons_succ] at hp hq
    subst hp hq
    rfl
  | x :: y :: rest, t + 1, p, q, hp, hq => by
    simp only [List.getElem?_cons_succ] at hp hq
    simp only [pctChange, List.getElem?_cons_succ]
    exact pctChange_getElem? g (y :: rest) t p q hp hq

omit [DecidableEq ι] [LinearOrder K] [IsStrictOrderedRing K] in
theorem pctChange_labels (g : K → K) : ∀ rows : List (Row ι K c), (pctChange g rows).map (·.1) = (rows.map (·.1)).tail
  | [] => rfl
  | [_] => rfl
  | _ :: q :: rest => by
    simp only [pctChange, List.map_cons, List.tail_cons]
    rw [pctChange_labels g (q :: rest)]
    simp

omit [DecidableEq ι] [Field K] [LinearOrder K] [IsStrictOrderedRing K] in
theorem countNan_le (r : Row ι K c) : countNan r ≤ c := by
  unfold countNan
  exact (List.length_filter_le _ _).trans (by simp)

/-- Without `y`, the default threshold drops nothing. -/
theorem dropThreshold_default (rows : List (Row ι K c)) : dropThreshold c (some 1) rows = .ok rows := by
  unfold dropThreshold
  simp only
  rw [if_pos ⟨one_pos, le_refl _⟩]
  have : rows.filter (tooManyNan c (1 : K)) = [] := by
    rw [List.filter_eq_nil_iff]
    intro r _
    unfold tooManyNan
    simp only [mul_one, gt_iff_lt, decide_eq_true_eq, not_lt]
    exact_mod_cast countNan_le r
  simp [this]

/-- No row without missing values is dropped for that reason. -/
theorem dropThreshold_complete (nX : Nat) (thr : Option K) (hthr : ∀ x, thr = some x → 0 < x ∧ x ≤ 1) (rows : List (Row ι K c))
    (h : ∀ r ∈ rows, ∀ a, (r.2 a).isSome) : dropThreshold nX thr rows = .ok rows := by
  unfold dropThreshold
  cases thr with
  | none => rfl
  | some x =>
    simp only
    rw [if_pos (hthr x rfl)]
    have : rows.filter (tooManyNan nX x) = [] := by
      rw [List.filter_eq_nil_iff]
      intro r hr
      unfold tooManyNan
      have : countNan r = 0 := by
        unfold countNan
        rw [List.length_eq_zero_iff, List.filter_eq_nil_iff]
        intro a _
        have := h r hr a
        cases hv : r.2 a <;> simp_all
      rw [this]
      simp only [Nat.cast_zero, gt_iff_lt, decide_eq_true_eq, not_lt]
      exact mul_nonneg (Nat.cast_nonneg _) (hthr x rfl).1.le
    simp [this]

omit [DecidableEq ι] [Field K] [LinearOrder K] [IsStrictOrderedRing K] in
theorem ffillFrom_complete : ∀ (rows : List (Row ι K c)) (prev : Fin c → Option K), (∀ r ∈ rows, ∀ a, (r.2 a).isSome) → ffillFrom prev rows = rows
  | [], _, _ => rfl
  | r :: rs, prev, h => by
    have hr : (fun a => (r.2 a).or (prev a)) = r.2 := by
      funext a
      have := h r (by simp) a
      cases hv : r.2 a <;> simp_all
    simp only [ffillFrom]
    rw [hr, ffillFrom_complete rs _ fun r hr => h r (by simp [hr])]

omit [DecidableEq ι] [Field K] [LinearOrder K] [IsStrictOrderedRing K] in
theorem dropRows_complete (b : Bool) (hc : 0 < c) (rows : List (Row ι K c)) (h : ∀ r ∈ rows, ∀ a, (r.2 a).isSome) : dropRows b rows = rows := by
  unfold dropRows
  rw [List.filter_eq_self]
  intro r hr
  cases b
  · simpa using ⟨⟨0, hc⟩, h r hr _⟩
  · simpa using h r hr

omit [DecidableEq ι] [Field K] [LinearOrder K] [IsStrictOrderedRing K] in
theorem keptColumns_complete (rows : List (Row ι K c)) (hr : rows ≠ []) (h : ∀ r ∈ rows, ∀ a, (r.2 a).isSome) : keptColumns rows = List.finRange c := by
  unfold keptColumns
  rw [List.filter_eq_self]
  intro a _
  obtain ⟨r, rs, rfl⟩ := List.exists_cons_of_ne_nil hr
  rw [List.any_eq_true]
  exact ⟨r, by simp, h r (by simp) a⟩

/-- **C33.** Prices without missing values: for every setting of the options all columns are kept, there is one row of returns for every row of prices but the first,
with the same label, and its values are `price / previous price - 1`. -/
theorem C33_returns {n : Nat} (label : Fin (n + 1) → ι) (price : Fin (n + 1) → Fin c → K) (hc : 0 < c) (nX : Nat) (thr : Option K)
    (hthr : ∀ x, thr = some x → 0 < x ∧ x ≤ 1) (dropInceptions fillNan : Bool) (g : K → K) :
    pricesToReturns nX thr dropInceptions fillNan g (table label price) =
      .ok ⟨List.finRange c, List.ofFn fun t : Fin n => (label t.succ, fun a => some (g (price t.succ a / price t.castSucc a - 1)))⟩ := by
  have hcomp : ∀ r ∈ table label price, ∀ a, (r.2 a).isSome := by
    intro r hr a
    unfold table at hr
    rw [List.mem_ofFn] at hr
    obtain ⟨t, rfl⟩ := hr
    rfl
  have hne : table label price ≠ [] := by
    intro h
    have := congrArg List.length h
    simp [table] at this
  unfold pricesToReturns
  rw [dropThreshold_complete nX thr hthr _ hcomp]
  have hf : (if fillNan then ffill (table label price) else table label price) = table label price := by
    cases fillNan
    · rfl
    · exact ffillFrom_complete _ _ hcomp
  simp only [hf, dropRows_complete dropInceptions hc _ hcomp, keptColumns_complete _ hne hcomp]
  congr 2
  apply List.ext_getElem?
  intro t
  by_cases ht : t < n
  · have h1 : (table label price)[t]? = some (label ⟨t, by omega⟩, fun a => some (price ⟨t, by omega⟩ a)) := by
      rw [table, List.getElem?_ofFn, dif_pos (by omega)]
    have h2 : (table label price)[t + 1]? = some (label ⟨t + 1, by omega⟩, fun a => some (price ⟨t + 1, by omega⟩ a)) := by
      rw [table, List.getElem?_ofFn, dif_pos (by omega)]
    rw [pctChange_getElem? g _ t _ _ h1 h2, List.getElem?_ofFn, dif_pos ht]
    rfl
  · rw [List.getElem?_eq_none, List.getElem?_eq_none]
    · simp; omega
    · rw [pctChange_length]
      simp [table]
      omega

/-- The returns of a sub-period are made of price ratios whose product is the ratio of the last to the first price. -/
theorem ratios {n : Nat} (label : Fin (n + 1) → ι) (price : Fin (n + 1) → Fin c → K) (hp : ∀ t a, 0 < price t a) (g : K → K) (a : Fin c) (i j : Nat) (hij : i ≤ j)
    (hj : j < n + 1) : ∃ ys : List K,
      (((List.ofFn fun t : Fin n => ((label t.succ, fun a => some (g (price t.succ a / price t.castSucc a - 1))) : Row ι K c)).drop i).take (j - i)).map
        (fun row => row.2 a) = ys.map (fun y => some (g (y - 1))) ∧ ys.length = j - i ∧ (∀ y ∈ ys, 0 < y) ∧
      ys.prod = price ⟨j, hj⟩ a / price ⟨i, by omega⟩ a := by
  induction j with
  | zero =>
    have : i = 0 := by omega
    subst this
    exact ⟨[], by simp, rfl, by simp, by rw [List.prod_nil, div_self (hp _ _).ne']⟩
  | succ j ih =>
    rcases Nat.lt_or_ge j i with h | h
    · have : i = j + 1 := by omega
      subst this
      exact ⟨[], by simp, by simp, by simp, by rw [List.prod_nil, div_self (hp _ _).ne']⟩
    · obtain ⟨ys, h1, h2, h3, h4⟩ := ih h (by omega)
      refine ⟨ys ++ [price ⟨j + 1, hj⟩ a / price ⟨j, by omega⟩ a], ?_, ?_, ?_, ?_⟩
      · rw [show j + 1 - i = (j - i) + 1 by omega, List.take_add_one, List.map_append, h1, List.map_append]
        congr 1
        rw [List.getElem?_drop, List.getElem?_ofFn, dif_pos (by omega)]
        have e : i + (j - i) = j := by omega
        simp only [Option.toList_some, List.map_cons, List.map_nil, e]
        rfl
      · simp; omega
      · intro y hy
        rcases List.mem_append.1 hy with hy | hy
        · exact h3 y hy
        · rw [List.mem_singleton.1 hy]
          exact div_pos (hp _ _) (hp _ _)
      · rw [List.prod_append, h4]
        simp only [List.prod_cons, List.prod_nil, mul_one]
        have e1 := (hp ⟨i, by omega⟩ a).ne'
        have e2 := (hp ⟨j, by omega⟩ a).ne'
        field_simp

/-- **C33.** Compounding the linear returns of any sub-period recovers the ratio of prices. -/
theorem C33_compounding {n : Nat} (label : Fin (n + 1) → ι) (price : Fin (n + 1) → Fin c → K) (hp : ∀ t a, 0 < price t a) (hc : 0 < c) (nX : Nat) (thr : Option K)
    (hthr : ∀ x, thr = some x → 0 < x ∧ x ≤ 1) (dropInceptions fillNan : Bool) :
    ∃ r, pricesToReturns nX thr dropInceptions fillNan (fun x => x) (table label price) = .ok r ∧
      ∀ (a : Fin c) (i j : Nat) (_ : i ≤ j) (hj : j < n + 1), ∃ xs : List K,
        ((r.rows.drop i).take (j - i)).map (fun row => row.2 a) = xs.map some ∧ xs.length = j - i ∧
        (xs.map fun x => 1 + x).prod = price ⟨j, hj⟩ a / price ⟨i, by omega⟩ a := by
  refine ⟨_, C33_returns label price hc nX thr hthr dropInceptions fillNan _, ?_⟩
  intro a i j hij hj
  obtain ⟨ys, h1, h2, -, h4⟩ := ratios label price hp (fun x => x) a i j hij hj
  refine ⟨ys.map (· - 1), ?_, by rw [List.length_map, h2], ?_⟩
  · rw [h1, List.map_map]
    rfl
  · rw [List.map_map, ← h4]
    congr 1
    conv_rhs => rw [← List.map_id ys]
    refine List.map_congr_left fun y _ => ?_
    simp

/-- **C33.** The log returns of any sub-period add up to the logarithm of the ratio of prices. -/
theorem C33_log_returns {n : Nat} (label : Fin (n + 1) → ι) (price : Fin (n + 1) → Fin c → ℝ) (hp : ∀ t a, 0 < price t a) (hc : 0 < c) (nX : Nat) (thr : Option ℝ)
    (hthr : ∀ x, thr = some x → 0 < x ∧ x ≤ 1) (dropInceptions fillNan : Bool) :
    ∃ r, pricesToReturns nX thr dropInceptions fillNan (fun x => Real.log (1 + x)) (table label price) = .ok r ∧
      ∀ (a : Fin c) (i j : Nat) (_ : i ≤ j) (hj : j < n + 1), ∃ xs : List ℝ,
        ((r.rows.drop i).take (j - i)).map (fun row => row.2 a) = xs.map some ∧ xs.length = j - i ∧
        xs.sum = Real.log (price ⟨j, hj⟩ a / price ⟨i, by omega⟩ a) := by
  refine ⟨_, C33_returns label price hc nX thr hthr dropInceptions fillNan _, ?_⟩
  intro a i j hij hj
  obtain ⟨ys, h1, h2, h3, h4⟩ := ratios label price hp (fun x => Real.log (1 + x)) a i j hij hj
  refine ⟨ys.map fun y => Real.log (1 + (y - 1)), ?_, by rw [List.length_map, h2], ?_⟩
  · rw [h1, List.map_map]
    rfl
  · rw [← h4]
    clear h1 h2 h4
    induction ys with
    | nil => simp
    | cons y ys ih =>
      have hy := h3 y (by simp)
      have hys : 0 < ys.prod := List.prod_pos fun z hz => h3 z (by simp [hz])
      rw [List.map_cons, List.sum_cons, ih fun z hz => h3 z (by simp [hz]), List.prod_cons, Real.log_mul hy.ne' hys.ne']
      congr 2
      ring

/-! ### missing values -/

omit [DecidableEq ι] [Field K] [LinearOrder K] [IsStrictOrderedRing K] in
theorem ffillFrom_length : ∀ (rows : List (Row ι K c)) (prev : Fin c → Option K), (ffillFrom prev rows).length = rows.length
  | [], _ => rfl
  | _ :: rs, prev => by
    simp only [ffillFrom, List.length_cons]
    rw [ffillFrom_length rs]

omit [DecidableEq ι] [Field K] [LinearOrder K] [IsStrictOrderedRing K] in
theorem ffillFrom_labels : ∀ (rows : List (Row ι K c)) (prev : Fin c → Option K), (ffillFrom prev rows).map (·.1) = rows.map (·.1)
  | [], _ => rfl
  | _ :: rs, prev => by
    simp only [ffillFrom, List.map_cons]
    rw [ffillFrom_labels rs]

/-- Filled values: the last known price, or the value before the first row. -/
theorem ffillFrom_value : ∀ (rows : List (Row ι K c)) (prev : Fin c → Option K) (t : Nat) (r : Row ι K c), (ffillFrom prev rows)[t]? = some r →
    ∀ a, (∀ p, r.2 a = some p → LastKnown rows a t p ∨ NotYetListed rows a t ∧ prev a = some p) ∧
      (r.2 a = none → NotYetListed rows a t ∧ prev a = none)
  | [], _, t, r, h => by simp [ffillFrom] at h
  | x :: rs, prev, 0, r, h => by
    simp only [ffillFrom, List.getElem?_cons_zero, Option.some.injEq] at h
    subst h
    intro a
    simp only
    cases hx : x.2 a with
    | none =>
      have hn : NotYetListed (x :: rs) a 0 := by
        intro u r hu hr
        have : u = 0 := by omega
        subst this
        simp only [List.getElem?_cons_zero, Option.some.injEq] at hr
        rw [← hr, hx]
      refine ⟨fun p hp => Or.inr ⟨hn, by simpa using hp⟩, fun hp => ⟨hn, by simpa using hp⟩⟩
    | some q =>
      refine ⟨fun p hp => Or.inl ⟨0, x, le_refl _, rfl, ?_, fun v r' hv hv' => absurd hv (by omega)⟩, fun hp => by simp at hp⟩
      rw [hx]
      simpa using hp
  | x :: rs, prev, t + 1, r, h => by
    simp only [ffillFrom, List.getElem?_cons_succ] at h
    intro a
    obtain ⟨h1, h2⟩ := ffillFrom_value rs _ t r h a
    have hlift : NotYetListed rs a t → x.2 a = none → NotYetListed (x :: rs) a (t + 1) := by
      intro hn hx u r' hu hr'
      cases u with
      | zero =>
        simp only [List.getElem?_cons_zero, Option.some.injEq] at hr'
        rw [← hr', hx]
      | succ u => exact hn u r' (by omega) (by simpa using hr')
    constructor
    · intro p hp
      rcases h1 p hp with ⟨u, r', hu, hr', hp', hlast⟩ | ⟨hn, hprev⟩
      · left
        refine ⟨u + 1, r', by omega, by simpa using hr', hp', ?_⟩
        intro v r'' hv hv' hr''
        cases v with
        | zero => omega
        | succ v => exact hlast v r'' (by omega) (by omega) (by simpa using hr'')
      · cases hx : x.2 a with
        | none =>
          right
          rw [hx] at hprev
          exact ⟨hlift hn hx, by simpa using hprev⟩
        | some q =>
          left
          rw [hx] at hprev
          refine ⟨0, x, by omega, rfl, by rw [hx]; simpa using hprev, ?_⟩
          intro v r'' hv hv' hr''
          cases v with
          | zero => omega
          | succ v => exact hn v r'' (by omega) (by simpa using hr'')
    · intro hp
      obtain ⟨hn, hprev⟩ := h2 hp
      cases hx : x.2 a with
      | none =>
        rw [hx] at hprev
        exact ⟨hlift hn hx, by simpa using hprev⟩
      | some q =>
        rw [hx] at hprev
        simp at hprev

omit [DecidableEq ι] [Field K] [LinearOrder K] [IsStrictOrderedRing K] in
/-- Once complete, filled rows stay complete: dropping incomplete rows drops a prefix. -/
theorem dropRows_ffillFrom : ∀ (rows : List (Row ι K c)) (prev : Fin c → Option K), ∃ j, dropRows true (ffillFrom prev rows) = (ffillFrom prev rows).drop j ∧
    (∀ t r, t < j → (ffillFrom prev rows)[t]? = some r → ∃ a, r.2 a = none) ∧
    (∀ t r, j ≤ t → (ffillFrom prev rows)[t]? = some r → ∀ a, (r.2 a).isSome)
  | [], prev => ⟨0, by simp [ffillFrom, dropRows], by simp, by simp [ffillFrom]⟩
  | x :: rs, prev => by
    simp only [ffillFrom]
    by_cases hall : ∀ a, ((x.2 a).or (prev a)).isSome
    · have hmono : ∀ (rows : List (Row ι K c)) (prev : Fin c → Option K), (∀ a, (prev a).isSome) → ∀ r ∈ ffillFrom prev rows, ∀ a, (r.2 a).isSome := by
        intro rows
        induction rows with
        | nil => intro prev _ r hr; simp [ffillFrom] at hr
        | cons y ys ih =>
          intro prev hprev r hr
          have hy : ∀ a, ((y.2 a).or (prev a)).isSome := by
            intro a
            have := hprev a
            cases h : y.2 a <;> simp_all
          simp only [ffillFrom, List.mem_cons] at hr
          rcases hr with rfl | hr
          · exact hy
          · exact ih _ hy r hr
      have hrest := hmono rs _ hall
      refine ⟨0, ?_, by omega, ?_⟩
      · unfold dropRows
        rw [List.drop_zero, List.filter_eq_self]
        intro r hr
        rcases List.mem_cons.1 hr with rfl | hr
        · simpa using hall
        · simpa using hrest r hr
      · intro t r _ hr
        cases t with
        | zero =>
          simp only [List.getElem?_cons_zero, Option.some.injEq] at hr
          subst hr
          exact hall
        | succ t => exact hrest r (List.mem_of_getElem? (by simpa using hr))
    · obtain ⟨j, h1, h2, h3⟩ := dropRows_ffillFrom rs (fun a => (x.2 a).or (prev a))
      refine ⟨j + 1, ?_, ?_, ?_⟩
      · rw [List.drop_succ_cons, ← h1]
        unfold dropRows
        rw [List.filter_cons_of_neg]
        simpa using hall
      · intro t r ht hr
        cases t with
        | zero =>
          simp only [List.getElem?_cons_zero, Option.some.injEq] at hr
          subst hr
          push Not at hall
          obtain ⟨a, ha⟩ := hall
          exact ⟨a, by simpa using ha⟩
        | succ t => exact h2 t r (by omega) (by simpa using hr)
      · intro t r ht hr
        cases t with
        | zero => omega
        | succ t => exact h3 t r (by omega) (by simpa using hr)

/-- **C33.** With missing values, no `y` and the default options: there is a time `j` before which some asset is not listed and from which on all are; the returns are those of the filled prices from
`j` on — every later observation is kept — and each is the ratio of last known prices minus one. -/
theorem C33_missing_prices (rows : List (Row ι K c)) (g : K → K) :
    ∃ r j, pricesToReturns c (some 1) true true g rows = .ok r ∧
      (∀ t, t < j → t < rows.length → ∃ a, NotYetListed rows a t) ∧
      (j < rows.length → ∀ a, ∃ p, LastKnown rows a j p) ∧
      r.rows.map (·.1) = (rows.map (·.1)).drop (j + 1) ∧
      ∀ t row, r.rows[t]? = some row → ∀ a, ∃ p q, LastKnown rows a (j + t) p ∧ LastKnown rows a (j + t + 1) q ∧ row.2 a = some (g (q / p - 1)) := by
  obtain ⟨j, h1, h2, h3⟩ := dropRows_ffillFrom rows (fun _ => none)
  have hlen := ffillFrom_length rows (fun _ => (none : Option K))
  have hlast : ∀ t, j ≤ t → ∀ r, (ffillFrom (fun _ => none) rows)[t]? = some r → ∀ a, ∃ p, r.2 a = some p ∧ LastKnown rows a t p := by
    intro t ht r hr a
    obtain ⟨p, hp⟩ := Option.isSome_iff_exists.1 (h3 t r ht hr a)
    rcases (ffillFrom_value rows _ t r hr a).1 p hp with h | ⟨-, h⟩
    · exact ⟨p, hp, h⟩
    · cases h
  refine ⟨⟨keptColumns (dropRows true (ffill rows)), pctChange g (dropRows true (ffill rows))⟩, j, ?_, ?_, ?_, ?_, ?_⟩
  · unfold pricesToReturns
    rw [dropThreshold_default]
    rfl
  · intro t ht htl
    have hr : (ffillFrom (fun _ => (none : Option K)) rows)[t]? = some ((ffillFrom (fun _ => none) rows)[t]'(by omega)) := List.getElem?_eq_getElem _
    obtain ⟨a, ha⟩ := h2 t _ ht hr
    exact ⟨a, ((ffillFrom_value rows _ t _ hr a).2 ha).1⟩
  · intro hj a
    have hr : (ffillFrom (fun _ => (none : Option K)) rows)[j]? = some ((ffillFrom (fun _ => none) rows)[j]'(by omega)) := List.getElem?_eq_getElem _
    obtain ⟨p, -, hp⟩ := hlast j (le_refl _) _ hr a
    exact ⟨p, hp⟩
  · simp only [ffill]
    rw [h1, pctChange_labels, List.map_drop, ffillFrom_labels, List.tail_drop]
  · intro t row hrow a
    simp only [ffill] at hrow
    rw [h1] at hrow
    have ht : t + 1 < ((ffillFrom (fun _ => (none : Option K)) rows).drop j).length := by
      obtain ⟨hlt, -⟩ := List.getElem?_eq_some_iff.1 hrow
      rw [pctChange_length] at hlt
      omega
    rw [List.length_drop] at ht
    have e1 : ((ffillFrom (fun _ => (none : Option K)) rows).drop j)[t]? = some ((ffillFrom (fun _ => none) rows)[j + t]'(by omega)) := by
      rw [List.getElem?_drop, List.getElem?_eq_getElem]
    have e2 : ((ffillFrom (fun _ => (none : Option K)) rows).drop j)[t + 1]? = some ((ffillFrom (fun _ => none) rows)[j + t + 1]'(by omega)) := by
      rw [List.getElem?_drop, ← Nat.add_assoc, List.getElem?_eq_getElem]
    rw [pctChange_getElem? g _ t _ _ e1 e2] at hrow
    obtain ⟨p, hp, hp'⟩ := hlast (j + t) (by omega) _ (List.getElem?_eq_getElem (by omega)) a
    obtain ⟨q, hq, hq'⟩ := hlast (j + t + 1) (by omega) _ (List.getElem?_eq_getElem (by omega)) a
    refine ⟨p, q, hp', hq', ?_⟩
    rw [← Option.some.inj hrow]
    simp only [hp, hq, change]

/-- **C33.** A threshold outside (0, 1] is rejected, whatever the prices. -/
theorem C33_threshold (nX : Nat) (x : K) (b1 b2 : Bool) (g : K → K) (rows : List (Row ι K c)) (h : ¬ (0 < x ∧ x ≤ 1)) :
    pricesToReturns nX (some x) b1 b2 g rows = .error .nanThreshold := by
  simp [pricesToReturns, dropThreshold, h]

end

/-! A case with missing values: two assets; the second is listed at time 1 and has a gap at time 2. -/
example : ∃ r, pricesToReturns 2 (some 1) true true (fun x => x)
    [((0 : Nat), ![some (100 : ℚ), none]), (1, ![some 110, some 50]), (2, ![some 99, none]), (3, ![none, some 60])] = .ok r ∧
    r.rows.map (fun row => (row.1, row.2 0, row.2 1)) = [(2, some (-1 / 10), some 0), (3, some 0, some (1 / 5))] := by
  refine ⟨_, rfl, ?_⟩
  decide +kernel

/-- Finding: with a target `y` the number of missing values is counted over the columns of `X` and `y` but compared with the number of columns of `X`. Here `X` has one column without missing
values, `y` two columns which are missing at time 1; with the default `nan_threshold = 1`, documented to keep all the observations, the observation is dropped. -/
theorem C33_y_drops_observations : ∃ r, pricesToReturns 1 (some (1 : ℚ)) true true (fun x => x)
    [((0 : Nat), ![some (100 : ℚ), some 1, some 1]), (1, ![some 50, none, none]), (2, ![some 100, some 2, some 1])] = .ok r ∧
    r.rows.map (fun row => (row.1, row.2 0)) = [(2, some 0)] := by
  refine ⟨_, rfl, ?_⟩
  decide +kernel

/-- Finding: with `fill_nan=False` and `drop_inceptions_nan=True`, which is documented to drop observations at the beginning, observations with a missing value anywhere are dropped; the
next return of the other asset spans two periods. -/
theorem C33_gaps_dropped : ∃ r, pricesToReturns 2 (some (1 : ℚ)) true false (fun x => x)
    [((0 : Nat), ![some (100 : ℚ), some 1]), (1, ![some 110, none]), (2, ![some 121, some 2])] = .ok r ∧
    r.rows.map (fun row => (row.1, row.2 0)) = [(2, some (21 / 100))] := by
  refine ⟨_, rfl, ?_⟩
  decide +kernel

/-- Finding: rows are dropped by label, so a complete row is lost if another row with the same date has too many missing values. -/
theorem C33_duplicate_labels : (pricesToReturns 2 (some (1 / 4 : ℚ)) true true (fun x => x)
    [((0 : Nat), ![some (100 : ℚ), some 1]), (1, ![some 110, some 2]), (1, ![some 110, none]), (2, ![some 121, some 2])]).toOption.map
    (fun r => r.rows.map fun row => row.1) = some [2] := by
  decide +kernel

end Skfolio.Preprocessing
