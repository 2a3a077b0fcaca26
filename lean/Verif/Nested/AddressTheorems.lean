import Verif.Nested.AddressModel
import Mathlib.Data.List.Nodup
import Mathlib.Tactic.SplitIfs
import Mathlib.Tactic.ByContra

/-!
# Parameter addresses of a stacking: the claims
-/

set_option autoImplicit false

namespace Skfolio.Nested.Address

variable {E V : Type}

/-! ### Specification -/

/-- A name whose addresses are read back as they were written: without `"__"`, and not ending with `"_"`. -/
def Clean (n : Name) : Prop := ¬ dunder <:+: n ∧ n.getLast? ≠ some '_'

/-- The estimators and the estimator-valued arguments are all different objects. -/
def Unshared (s : Stack V) : Prop :=
  (s.estimators.map Prod.snd).Nodup ∧
    ∀ n r, (n, Val.ref r) ∈ s.args → r ∉ s.estimators.map Prod.snd

/-- What `get_params`/`set_params` of the estimators in a stacking promise: a value that was set is listed, and keys that are not
listed are refused. -/
structure Lawful (L : Leaf E V) : Prop where
  set_get : ∀ e k v e', L.set e k v = some e' → L.get e' k = some v
  set_unknown : ∀ e k v, L.get e k = none → L.set e k v = none

/-- A stacking as `fit` accepts it, with clean names of estimators and of constructor arguments, and constructor arguments of different names. -/
structure Good (s : Stack V) : Prop where
  valid : validNames s = true
  clean : ∀ n ∈ s.estimators.map Prod.fst, Clean n
  args_nodup : (estimatorsArg :: s.args.map Prod.fst).Nodup
  args_clean : ∀ n ∈ s.args.map Prod.fst, Clean n

/-! ### Strings -/

theorem partition_none {s : Name} (h : ¬ dunder <:+: s) : partition s = (s, none) := by
  induction s with
  | nil => rfl
  | cons c rest ih =>
    have hr : ¬ dunder <:+: rest := fun hi => h (hi.trans (List.suffix_cons c rest).isInfix)
    have hc : ¬ (c = '_' ∧ rest.head? = some '_') := by
      rintro ⟨rfl, hh⟩
      apply h
      cases rest with
      | nil => simp at hh
      | cons d rest =>
        simp only [List.head?_cons, Option.some.injEq] at hh
        subst hh
        exact ⟨[], rest, rfl⟩
    simp only [partition, if_neg hc, ih hr]

theorem partition_address {n k : Name} (h : Clean n) : partition (address n k) = (n, some k) := by
  induction n with
  | nil => simp [address, dunder, partition]
  | cons c rest ih =>
    obtain ⟨h1, h2⟩ := h
    have hr : Clean rest := by
      refine ⟨fun hi => h1 (hi.trans (List.suffix_cons c rest).isInfix), fun hl => h2 ?_⟩
      cases rest with
      | nil => simp at hl
      | cons d rest => rw [List.getLast?_cons_cons]; exact hl
    have hc : ¬ (c = '_' ∧ (address rest k).head? = some '_') := by
      rintro ⟨rfl, hh⟩
      cases rest with
      | nil => exact h2 rfl
      | cons d rest =>
        simp only [address, List.cons_append, List.head?_cons, Option.some.injEq] at hh
        subst hh
        exact h1 ⟨[], rest, rfl⟩
    have he : address (c :: rest) k = c :: address rest k := rfl
    rw [he, partition, if_neg hc, ih hr]

theorem address_dunder (n k : Name) : dunder <:+: address n k := ⟨n, k, by simp [address]⟩

theorem keyOf_address (n k : Name) : keyOf n (address n k) = some k := by
  have : address n k = (n ++ dunder) ++ k := by simp [address]
  rw [this, keyOf, if_pos (List.prefix_append _ _), List.drop_left]

theorem keyOf_some {n j k : Name} (h : keyOf n j = some k) : j = address n k := by
  unfold keyOf at h
  split_ifs at h with hp
  obtain ⟨t, rfl⟩ := hp
  simp only [List.drop_left, Option.some.injEq] at h
  subst h
  simp [address]

theorem keyOf_other {n m k : Name} (hn : Clean n) (hm : Clean m) (h : n ≠ m) : keyOf n (address m k) = none := by
  by_contra hc
  obtain ⟨k', hk'⟩ := Option.ne_none_iff_exists'.mp hc
  have h1 := keyOf_some hk'
  have h2 := partition_address (k := k) hm
  rw [h1, partition_address hn] at h2
  exact h (by simpa using congrArg Prod.fst h2)

theorem keyOf_plain {n j : Name} (h : ¬ dunder <:+: j) : keyOf n j = none := by
  by_contra hc
  obtain ⟨k', hk'⟩ := Option.ne_none_iff_exists'.mp hc
  rw [keyOf_some hk'] at h
  exact h (address_dunder _ _)

/-! ### Dictionaries -/

theorem insertNested_none {d : Dict V} {n : Name} {g : Dict V} {j : Name} (h : keyOf n j = none) : d.insertNested n g j = d j := by
  simp only [Dict.insertNested, h]

theorem insertNested_address {d : Dict V} {n : Name} {g : Dict V} {k : Name} :
    d.insertNested n g (address n k) = (g k).or (d (address n k)) := by
  simp only [Dict.insertNested, keyOf_address]

/-- The last loop leaves every key alone that is no address of one of the names. -/
theorem nested_skip (L : Leaf E V) (h : ℕ → E) (l : List (Name × ℕ)) (d : Dict V) (j : Name)
    (hj : ∀ p ∈ l, keyOf p.1 j = none) : l.foldl (fun d p => d.insertNested p.1 (L.get (h p.2))) d j = d j := by
  induction l generalizing d with
  | nil => rfl
  | cons p l ih =>
    rw [List.foldl_cons, ih _ fun q hq => hj q (by simp [hq]), insertNested_none (hj p (by simp))]

theorem nested_hit (L : Leaf E V) (h : ℕ → E) (l : List (Name × ℕ)) (d : Dict V) (n : Name) (r : ℕ) (k : Name)
    (hl : (l.map Prod.fst).Nodup) (hc : ∀ m ∈ l.map Prod.fst, Clean m) (hn : (n, r) ∈ l) :
    l.foldl (fun d p => d.insertNested p.1 (L.get (h p.2))) d (address n k) =
      (L.get (h r) k).or (d (address n k)) := by
  induction l generalizing d with
  | nil => simp at hn
  | cons p l ih =>
    simp only [List.map_cons, List.nodup_cons] at hl
    rw [List.foldl_cons]
    have hcn : Clean n := hc n (List.mem_map_of_mem (f := Prod.fst) hn)
    rcases List.mem_cons.mp hn with he | hmem
    · subst he
      rw [nested_skip, insertNested_address]
      intro q hq
      refine keyOf_other (hc q.1 (by simp only [List.map_cons, List.mem_cons]; exact Or.inr (List.mem_map_of_mem hq))) hcn ?_
      intro he
      have hq' := List.mem_map_of_mem (f := Prod.fst) hq
      rw [he] at hq'
      exact hl.1 hq'
    · rw [ih _ hl.2 (fun m hm => hc m (by simp only [List.map_cons, List.mem_cons]; exact Or.inr hm)) hmem]
      rw [insertNested_none]
      refine keyOf_other (hc p.1 (by simp)) hcn ?_
      intro he
      exact hl.1 (he ▸ List.mem_map_of_mem (f := Prod.fst) hmem)

theorem insert_skip (l : List (Name × ℕ)) (d : Dict V) (j : Name) (hj : j ∉ l.map Prod.fst) :
    l.foldl (fun d p => d.insert p.1 (.ref p.2)) d j = d j := by
  induction l generalizing d with
  | nil => rfl
  | cons p l ih =>
    simp only [List.map_cons, List.mem_cons, not_or] at hj
    rw [List.foldl_cons, ih _ hj.2]
    simp [Dict.insert, hj.1]

theorem insert_hit (l : List (Name × ℕ)) (d : Dict V) (n : Name) (r : ℕ) (hl : (l.map Prod.fst).Nodup) (hn : (n, r) ∈ l) :
    l.foldl (fun d p => d.insert p.1 (.ref p.2)) d n = some (.ref r) := by
  induction l generalizing d with
  | nil => simp at hn
  | cons p l ih =>
    simp only [List.map_cons, List.nodup_cons] at hl
    rw [List.foldl_cons]
    rcases List.mem_cons.mp hn with he | hmem
    · subst he
      rw [insert_skip _ _ _ hl.1]
      simp [Dict.insert]
    · exact ih _ hl.2 hmem

theorem addArg_skip (L : Leaf E V) (h : ℕ → E) (l : List (Name × Val V)) (d : Dict V) (j : Name)
    (hj : j ∉ l.map Prod.fst) (hk : ∀ p ∈ l, keyOf p.1 j = none) : l.foldl (addArg L h) d j = d j := by
  induction l generalizing d with
  | nil => rfl
  | cons p l ih =>
    simp only [List.map_cons, List.mem_cons, not_or] at hj
    rw [List.foldl_cons, ih _ hj.2 fun q hq => hk q (by simp [hq])]
    have := hk p (by simp)
    obtain ⟨n, v⟩ := p
    cases v <;> simp_all [addArg, Dict.insert, insertNested_none]

theorem addArg_hit (L : Leaf E V) (h : ℕ → E) (l : List (Name × Val V)) (d : Dict V) (n : Name) (v : Val V)
    (hl : (l.map Prod.fst).Nodup) (hd : ¬ dunder <:+: n) (hn : (n, v) ∈ l) : l.foldl (addArg L h) d n = some v := by
  induction l generalizing d with
  | nil => simp at hn
  | cons p l ih =>
    simp only [List.map_cons, List.nodup_cons] at hl
    rw [List.foldl_cons]
    rcases List.mem_cons.mp hn with he | hmem
    · subst he
      rw [addArg_skip _ _ _ _ _ hl.1 fun q _ => keyOf_plain hd]
      cases v <;> simp [addArg, Dict.insert]
    · exact ih _ hl.2 hmem

theorem addArg_nested (L : Leaf E V) (h : ℕ → E) (l : List (Name × Val V)) (d : Dict V) (n : Name) (r : ℕ) (k : Name)
    (hl : (l.map Prod.fst).Nodup) (hc : ∀ m ∈ l.map Prod.fst, Clean m) (hn : (n, Val.ref r) ∈ l) :
    l.foldl (addArg L h) d (address n k) = (L.get (h r) k).or (d (address n k)) := by
  have hne : ∀ m ∈ l.map Prod.fst, address n k ≠ m := fun m hm he => (hc m hm).1 (he ▸ address_dunder _ _)
  induction l generalizing d with
  | nil => simp at hn
  | cons p l ih =>
    simp only [List.map_cons, List.nodup_cons] at hl
    rw [List.foldl_cons]
    have hcn : Clean n := hc n (List.mem_map_of_mem (f := Prod.fst) hn)
    rcases List.mem_cons.mp hn with he | hmem
    · subst he
      rw [addArg_skip]
      · simp only [addArg, Dict.insert]
        rw [if_neg (hne n (by simp)), insertNested_address]
      · exact fun hm => hne _ (by simp only [List.map_cons, List.mem_cons]; exact Or.inr hm) rfl
      · intro q hq
        refine keyOf_other (hc q.1 (by simp only [List.map_cons, List.mem_cons]; exact Or.inr (List.mem_map_of_mem hq))) hcn ?_
        intro he
        have hq' := List.mem_map_of_mem (f := Prod.fst) hq
        rw [he] at hq'
        exact hl.1 hq'
    · rw [ih _ hl.2 (fun m hm => hc m (by simp only [List.map_cons, List.mem_cons]; exact Or.inr hm)) hmem
        (fun m hm => hne m (by simp only [List.map_cons, List.mem_cons]; exact Or.inr hm))]
      have h1 : keyOf p.1 (address n k) = none := by
        refine keyOf_other (hc p.1 (by simp)) hcn ?_
        intro he
        exact hl.1 (he ▸ List.mem_map_of_mem (f := Prod.fst) hmem)
      have h2 : addArg L h d p (address n k) = d (address n k) := by
        have h3 := hne p.1 (by simp)
        obtain ⟨m, v⟩ := p
        cases v <;> simp_all [addArg, Dict.insert, insertNested_none]
      rw [h2]

/-! ### Names -/

theorem estimatorsArg_clean : Clean estimatorsArg := by
  constructor <;> decide

/-- C100: `fit` accepts the names of the estimators exactly if there is one, they are all different, none is the name of a constructor
argument, and none contains `"__"`. -/
theorem C100_validate (s : Stack V) :
    validNames s = true ↔
      s.estimators ≠ [] ∧ (s.estimators.map Prod.fst).Nodup ∧
        (∀ n ∈ s.estimators.map Prod.fst, n ≠ estimatorsArg ∧ n ∉ s.args.map Prod.fst) ∧
        ∀ n ∈ s.estimators.map Prod.fst, ¬ ∃ a b : Name, n = a ++ "__".toList ++ b := by
  have : ∀ n : Name, (¬ ∃ a b : Name, n = a ++ "__".toList ++ b) ↔ ¬ dunder <:+: n := by
    intro n
    refine not_congr ⟨?_, ?_⟩
    · rintro ⟨a, b, rfl⟩; exact ⟨a, b, rfl⟩
    · rintro ⟨a, b, rfl⟩; exact ⟨a, b, rfl⟩
  simp only [this, validNames, Bool.and_eq_true, Bool.not_eq_true', List.isEmpty_eq_false_iff, decide_eq_true_eq, List.all_eq_true,
    decide_eq_false_iff_not, List.contains_eq_mem, List.mem_cons, not_or, ne_eq]
  tauto

section good

variable {s : Stack V} (hs : Good s)
include hs

theorem Good.nodup : (s.estimators.map Prod.fst).Nodup := ((C100_validate s).1 hs.valid).2.1
theorem Good.notArg : ∀ n ∈ s.estimators.map Prod.fst, n ∉ s.args.map Prod.fst := fun n hn =>
  (((C100_validate s).1 hs.valid).2.2.1 n hn).2
theorem Good.notEst : ∀ n ∈ s.estimators.map Prod.fst, n ≠ estimatorsArg := fun n hn =>
  (((C100_validate s).1 hs.valid).2.2.1 n hn).1

theorem Good.allClean : ∀ m ∈ ((estimatorsArg, Val.list s.estimators) :: s.args).map Prod.fst, Clean m := by
  intro m hm
  rcases List.mem_cons.mp hm with rfl | hm
  · exact estimatorsArg_clean
  · exact hs.args_clean m hm

/-! ### `get_params` -/

/-- C100: `get_params()` of a stacking lists every estimator under its name, every constructor argument under its name, every parameter of
an estimator under `name__key` with the value the estimator has, and nothing else under such addresses. -/
theorem C100_get (L : Leaf E V) (h : ℕ → E) :
    (∀ n r, (n, r) ∈ s.estimators → getParams L h s n = some (.ref r) ∧
      ∀ k, getParams L h s (address n k) = L.get (h r) k) ∧
    (∀ n v, (n, v) ∈ s.args → getParams L h s n = some v) ∧
    (∀ n r, (n, Val.ref r) ∈ s.args → ∀ k, getParams L h s (address n k) = L.get (h r) k) ∧
    getParams L h s estimatorsArg = some (.list s.estimators) := by
  have hplain : ∀ j, ¬ dunder <:+: j → getParams L h s j =
      s.estimators.foldl (fun d p => d.insert p.1 (.ref p.2)) (baseParams L h s) j := by
    intro j hj
    unfold getParams
    rw [nested_skip _ _ _ _ _ fun p _ => keyOf_plain hj]
  have hbase0 : ∀ n k, n ∈ s.estimators.map Prod.fst → baseParams L h s (address n k) = none := by
    intro n k hn
    unfold baseParams
    rw [addArg_skip]
    · exact fun hm => (hs.allClean _ hm).1 (address_dunder _ _)
    · intro p hp
      refine keyOf_other (hs.allClean _ (List.mem_map_of_mem hp)) (hs.clean n hn) ?_
      rintro rfl
      rcases List.mem_cons.mp hp with rfl | hp
      · exact hs.notEst _ hn rfl
      · exact hs.notArg _ hn (List.mem_map_of_mem hp)
  have hins : ∀ n k (d : Dict V), s.estimators.foldl (fun d p => d.insert p.1 (.ref p.2)) d (address n k) = d (address n k) := by
    intro n k d
    exact insert_skip _ _ _ fun hm => (hs.clean _ hm).1 (address_dunder _ _)
  refine ⟨fun n r hn => ⟨?_, fun k => ?_⟩, fun n v hn => ?_, fun n r hn k => ?_, ?_⟩
  · have hm : n ∈ s.estimators.map Prod.fst := List.mem_map_of_mem hn
    rw [hplain n (hs.clean n hm).1, insert_hit _ _ _ _ hs.nodup hn]
  · have hm : n ∈ s.estimators.map Prod.fst := List.mem_map_of_mem hn
    unfold getParams
    rw [nested_hit L h _ _ n r k hs.nodup hs.clean hn, hins, hbase0 n k hm]
    simp
  · have hm : n ∈ s.args.map Prod.fst := List.mem_map_of_mem hn
    rw [hplain n (hs.args_clean n hm).1, insert_skip _ _ _ fun hx => hs.notArg n hx hm]
    exact addArg_hit L h _ _ n v hs.args_nodup (hs.args_clean n hm).1 (List.mem_cons_of_mem _ hn)
  · have hm : n ∈ s.args.map Prod.fst := List.mem_map_of_mem hn
    unfold getParams
    rw [nested_skip, hins]
    · unfold baseParams
      rw [addArg_nested L h ((estimatorsArg, Val.list s.estimators) :: s.args) _ n r k hs.args_nodup hs.allClean (List.mem_cons_of_mem _ hn)]
      simp
    · intro p hp
      have hp' : p.1 ∈ s.estimators.map Prod.fst := List.mem_map_of_mem hp
      refine keyOf_other (hs.clean _ hp') (hs.args_clean n hm) ?_
      rintro rfl
      exact hs.notArg _ hp' hm
  · rw [hplain _ estimatorsArg_clean.1, insert_skip _ _ _ fun hx => hs.notEst _ hx rfl]
    exact addArg_hit L h _ _ _ _ hs.args_nodup estimatorsArg_clean.1 (by simp)

/-! ### `set_params` -/

/-- C100: `set_params(name__key=value)` succeeds exactly if the estimator of that name accepts `key=value`, and is then that change of
the estimator, and no other. -/
theorem C100_set_nested (L : Leaf E V) (h : ℕ → E) (n : Name) (r : ℕ) (hn : (n, r) ∈ s.estimators ∨ (n, Val.ref r) ∈ s.args)
    (k : Name) (v : Val V) :
    setParam L h s (address n k) v =
      match L.set (h r) k v with
      | none => .error .valueError
      | some e => .ok (write h r e, s) := by
  have hc : Clean n := hn.elim (fun hn => hs.clean n (List.mem_map_of_mem hn)) fun hn => hs.args_clean n (List.mem_map_of_mem hn)
  have hg : getParams L h s n = some (.ref r) :=
    hn.elim (fun hn => ((C100_get hs L h).1 n r hn).1) fun hn => (C100_get hs L h).2.1 n _ hn
  unfold setParam
  rw [if_neg (show address n k ≠ estimatorsArg from fun he => estimatorsArg_clean.1 (he ▸ address_dunder _ _)),
    if_neg (show ¬ (¬ dunder <:+: address n k ∧ _) from fun he => he.1 (address_dunder _ _))]
  simp only [partition_address hc, hg]
  cases L.set (h r) k v <;> rfl

/-- C100: after `set_params(name__key=value)` the value is listed at that address, and everything listed at the names of the constructor
arguments and of the estimators and at the addresses of all other estimators is as before — provided the estimators are
different objects. -/
theorem C100_set_get (L : Leaf E V) (hL : Lawful L) (hu : Unshared s) (h h' : ℕ → E) (s' : Stack V) (n : Name) (r : ℕ)
    (hn : (n, r) ∈ s.estimators) (k : Name) (v : Val V) (ho : setParam L h s (address n k) v = .ok (h', s')) :
    s' = s ∧ getParams L h' s (address n k) = some v ∧
      (∀ m, (m ∈ s.estimators.map Prod.fst ∨ m ∈ s.args.map Prod.fst) → getParams L h' s m = getParams L h s m) ∧
      (∀ m q, ((m, q) ∈ s.estimators ∨ (m, Val.ref q) ∈ s.args) → m ≠ n →
        ∀ j, getParams L h' s (address m j) = getParams L h s (address m j)) := by
  rw [C100_set_nested hs L h n r (Or.inl hn)] at ho
  cases hset : L.set (h r) k v with
  | none => rw [hset] at ho; cases ho
  | some e =>
    rw [hset] at ho
    simp only [Except.ok.injEq, Prod.mk.injEq] at ho
    obtain ⟨rfl, rfl⟩ := ho
    refine ⟨rfl, ?_, ?_, ?_⟩
    · rw [((C100_get hs L _).1 n r hn).2 k]
      simp only [write, if_true]
      exact hL.set_get _ _ _ _ hset
    · rintro m (hm | hm)
      · obtain ⟨⟨m, q⟩, hq, rfl⟩ := List.mem_map.mp hm
        rw [((C100_get hs L _).1 m q hq).1, ((C100_get hs L h).1 m q hq).1]
      · obtain ⟨⟨m, q⟩, hq, rfl⟩ := List.mem_map.mp hm
        rw [(C100_get hs L _).2.1 m q hq, (C100_get hs L h).2.1 m q hq]
    · rintro m q (hm | hm) hne j
      · rw [((C100_get hs L _).1 m q hm).2 j, ((C100_get hs L h).1 m q hm).2 j]
        have : q ≠ r := by
          rintro rfl
          have := List.inj_on_of_nodup_map hu.1 hm hn rfl
          exact hne (congrArg Prod.fst this)
        simp only [write, if_neg this]
      · rw [(C100_get hs L _).2.2.1 m q hm j, (C100_get hs L h).2.2.1 m q hm j]
        have : q ≠ r := by
          rintro rfl
          exact hu.2 m q hm (List.mem_map_of_mem (f := Prod.snd) hn)
        simp only [write, if_neg this]

/-- C100: only parameters that are listed can be set. -/
theorem C100_set_listed (L : Leaf E V) (hL : Lawful L) (h : ℕ → E) (n : Name) (r : ℕ)
    (hn : (n, r) ∈ s.estimators ∨ (n, Val.ref r) ∈ s.args) (k : Name) (v : Val V)
    (hk : getParams L h s (address n k) = none) : setParam L h s (address n k) v = .error .valueError := by
  rw [C100_set_nested hs L h n r hn]
  have : L.get (h r) k = none := by
    rcases hn with hn | hn
    · rw [← ((C100_get hs L h).1 n r hn).2 k]; exact hk
    · rw [← (C100_get hs L h).2.2.1 n r hn k]; exact hk
  rw [hL.set_unknown _ _ v this]

/-- C100: setting a constructor argument sets it and leaves the estimators and the other arguments alone. -/
theorem C100_set_own (L : Leaf E V) (h : ℕ → E) (n : Name) (hn : n ∈ s.args.map Prod.fst) (v : Val V) :
    ∃ s', setParam L h s n v = .ok (h, s') ∧ s'.estimators = s.estimators ∧ (n, v) ∈ s'.args ∧
      ∀ m w, m ≠ n → ((m, w) ∈ s'.args ↔ (m, w) ∈ s.args) := by
  have hc := (hs.args_clean n hn).1
  obtain ⟨⟨n, w⟩, hw, rfl⟩ := List.mem_map.mp hn
  have hg := (C100_get hs L h).2.1 n w hw
  refine ⟨s.setattr n v, ?_, rfl, ?_, ?_⟩
  · unfold setParam
    rw [if_neg (fun he => ?_), if_neg (fun he => hs.notArg n he.2 hn)]
    · simp only [partition_none hc, hg]
    · exact (List.nodup_cons.mp hs.args_nodup).1 (he ▸ hn)
  · exact List.mem_map.mpr ⟨(n, w), hw, by simp⟩
  · intro m w' hm
    simp only [Stack.setattr, List.mem_map]
    constructor
    · rintro ⟨⟨a, b⟩, hab, he⟩
      split_ifs at he with hx
      · exact absurd (congrArg Prod.fst he).symm hm
      · rw [← he]; exact hab
    · intro hm'
      exact ⟨(m, w'), hm', by simp [hm]⟩

/-- C100: replacing an estimator by its name raises (what it leaves behind is `C59_replace_raises`). -/
theorem C100_replace_raises (L : Leaf E V) (h : ℕ → E) (n : Name) (hn : n ∈ s.estimators.map Prod.fst) (v : Val V) :
    setParam L h s n v = .error .runtimeError := by
  unfold setParam
  rw [if_neg (hs.notEst n hn), if_pos ⟨(hs.clean n hn).1, hn⟩]

/-- C100: an address that starts with no name of an estimator or argument is refused. -/
theorem C100_set_unknown (L : Leaf E V) (h : ℕ → E) (n k : Name) (hc : Clean n) (h1 : n ∉ s.estimators.map Prod.fst)
    (h2 : n ∉ s.args.map Prod.fst) (h3 : n ≠ estimatorsArg) (v : Val V) :
    setParam L h s (address n k) v = .error .valueError := by
  have hg : getParams L h s n = none := by
    unfold getParams
    rw [nested_skip _ _ _ _ _ fun p _ => keyOf_plain hc.1, insert_skip _ _ _ h1]
    unfold baseParams
    rw [addArg_skip _ _ _ _ _ _ fun p _ => keyOf_plain hc.1]
    simp only [List.map_cons, List.mem_cons, not_or]
    exact ⟨h3, h2⟩
  unfold setParam
  rw [if_neg (show address n k ≠ estimatorsArg from fun he => estimatorsArg_clean.1 (he ▸ address_dunder _ _)),
    if_neg (show ¬ (¬ dunder <:+: address n k ∧ _) from fun he => he.1 (address_dunder _ _))]
  simp only [partition_address hc, hg]

end good

/-! ### Instances and findings -/

/-- An estimator with the single parameter `alpha`. -/
def alpha : Leaf ℤ ℤ where
  get e := fun j => if j = "alpha".toList then some (.plain e) else none
  set e k v := if k = "alpha".toList then (match v with | .plain x => some x | _ => none) else none

theorem alpha_lawful : Lawful alpha := by
  constructor
  · intro e k v e' h
    simp only [alpha] at h ⊢
    split_ifs at h ⊢ with hk
    cases v <;> simp_all
  · intro e k v h
    simp only [alpha] at h ⊢
    split_ifs at h ⊢ with hk
    rfl

/-- Two estimators and a final estimator. -/
def two : Stack ℤ :=
  ⟨[("a".toList, 0), ("min_risk".toList, 1)], [("final_estimator".toList, .ref 2), ("cv".toList, .plain 5), ("n_jobs".toList, .plain 1)]⟩

/-- The hypotheses hold for it. -/
example : Good two ∧ Unshared two := by
  refine ⟨⟨by decide, ?_, by decide, ?_⟩, by decide, ?_⟩
  · intro n hn
    have : n = "a".toList ∨ n = "min_risk".toList := by simpa [two] using hn
    rcases this with rfl | rfl <;> exact ⟨by decide, by decide⟩
  · intro n hn
    have : n = "final_estimator".toList ∨ n = "cv".toList ∨ n = "n_jobs".toList := by simpa [two] using hn
    rcases this with rfl | rfl | rfl <;> exact ⟨by decide, by decide⟩
  · intro n r hn
    have : n = "final_estimator".toList ∧ r = 2 := by simpa [two] using hn
    rw [this.2]; decide

example : ((setParam alpha (fun i => i) two "min_risk__alpha".toList (.plain 7)).toOption.map fun x => (x.1 0, x.1 1, x.1 2)) = some (0, 7, 2) := by
  decide

/-- C100, finding: a name that ends with `"_"` is accepted by `fit`.  The parameters of that estimator are listed by `get_params`, but
`set_params` (hence a grid search) refuses the listed address, because the first `"__"` in it is taken. -/
theorem C100_trailing_underscore_false :
    let s : Stack ℤ := ⟨[("a_".toList, 0)], [("cv".toList, .plain 5)]⟩
    validNames s = true ∧ getParams alpha (fun i => i) s "a___alpha".toList = some (.plain 0) ∧
      (setParam alpha (fun i => i) s "a___alpha".toList (.plain 7)).toOption.isNone := by
  decide

/-- C100, finding: before `fit` has checked the names, an estimator named like a constructor argument hides that argument. -/
theorem C100_hidden_argument :
    let s : Stack ℤ := ⟨[("cv".toList, 0)], [("cv".toList, .plain 5)]⟩
    validNames s = false ∧ getParams alpha (fun i => i) s "cv".toList = some (.ref 0) := by
  decide

/-- C100, finding: with one estimator under two names, setting a parameter at one address changes the value listed at the other. -/
theorem C100_shared_false :
    let s : Stack ℤ := ⟨[("a".toList, 0), ("b".toList, 0)], []⟩
    validNames s = true ∧ getParams alpha (fun i => i) s "b__alpha".toList = some (.plain 0) ∧
      (setParam alpha (fun i => i) s "a__alpha".toList (.plain 7)).toOption.map
        (fun x => getParams alpha x.1 x.2 "b__alpha".toList) = some (some (.plain 7)) := by
  decide

end Skfolio.Nested.Address
