import Verif.Cache.Model
import Mathlib.Data.List.GetD
import Mathlib.Tactic.SplitIfs
import Mathlib.Tactic.ByContra

/-!
# Cached methods: the claims
-/

set_option autoImplicit false

namespace Skfolio.Cache

variable {V X : Type}

/-! ### Specification -/

/-- The two calls are the same for the cache: of the same method, with equal hashes. -/
def Alike (H : Hash) (c d : Call) : Prop := c.method = d.method ∧ c.key H = d.key H

instance (H : Hash) (c d : Call) : Decidable (Alike H c d) := by unfold Alike; infer_instance

/-- The first call among `cs` that is alike to `c` and whose method succeeds, as the value it got. -/
def firstValue (H : Hash) (body : Call → Except X V) (cs : List Call) (c : Call) : Option V :=
  (cs.filter fun d => decide (Alike H d c)).findSome? fun d => (body d).toOption

/-- The call has hashable arguments only. -/
def Hashable (c : Call) : Prop := Obj.unhashable ∉ c.args ∧ ∀ p ∈ c.kwds, p.2 ≠ Obj.unhashable

/-- What the method itself does. -/
def direct (body : Call → Except X V) (c : Call) : Except (Err X) V :=
  match body c with
  | .ok v => .ok v
  | .error x => .error (.method x)

/-- Hashing does not confuse calls of the same method whose results differ. -/
def Separated (H : Hash) (body : Call → Except X V) (cs : List Call) : Prop :=
  ∀ c ∈ cs, ∀ d ∈ cs, Alike H c d → body c = body d

/-! ### Proofs -/

theorem mapM_isSome (H : Hash) (l : List Obj) : (l.mapM H.of).isSome = true ↔ Obj.unhashable ∉ l := by
  induction l with
  | nil => simp
  | cons o l ih =>
    rw [List.mapM_cons]
    cases o with
    | unhashable => simp [Hash.of]
    | int n =>
      simp only [Hash.of, List.mem_cons, not_or, reduceCtorEq, not_false_eq_true, true_and, ← ih]
      cases List.mapM H.of l <;> simp
    | str n =>
      simp only [Hash.of, List.mem_cons, not_or, reduceCtorEq, not_false_eq_true, true_and, ← ih]
      cases List.mapM H.of l <;> simp
    | obj n =>
      simp only [Hash.of, List.mem_cons, not_or, reduceCtorEq, not_false_eq_true, true_and, ← ih]
      cases List.mapM H.of l <;> simp

theorem key_isSome (H : Hash) (c : Call) : (c.key H).isSome = true ↔ Hashable c := by
  unfold Call.key Hashable
  rw [Option.isSome_map, mapM_isSome]
  unfold Call.tuple
  simp only [List.mem_append, not_or, List.mem_flatMap, List.mem_cons, reduceCtorEq, false_or, List.not_mem_nil, or_false, not_exists,
    not_and]
  constructor
  · rintro ⟨h1, h2⟩
    exact ⟨h1, fun p hp he => h2 p hp he.symm⟩
  · rintro ⟨h1, h2⟩
    exact ⟨h1, fun p hp he => h2 p hp he.symm⟩

/-- The cache holds the first values of the calls made so far. -/
def Holds (H : Hash) (body : Call → Except X V) (s : Store V) (cs : List Call) : Prop :=
  ∀ (c : Call) (k : ℤ), c.key H = some k → s c.method k = firstValue H body cs c

theorem findSome_append (H : Hash) (body : Call → Except X V) (cs : List Call) (d c : Call) :
    firstValue H body (cs ++ [d]) c =
      (firstValue H body cs c).or (if Alike H d c then (body d).toOption else none) := by
  unfold firstValue
  rw [List.filter_append, List.findSome?_append]
  congr 1
  by_cases h : Alike H d c <;> simp [h]

theorem holds_step (H : Hash) (body : Call → Except X V) (s : Store V) (cs : List Call) (d : Call) (h : Holds H body s cs) :
    Holds H body (wrapper H body s d).store (cs ++ [d]) := by
  intro c k hk
  rw [findSome_append]
  have hc := h c k hk
  unfold wrapper
  split
  · rename_i hd
    rw [if_neg]
    · simp only [Option.or_none]; exact hc
    · rintro ⟨-, he⟩
      rw [hd, hk] at he; cases he
  · rename_i kd hd
    have hsd := h d kd hd
    split
    · rename_i v hv
      by_cases ha : Alike H d c
      · have hkk : k = kd := by
          have := ha.2; rw [hd, hk] at this; exact (Option.some.inj this).symm
        subst hkk
        change s c.method k = _
        rw [← hc, ← ha.1, hv]
        rfl
      · rw [if_neg ha, Option.or_none]; exact hc
    · rename_i hv
      split
      · rename_i x hx
        rw [hx]
        simp only [Except.toOption, ite_self, Option.or_none]
        exact hc
      · rename_i v hx
        simp only [Store.insert]
        by_cases ha : Alike H d c
        · have hkk : k = kd := by
            have := ha.2; rw [hd, hk] at this; exact (Option.some.inj this).symm
          subst hkk
          rw [if_pos ⟨ha.1.symm, rfl⟩, if_pos ha, hx, ← hc, ← ha.1, hv]
          rfl
        · rw [if_neg ha, Option.or_none, if_neg]
          · exact hc
          · rintro ⟨h1, h2⟩
            exact ha ⟨h1.symm, by rw [hd, hk, h2]⟩

theorem calls_append (H : Hash) (body : Call → Except X V) (s : Store V) (done todo : List Call) (h : Holds H body s done) :
    ∀ (i : ℕ) (c : Call), todo[i]? = some c → ∃ s', Holds H body s' (done ++ todo.take i) ∧
      (calls H body s todo)[i]? = some ((wrapper H body s' c).result, (wrapper H body s' c).ran) := by
  induction todo generalizing s done with
  | nil => intro i c hi; simp at hi
  | cons d todo ih =>
    intro i c hi
    cases i with
    | zero =>
      simp only [List.getElem?_cons_zero, Option.some.injEq] at hi
      subst hi
      exact ⟨s, by simpa using h, rfl⟩
    | succ i =>
      simp only [List.getElem?_cons_succ] at hi
      obtain ⟨s', h1, h2⟩ := ih _ (done ++ [d]) (holds_step H body s done d h) i c hi
      refine ⟨s', by simpa using h1, ?_⟩
      simp only [calls, List.getElem?_cons_succ]
      exact h2

/-- C101: exactly what the cached methods do.  A call with an argument that cannot be hashed raises `TypeError` and the method is not run.
Any other call returns the value of the first call of the same fit with the same method and hash whose method succeeded, and then the
method is not run; if there is none, it runs the method. -/
theorem C101_exact (H : Hash) (body : Call → Except X V) (cs : List Call) (i : ℕ) (c : Call) (hi : cs[i]? = some c) :
    (¬ Hashable c → (fit H body cs)[i]? = some (.error .typeError, false)) ∧
    (Hashable c → (fit H body cs)[i]? = some
      (match firstValue H body (cs.take i) c with
        | some v => (.ok v, false)
        | none => (direct body c, true))) := by
  obtain ⟨s, h1, h2⟩ := calls_append H body (fun _ _ => none) [] cs (by intro c k _; rfl) i c hi
  rw [List.nil_append] at h1
  unfold fit
  rw [h2]
  constructor
  · intro hh
    rw [← key_isSome H] at hh
    have : c.key H = none := by simpa using hh
    simp only [wrapper, this]
  · intro hh
    obtain ⟨k, hk⟩ := Option.isSome_iff_exists.mp ((key_isSome H c).2 hh)
    have := h1 c k hk
    rw [← this]
    simp only [wrapper, hk]
    cases hs : s c.method k with
    | some v => rfl
    | none =>
      simp only [direct]
      cases body c <;> rfl

theorem firstValue_some {H : Hash} {body : Call → Except X V} {cs : List Call} {c : Call} {v : V}
    (h : firstValue H body cs c = some v) : ∃ d ∈ cs, Alike H d c ∧ body d = .ok v := by
  obtain ⟨d, hd, hv⟩ := List.exists_of_findSome?_eq_some h
  simp only [List.mem_filter, decide_eq_true_eq] at hd
  refine ⟨d, hd.1, hd.2, ?_⟩
  cases hb : body d with
  | error x => rw [hb] at hv; cases hv
  | ok w => rw [hb] at hv; simp only [Except.toOption, Option.some.injEq] at hv; rw [hv]

/-- C101: if hashing does not confuse calls with different results, every call with hashable arguments returns what the method itself
returns or raises. -/
theorem C101_transparent (H : Hash) (body : Call → Except X V) (cs : List Call) (hs : Separated H body cs) (i : ℕ) (c : Call)
    (hi : cs[i]? = some c) (hc : Hashable c) :
    ((fit H body cs)[i]?.map Prod.fst) = some (direct body c) := by
  rw [(C101_exact H body cs i c hi).2 hc]
  cases hf : firstValue H body (cs.take i) c with
  | none => rfl
  | some v =>
    obtain ⟨d, hd, ha, hb⟩ := firstValue_some hf
    have := hs d (List.mem_of_mem_take hd) c (List.mem_of_getElem? hi) ha
    simp only [Option.map_some, direct, ← this, hb]

/-- C101: a method that does not fail is run once for the calls that are the same for the cache: the expressions (and variables) of a fit
are built once. -/
theorem C101_once (H : Hash) (body : Call → Except X V) (cs : List Call) (i j : ℕ) (c d : Call) (hij : i < j)
    (hi : cs[i]? = some c) (hj : cs[j]? = some d) (ha : Alike H c d) (hc : Hashable c) (hok : ∃ v, body c = .ok v) :
    ∃ v, (fit H body cs)[i]?.map Prod.fst = some (.ok v) ∧ (fit H body cs)[j]? = some (.ok v, false) := by
  have hd : Hashable d := by rw [← key_isSome H] at hc ⊢; rw [← ha.2]; exact hc
  obtain ⟨v, hv⟩ := hok
  have hal : Alike H c c := ⟨rfl, rfl⟩
  have key : ∀ (l : List Call), firstValue H body l d = firstValue H body l c := by
    intro l
    unfold firstValue
    congr 1
    apply List.filter_congr
    intro x _
    simp only [Alike, ha.1, ha.2]
  have hsplit : ∃ w, firstValue H body (cs.take j) c = some w ∧ (firstValue H body (cs.take i) c = some w ∨
      (firstValue H body (cs.take i) c = none ∧ w = v)) := by
    have htake : cs.take j = (cs.take i ++ [c]) ++ (cs.take j).drop (i + 1) := by
      have h1 : cs.take (i + 1) = cs.take i ++ [c] := by
        have hlt : i < cs.length := by
          by_contra hn
          rw [List.getElem?_eq_none (by omega)] at hi; cases hi
        rw [List.getElem?_eq_getElem hlt, Option.some.injEq] at hi
        rw [List.take_succ_eq_append_getElem hlt, hi]
      rw [← h1]
      have : cs.take (i + 1) = (cs.take j).take (i + 1) := by rw [List.take_take]; congr 1; omega
      rw [this, List.take_append_drop]
    rw [htake]
    have happ : ∀ a b : List Call, firstValue H body (a ++ b) c = (firstValue H body a c).or (firstValue H body b c) := by
      intro a b; unfold firstValue; rw [List.filter_append, List.findSome?_append]
    rw [happ, findSome_append, if_pos hal, hv]
    cases hf : firstValue H body (cs.take i) c with
    | some w => exact ⟨w, by simp, Or.inl rfl⟩
    | none => exact ⟨v, by simp [Except.toOption], Or.inr ⟨rfl, rfl⟩⟩
  obtain ⟨w, hw, hor⟩ := hsplit
  refine ⟨w, ?_, ?_⟩
  · rw [(C101_exact H body cs i c hi).2 hc]
    rcases hor with h | ⟨h, rfl⟩
    · rw [h]; rfl
    · rw [h]; simp [direct, hv]
  · rw [(C101_exact H body cs j d hj).2 hd, key, hw]

/-! ### Instances and findings -/

/-- Calls as the library makes them: the minimum acceptable return is asked for twice with the same variable and prior model, then for
other ones. -/
def usual : List Call :=
  [⟨"_cvx_min_acceptable_return", [], [("prior_model", .obj 1), ("w", .obj 2), ("min_acceptable_return", .int 0)]⟩,
   ⟨"_cvx_min_acceptable_return", [], [("prior_model", .obj 1), ("w", .obj 2), ("min_acceptable_return", .int 0)]⟩,
   ⟨"_cvx_returns", [], [("prior_model", .obj 1), ("w", .obj 2)]⟩,
   ⟨"_cvx_returns", [], [("prior_model", .obj 1), ("w", .obj 3)]⟩]

/-- Some hash. -/
def someHash : Hash := ⟨fun s => s.length, fun i => 1000 + i, fun l => l.foldl (fun a x => 31 * a + x) 7⟩

/-- A method that returns its arguments, or fails without arguments. -/
def echo (c : Call) : Except Unit Call := if c.args = [] ∧ c.kwds = [] then .error () else .ok c

example : Separated someHash echo usual := by
  unfold Separated; decide

example : ((fit someHash echo usual).map Prod.snd) = [true, false, true, true] := by decide

/-- C101, finding: whatever the hashes of strings, objects and tuples, the minimum acceptable returns `-1` and `-2` are the same for the
cache: the second call of a fit returns the expression of the first. -/
theorem C101_minus_one_false (H : Hash) :
    let c := fun n => (⟨"_cvx_min_acceptable_return", [], [("prior_model", .obj 1), ("w", .obj 2), ("min_acceptable_return", .int n)]⟩ : Call)
    (fit H echo [c (-1), c (-2)])[1]? = some (.ok (c (-1)), false) := by
  intro c
  have hh : Hashable (c (-2)) := ⟨by simp [c], by simp [c]⟩
  rw [(C101_exact H echo [c (-1), c (-2)] 1 (c (-2)) rfl).2 hh]
  have ha : Alike H (c (-1)) (c (-2)) := by
    refine ⟨rfl, ?_⟩
    simp only [c, Call.key, Call.tuple, List.nil_append, List.flatMap_cons, List.flatMap_nil, List.append_nil, List.cons_append,
      List.mapM_cons, Hash.of]
    rfl
  have : firstValue H echo ([c (-1), c (-2)].take 1) (c (-2)) = some (c (-1)) := by
    simp [firstValue, ha, echo, c, Except.toOption]
  rw [this]

/-- C101, finding: a keyword argument and the same two values as positional arguments have the same key. -/
theorem C101_keyword_false (H : Hash) (m k : String) (x : Obj) :
    Alike H ⟨m, [], [(k, x)]⟩ ⟨m, [.str k, x], []⟩ := ⟨rfl, rfl⟩

/-- C101, finding: `_cvx_min_acceptable_return` is documented for an array of minimum acceptable returns, one per asset, but the cached
method raises `TypeError` for every array before it is run. -/
theorem C101_array_raises (H : Hash) (body : Call → Except X V) (pm w : ℕ) :
    (fit H body [⟨"_cvx_min_acceptable_return", [], [("prior_model", .obj pm), ("w", .obj w), ("min_acceptable_return", .unhashable)]⟩])[0]? =
      some (.error .typeError, false) :=
  (C101_exact H body _ 0 _ rfl).1 fun h => h.2 ("min_acceptable_return", .unhashable) (by simp) rfl

end Skfolio.Cache
