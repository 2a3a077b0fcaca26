import Mathlib.Data.List.Basic
import Mathlib.Tactic.SplitIfs
import Mathlib.Data.List.Lemmas

/-!
**C59**: `StackingOptimization.set_params` (`src/skfolio/optimization/ensemble/_stacking.py` L189-211, `BaseComposition._set_params` and `_replace_estimator`, `optimization/ensemble/_base.py` L47-75).
-/
set_option autoImplicit false

namespace Skfolio.Nested

section
variable {S E : Type} [DecidableEq S]

/-- `_replace_estimator`, _base.py L68-75: the first entry with this name is replaced. -/
def replaceEstimator (name : S) (e : E) : List (S × E) → List (S × E)
  | [] => []
  | (n, old) :: l => if n = name then (name, e) :: l else (n, old) :: replaceEstimator name e l

/-- The end of `_set_params`: an exception that leaves the estimators changed, or the remaining parameters go to `super().set_params`, L64-66. -/
inductive SetParams (S E : Type) where
  /-- `RuntimeError: dictionary changed size during iteration` -/
  | runtimeError (estimators : List (S × E))
  | toSuper (estimators : List (S × E)) (params : List (S × E))
  deriving DecidableEq

/-- The loop `for name in params` of `_set_params`, L58-62. Python's dictionary iterator remembers the size the dictionary had when the loop began and raises a RuntimeError when the next key is asked for (or the end is reached) and the size has changed.
`nested name` is `"__" in name`; `keys` are the keys still to come. -/
def setLoop (nested : S → Bool) (names : List S) (size : ℕ) : List (S × E) → List (S × E) → List S → SetParams S E
  | estimators, params, [] => if params.length ≠ size then .runtimeError estimators else .toSuper estimators params
  | estimators, params, name :: keys =>
    if params.length ≠ size then .runtimeError estimators
    else if !nested name && names.contains name then
      match params.find? fun p => p.1 = name with
      | some p => setLoop nested names size (replaceEstimator name p.2 estimators) (params.filter fun p => p.1 ≠ name) keys
      | none => setLoop nested names size estimators params keys
    else setLoop nested names size estimators params keys

/-- `_set_params("estimators", **params)`, L47-66, when `params` has no entry `estimators`. -/
def setParams (nested : S → Bool) (estimators params : List (S × E)) : SetParams S E :=
  if estimators = [] then .toSuper estimators params else setLoop nested (estimators.map Prod.fst) params.length estimators params (params.map Prod.fst)

/-- A parameter that names an estimator. -/
def Names (nested : S → Bool) (estimators : List (S × E)) (s : S) : Prop := nested s = false ∧ s ∈ estimators.map Prod.fst

theorem setLoop_none (nested : S → Bool) (names : List S) (estimators params : List (S × E)) (keys : List S) (h : ∀ k ∈ keys, ¬ (nested k = false ∧ k ∈ names)) :
    setLoop nested names params.length estimators params keys = .toSuper estimators params := by
  induction keys with
  | nil => simp [setLoop]
  | cons k keys ih =>
    rw [setLoop, if_neg (by simp), if_neg, ih fun j hj => h j (by simp [hj])]
    have := h k (by simp)
    simpa using this

theorem setLoop_changed (nested : S → Bool) (names : List S) (size : ℕ) (estimators params : List (S × E)) (keys : List S) (h : params.length ≠ size) : setLoop nested names size estimators params keys = .runtimeError estimators := by
  cases keys <;> simp [setLoop, h]

theorem setLoop_first (nested : S → Bool) (names : List S) (estimators params : List (S × E)) (pre : List S) (name : S) (post : List S) (e : E) (hpre : ∀ k ∈ pre, ¬ (nested k = false ∧ k ∈ names)) (hn : nested name = false ∧ name ∈ names) (hp : params.find? (fun p => p.1 = name) = some (name, e)) :
    setLoop nested names params.length estimators params (pre ++ name :: post) = .runtimeError (replaceEstimator name e estimators) := by
  induction pre with
  | nil =>
    rw [List.nil_append, setLoop, if_neg (by simp), if_pos (by simpa using hn), hp]
    apply setLoop_changed
    intro hl
    have hmem := List.mem_of_find?_eq_some hp
    have := List.length_filter_eq_length_iff.1 hl _ hmem
    simp at this
  | cons k pre ih =>
    rw [List.cons_append, setLoop, if_neg (by simp), if_neg (by simpa using hpre k (by simp)), ih fun j hj => hpre j (by simp [hj])]

/-- **C59 (what holds).** Parameters that do not name an estimator leave the estimators as they are and are all passed on to scikit-learn. Missing: replacing an estimator, which never succeeds (`C59_replace_raises`). -/
theorem C59_set_params_partial (nested : S → Bool) (estimators params : List (S × E)) (h : ∀ p ∈ params, ¬ Names nested estimators p.1) : setParams nested estimators params = .toSuper estimators params := by
  unfold setParams
  split_ifs
  · rfl
  · apply setLoop_none
    intro k hk
    obtain ⟨p, hp, rfl⟩ := List.mem_map.1 hk
    exact h p hp

theorem replaceEstimator_eq (name : S) (e : E) (l : List (S × E)) (h : (l.map Prod.fst).Nodup) : replaceEstimator name e l = l.map fun q => if q.1 = name then (name, e) else q := by
  induction l with
  | nil => rfl
  | cons q l ih =>
    obtain ⟨n, old⟩ := q
    rw [List.map_cons, List.nodup_cons] at h
    rw [replaceEstimator, List.map_cons]
    split_ifs with hn
    · congr 1
      have : l.map (fun q => if q.1 = name then (name, e) else q) = l.map id := by
        apply List.map_congr_left
        intro q hq
        rw [if_neg]
        · rfl
        intro hc
        exact h.1 (List.mem_map.2 ⟨q, hq, hc.trans hn.symm⟩)
      rw [this, List.map_id]
    · rw [ih h.2]

/-- **C59 fails.** `set_params(name=estimator)` with the name of an estimator raises a RuntimeError, for all estimators with distinct names and all parameters: the first named estimator is replaced, all other parameters are ignored. -/
theorem C59_replace_raises (nested : S → Bool) (estimators params : List (S × E)) (hk : (params.map Prod.fst).Nodup) (hu : (estimators.map Prod.fst).Nodup) (h : ∃ p ∈ params, Names nested estimators p.1) :
    ∃ p ∈ params, Names nested estimators p.1 ∧ setParams nested estimators params = .runtimeError (estimators.map fun q => if q.1 = p.1 then p else q) := by
  have hne : estimators ≠ [] := by
    rintro rfl
    obtain ⟨p, _, hp⟩ := h
    simpa using hp.2
  obtain ⟨q, hq, hqn⟩ := h
  obtain ⟨f, hf⟩ : ∃ f : S × E → Bool, f = fun p => !nested p.1 && (estimators.map Prod.fst).contains p.1 := ⟨_, rfl⟩
  have hfn : ∀ p, f p = true ↔ Names nested estimators p.1 := by
    intro p
    rw [hf]
    simp [Names]
  obtain ⟨p, hp⟩ : ∃ p, params.find? f = some p := by
    rw [← Option.isSome_iff_exists, List.find?_isSome]
    exact ⟨q, hq, (hfn q).2 hqn⟩
  obtain ⟨hpf, as, bs, hab, has⟩ := List.find?_eq_some_iff_append.1 hp
  refine ⟨p, List.mem_of_find?_eq_some hp, (hfn p).1 hpf, ?_⟩
  have hr := replaceEstimator_eq p.1 p.2 estimators hu
  rw [← hr]
  unfold setParams
  rw [if_neg hne]
  have hkeys : params.map Prod.fst = as.map Prod.fst ++ p.1 :: bs.map Prod.fst := by rw [hab]; simp
  rw [hkeys]
  refine setLoop_first nested _ estimators params _ p.1 _ p.2 ?_ ((hfn p).1 hpf) ?_
  · intro k hk'
    obtain ⟨a, ha, rfl⟩ := List.mem_map.1 hk'
    have h1 := has a ha
    intro hc
    rw [(hfn a).2 hc] at h1
    simp at h1
  · rw [List.find?_eq_some_iff_append]
    refine ⟨by simp, as, bs, by rw [hab], ?_⟩
    intro a ha
    rw [hkeys, List.nodup_append] at hk
    have := hk.2.2 a.1 (List.mem_map_of_mem ha) p.1 (by simp)
    simpa using this

end

/-- Two estimators; the first is to be replaced. -/
example : setParams (fun _ => false) [("model1", 1), ("model2", 2)] [("model1", 3)] = .runtimeError [("model1", 3), ("model2", 2)] := by decide

end Skfolio.Nested
