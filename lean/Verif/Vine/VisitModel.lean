import Verif.Vine.Model

/-!
Model of `VineCopula.sample` with the values that it drops on the way: `src/skfolio/distribution/multivariate/_utils.py` (cited as U) and `src/skfolio/distribution/multivariate/_vine_copula.py` (cited as V).

`Verif/Vine/Model.lean` keeps every value. The code makes two passes: the first counts how often every value is read, the second drops a value when it has been read that often.
-/
set_option autoImplicit false

namespace Skfolio.Vine

variable {K : Type}

/-- The values stored in the nodes, with `_u_count`, `_v_count` (`count`) and `_u_count_total`, `_v_count_total` (`total`), U L179-189; the flag is `true` for `u`. -/
structure VState (K : Type) where
  pseudo : ℕ → Option K
  cache : Node → Bool → Option K
  count : Node → Bool → ℕ
  total : Node → Bool → ℕ

/-- `self._u_count += 1` and the like, U L219-222, L262-265. -/
def bump (f : Node → Bool → ℕ) (n : Node) (b : Bool) : Node → Bool → ℕ := fun m c => if m = n ∧ c = b then f m c + 1 else f m c

/-- Assignment to `pseudo_values`, `u` (`isLeft`) or `v`: U L243-245, L286-288. -/
def VState.assign (s : VState K) (n : Node) (isLeft : Bool) (t : K) : VState K :=
  match n with
  | .root i => { s with pseudo := fun j => if j = i then some t else s.pseudo j }
  | .edge l r => { s with cache := fun m b => if m = .edge l r ∧ b = isLeft then some t else s.cache m b }

/-- The start of a getter, U L217-222 and L260-265. -/
def VState.enter (isCount : Bool) (n : Node) (b : Bool) (s : VState K) : VState K :=
  if isCount then { s with total := bump s.total n b } else { s with count := bump s.count n b }

/-- The end of a getter, "Clear cache", U L232-239 and L275-282. -/
def VState.leave (isCount : Bool) (n : Node) (b : Bool) (s : VState K) : VState K :=
  if isCount = false ∧ s.total n b ≠ 0 ∧ s.count n b = s.total n b then
    { s with cache := fun m c => if m = n ∧ c = b then none else s.cache m c, count := fun m c => if m = n ∧ c = b then 0 else s.count m c }
  else s

/-- The getters `u` (`isLeft`, U L204-241) and `v` (U L247-284) of a child node and `pseudo_values` of a root node. `isCount` is `is_count_visits` of the trees (V L1109-1121); a terminal node, for which `top` holds, belongs to no tree
(V L457-459) and does not count. `nan` is `np.array([np.nan])`. `none`: a value is missing. -/
def visit (isCount : Bool) (top : Node → Bool) (nan : K) (cop : Node → Cop K) : Node → Bool → VState K → Option (K × VState K)
  | .root i, _, s => (s.pseudo i).map fun t => (t, s)
  | .edge l r, isLeft, s =>
    let counting := isCount && !top (.edge l r)
    let s := s.enter counting (.edge l r) isLeft
    match s.cache (.edge l r) isLeft with
    | some t => some (t, s.leave counting (.edge l r) isLeft)
    | none => (sides l r).bind fun d => (visit isCount top nan cop l (!d.1) s).bind fun p => (visit isCount top nan cop r (!d.2) p.2).bind fun q =>
        let t := if counting then nan else (cop (.edge l r)).partialDerivative (!isLeft) (p.1, q.1)
        some (t, (q.2.assign (.edge l r) isLeft t).leave counting (.edge l r) isLeft)

/-- `_inverse_partial_derivative`, V L1230-1236. -/
def inverseOrNan (isCount : Bool) (nan : K) (c : Cop K) (x : K × K) : K := if isCount then nan else c.inversePartialDerivative false x

/-- The treatment of one entry of the queue of `_propagate_samples` and of those that it puts in front, V L1196-1227. -/
def descendV (isCount : Bool) (top : Node → Bool) (nan : K) (cop : Node → Cop K) : Node → Bool → VState K → Option (VState K)
  | .root _, _, s => some s
  | .edge l r, isLeft, s =>
    (sides l r).bind fun d => (visit isCount top nan cop (.edge l r) isLeft s).bind fun p =>
      if isLeft then
        (visit isCount top nan cop r (!d.2) p.2).bind fun q => descendV isCount top nan cop l (!d.1) (q.2.assign l (!d.1) (inverseOrNan isCount nan (cop (.edge l r)) (p.1, q.1)))
      else
        (visit isCount top nan cop l (!d.1) p.2).bind fun q => descendV isCount top nan cop r (!d.2) (q.2.assign r (!d.2) (inverseOrNan isCount nan (cop (.edge l r)) (p.1, q.1)))

/-- `_propagate_samples`, V L1155-1227, from a given state. -/
def propagateV (isCount : Bool) (top : Node → Bool) (nan : K) (cop : Node → Cop K) (order : List (Node × Bool × K)) (s : VState K) : Option (VState K) :=
  order.foldlM (fun s e => descendV isCount top nan cop e.1 e.2.1 s) (order.foldl (fun s e => s.assign e.1 e.2.1 (if isCount then nan else e.2.2)) s)

/-- `clear_cache`, V L646-651 with U L142-144 and L310-324, for all nodes of the vine. -/
def VState.clear (clearCount : Bool) (s : VState K) : VState K where
  pseudo := fun _ => none
  cache := fun _ _ => none
  count := if clearCount then fun _ _ => 0 else s.count
  total := if clearCount then fun _ _ => 0 else s.total

/-- The two passes of `VineCopula.sample`, V L561-592, from whatever the nodes hold before: the state before the samples are collected from the root nodes (V L595). -/
def sampleV (top : Node → Bool) (nan : K) (cop : Node → Cop K) (order : List (Node × Bool × K)) (s : VState K) : Option (VState K) :=
  (propagateV true top nan cop order (s.clear true)).bind fun s1 => propagateV false top nan cop order (s1.clear false)

end Skfolio.Vine
