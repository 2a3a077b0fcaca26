import Verif.Measures.Spec
import Mathlib.Tactic.Ring
import Mathlib.Tactic.Linarith
import Mathlib.Tactic.FieldSimp
import Mathlib.Tactic.Positivity
import Mathlib.Algebra.Order.BigOperators.Group.List

/-! Helper lemmas about VaR and CVaR. -/
set_option autoImplicit false

namespace Skfolio.Measures

section
variable {K : Type} [Field K] [LinearOrder K] [IsStrictOrderedRing K] [FloorSemiring K]

/-- Everything needed about the tail: the split of the partitioned sample at the index. -/
structure TailSplit (P : Partition K) (r : List K) (beta : K) (p1 : List K) (x : K) (p2 : List K) : Prop where
  perm : (p1 ++ x :: p2).Perm r
  le : ∀ y ∈ p1, y ≤ x
  ge : ∀ y ∈ p2, x ≤ y
  kpos : 0 < tailSize beta r.length
  lo : (p1.length : K) < tailSize beta r.length
  hi : tailSize beta r.length ≤ (p1.length : K) + 1
  var : valueAtRisk P r beta = some (-x)
  cvar : cvar P r beta = some (-p1.sum / tailSize beta r.length + x * ((p1.length : K) / tailSize beta r.length - 1))

theorem tailSplit (P : Partition K) (r : List K) (hr : r ≠ []) (beta : K) (h0 : 0 ≤ beta) (h1 : beta < 1) :
    ∃ p1 x p2, TailSplit P r beta p1 x p2 := by
  have hn : 0 < r.length := List.length_pos_iff.2 hr
  have hnK : (0 : K) < (r.length : K) := by exact_mod_cast hn
  have hk : 0 < tailSize beta r.length := mul_pos (by linarith) hnK
  have hkn : tailSize beta r.length ≤ (r.length : K) := by
    unfold tailSize
    nlinarith
  have hc0 : 0 < ⌈tailSize beta r.length⌉₊ := Nat.ceil_pos.2 hk
  have hcn : ⌈tailSize beta r.length⌉₊ ≤ r.length := Nat.ceil_le.2 hkn
  have hik : tailIndex beta r.length < r.length := by unfold tailIndex; omega
  have hik1 : tailIndex beta r.length + 1 = ⌈tailSize beta r.length⌉₊ := by unfold tailIndex; omega
  have hlo : (tailIndex beta r.length : K) < tailSize beta r.length := Nat.lt_ceil.1 (by omega)
  have hhi : tailSize beta r.length ≤ (tailIndex beta r.length : K) + 1 := by
    have := Nat.le_ceil (tailSize beta r.length)
    rw [← hik1] at this
    push_cast at this
    exact this
  set i := tailIndex beta r.length with hi
  have hlen : (P.run r i).length = r.length := (P.perm r i).length_eq
  have hix : i < (P.run r i).length := by omega
  have hget : (P.run r i)[i]? = some ((P.run r i)[i]) := List.getElem?_eq_getElem hix
  have hsplit : (P.run r i).take i ++ (P.run r i)[i] :: (P.run r i).drop (i + 1) = P.run r i := by
    rw [← List.drop_eq_getElem_cons hix, List.take_append_drop]
  have htl : ((P.run r i).take i).length = i := by rw [List.length_take]; omega
  refine ⟨(P.run r i).take i, (P.run r i)[i], (P.run r i).drop (i + 1), ?_, ?_, ?_, hk, ?_, ?_, ?_, ?_⟩
  · rw [hsplit]; exact P.perm r i
  · exact P.before r i _ hget
  · exact P.after r i _ hget
  · rw [htl]; exact hlo
  · rw [htl]; exact hhi
  · unfold valueAtRisk; rw [← hi, hget]; rfl
  · unfold Measures.cvar
    simp only [← hi, hget, if_neg hk.ne', htl]

omit [FloorSemiring K] [IsStrictOrderedRing K] in
theorem ru_perm (r r' : List K) (h : r.Perm r') (beta alpha : K) : ruObjective r beta alpha = ruObjective r' beta alpha := by
  unfold ruObjective
  rw [(h.map _).sum_eq, h.length_eq]

omit [FloorSemiring K] in
theorem sum_max_nonneg (r : List K) (a : K) : 0 ≤ (r.map fun x => max 0 (-x - a)).sum := by
  apply List.sum_nonneg
  intro y hy
  obtain ⟨x, _, rfl⟩ := List.mem_map.1 hy
  exact le_max_left _ _

omit [FloorSemiring K] in
theorem sum_max_ge (p : List K) (a : K) : -p.sum - (p.length : K) * a ≤ (p.map fun x => max 0 (-x - a)).sum := by
  induction p with
  | nil => simp
  | cons x p ih =>
    simp only [List.sum_cons, List.length_cons, List.map_cons]
    have := le_max_right 0 (-x - a)
    push_cast
    linarith

omit [FloorSemiring K] in
theorem sum_max_eq (p : List K) (a : K) (h : ∀ y ∈ p, y ≤ -a) : (p.map fun x => max 0 (-x - a)).sum = -p.sum - (p.length : K) * a := by
  induction p with
  | nil => simp
  | cons x p ih =>
    simp only [List.sum_cons, List.length_cons, List.map_cons]
    have hx := h x (by simp)
    rw [ih (fun y hy => h y (by simp [hy])), max_eq_right (by linarith)]
    push_cast
    ring

omit [FloorSemiring K] in
theorem sum_max_zero (p : List K) (a : K) (h : ∀ y ∈ p, -a ≤ y) : (p.map fun x => max 0 (-x - a)).sum = 0 := by
  induction p with
  | nil => simp
  | cons x p ih =>
    have hx := h x (by simp)
    simp only [List.sum_cons, List.map_cons]
    rw [ih (fun y hy => h y (by simp [hy])), max_eq_left (by linarith), add_zero]

/-- The value of `cvar` is a lower bound of the objective, attained at the value at risk. -/
theorem ru_core {P : Partition K} {r : List K} {beta : K} {p1 : List K} {x : K} {p2 : List K} (h : TailSplit P r beta p1 x p2) :
    (∀ a, -p1.sum / tailSize beta r.length + x * ((p1.length : K) / tailSize beta r.length - 1) ≤ ruObjective r beta a) ∧
    -p1.sum / tailSize beta r.length + x * ((p1.length : K) / tailSize beta r.length - 1) = ruObjective r beta (-x) := by
  have hk := h.kpos
  set k := tailSize beta r.length with hkdef
  have hru : ∀ a, ruObjective r beta a = a + ((p1.map fun y => max 0 (-y - a)).sum + (max 0 (-x - a) + (p2.map fun y => max 0 (-y - a)).sum)) / k := by
    intro a
    unfold ruObjective
    rw [← (h.perm.map fun y => max 0 (-y - a)).sum_eq, List.map_append, List.sum_append, List.map_cons, List.sum_cons]
    rfl
  have hform : -p1.sum / k + x * ((p1.length : K) / k - 1) = (-p1.sum - (k - p1.length) * x) / k := by
    field_simp; ring
  rw [hform]
  constructor
  · intro a
    rw [hru, div_le_iff₀ hk, add_mul, div_mul_cancel₀ _ hk.ne']
    have h1 := sum_max_ge p1 a
    have h2 := sum_max_nonneg p2 a
    have h3 := le_max_left 0 (-x - a)
    have h4 := le_max_right 0 (-x - a)
    have h5 : (k - p1.length) * (-x - a) ≤ max 0 (-x - a) := by
      have h6 : (k - p1.length) * (-x - a) ≤ (k - p1.length) * max 0 (-x - a) :=
        mul_le_mul_of_nonneg_left h4 (by have := h.lo; linarith)
      have h7 : (k - p1.length) * max 0 (-x - a) ≤ 1 * max 0 (-x - a) :=
        mul_le_mul_of_nonneg_right (by have := h.hi; linarith) h3
      linarith
    nlinarith
  · rw [hru, sum_max_eq p1 (-x) (fun y hy => by simpa using h.le y hy), sum_max_zero p2 (-x) (fun y hy => by simpa using h.ge y hy)]
    have : max 0 (-x - -x) = 0 := by simp
    rw [this]
    field_simp
    ring

theorem cvar_spec (P : Partition K) (r : List K) (hr : r ≠ []) (beta : K) (h0 : 0 ≤ beta) (h1 : beta < 1) :
    ∃ v c, valueAtRisk P r beta = some v ∧ cvar P r beta = some c ∧ (∀ a, c ≤ ruObjective r beta a) ∧ c = ruObjective r beta v := by
  obtain ⟨p1, x, p2, h⟩ := tailSplit P r hr beta h0 h1
  exact ⟨-x, _, h.var, h.cvar, (ru_core h).1, (ru_core h).2⟩

end

end Skfolio.Measures
