import Verif.Preprocessing.Theorems

/-!
**C33**: the columns that `prices_to_returns` returns, and how they are split between `X` and `y`.
-/
set_option autoImplicit false

namespace Skfolio.Preprocessing

section
variable {ι K : Type} [DecidableEq ι] [Field K] [LinearOrder K] {c : Nat}

theorem split_increasing : ∀ (L : List (Fin c)) (nX : Nat), L.Pairwise (· < ·) → (L.filter fun a => decide (a.val < nX)) ++ (L.filter fun a => !decide (a.val < nX)) = L
  | [], _, _ => rfl
  | a :: L, nX, h => by
    obtain ⟨h1, h2⟩ := List.pairwise_cons.1 h
    by_cases ha : a.val < nX
    · rw [List.filter_cons_of_pos (by simpa using ha), List.filter_cons_of_neg (by simpa using ha), List.cons_append, split_increasing L nX h2]
    · have hn : ∀ b ∈ L, ¬ b.val < nX := fun b hb hlt => ha (lt_trans (h1 b hb) hlt)
      have e1 : L.filter (fun b => decide (b.val < nX)) = [] := List.filter_eq_nil_iff.2 fun b hb => by simpa using hn b hb
      have e2 : L.filter (fun b => !decide (b.val < nX)) = L := List.filter_eq_self.2 fun b hb => by simpa using hn b hb
      rw [List.filter_cons_of_neg (by simpa using ha), List.filter_cons_of_pos (by simpa using ha), e1, e2, List.nil_append]

theorem keptColumns_increasing (rows : List (Row ι K c)) : (keptColumns rows).Pairwise (· < ·) := List.Pairwise.filter _ (List.pairwise_lt_finRange c)

/-- **C33.** Whatever the prices and the parameters: the columns of the two frames returned are, side by side, the columns kept, in their order; those of the first are columns of `X` and those of the second are columns of `y`. -/
theorem C33_split (nX : Nat) (thr : Option K) (b1 b2 : Bool) (g : K → K) (rows : List (Row ι K c)) (r : Returns ι K c) (h : pricesToReturns nX thr b1 b2 g rows = .ok r) :
    (splitColumns nX r).1 ++ (splitColumns nX r).2 = r.columns ∧ r.columns.Pairwise (· < ·) ∧ (∀ a ∈ (splitColumns nX r).1, a.val < nX) ∧ ∀ a ∈ (splitColumns nX r).2, nX ≤ a.val := by
  unfold pricesToReturns at h
  split at h
  · cases h
  · cases h
    refine ⟨split_increasing _ nX (keptColumns_increasing _), keptColumns_increasing _, fun a ha => ?_, fun a ha => ?_⟩
    · simpa using (List.mem_filter.1 ha).2
    · simpa using (List.mem_filter.1 ha).2

theorem ffillFrom_any : ∀ (rows : List (Row ι K c)) (prev : Fin c → Option K) (a : Fin c), (∃ r ∈ ffillFrom prev rows, (r.2 a).isSome) ↔ (rows ≠ [] ∧ (prev a).isSome) ∨ ∃ r ∈ rows, (r.2 a).isSome
  | [], _, _ => by simp [ffillFrom]
  | r :: rs, prev, a => by
    simp only [ffillFrom, List.mem_cons, exists_eq_or_imp, ffillFrom_any rs]
    cases h1 : r.2 a <;> cases h2 : prev a <;> simp

/-- **C33.** With `drop_inceptions_nan=False` and no threshold a column is returned exactly if it has a price somewhere, whether or not prices are filled. -/
theorem C33_columns_kept (nX : Nat) (fill : Bool) (g : K → K) (rows : List (Row ι K c)) :
    ∃ r, pricesToReturns nX none false fill g rows = .ok r ∧ ∀ a, a ∈ r.columns ↔ ∃ row ∈ rows, (row.2 a).isSome := by
  refine ⟨_, rfl, fun a => ?_⟩
  have hd : ∀ l : List (Row ι K c), (∃ row ∈ dropRows false l, (row.2 a).isSome) ↔ ∃ row ∈ l, (row.2 a).isSome := by
    intro l
    constructor
    · rintro ⟨row, h1, h2⟩
      exact ⟨row, (List.mem_filter.1 h1).1, h2⟩
    · rintro ⟨row, h1, h2⟩
      exact ⟨row, List.mem_filter.2 ⟨h1, by simpa using ⟨a, h2⟩⟩, h2⟩
  have hk : ∀ l : List (Row ι K c), a ∈ keptColumns l ↔ ∃ row ∈ l, (row.2 a).isSome := by
    intro l
    simp [keptColumns, List.mem_filter]
  change a ∈ keptColumns (dropRows false (if fill then ffill rows else rows)) ↔ _
  rw [hk, hd]
  cases fill
  · exact Iff.rfl
  · simp only [if_true, ffill, ffillFrom_any]
    simp

/-- **C33.** With `drop_inceptions_nan=True` no column is lost if any return is returned. -/
theorem C33_no_column_lost (nX : Nat) (thr : Option K) (fill : Bool) (g : K → K) (rows : List (Row ι K c)) (r : Returns ι K c) (h : pricesToReturns nX thr true fill g rows = .ok r) (hr : r.rows ≠ []) :
    r.columns = List.finRange c := by
  unfold pricesToReturns at h
  split at h
  · cases h
  · rename_i kept hk
    cases h
    refine keptColumns_complete _ (fun he => hr ?_) fun row hrow a => ?_
    · simp only [he]
      rfl
    · have := (List.mem_filter.1 hrow).2
      simp only [if_true, decide_eq_true_eq] at this
      exact this a

/-- Three columns of which the second has no price; the first is that of `X`. -/
example : ∃ r, pricesToReturns 1 none false true (fun x => x) [(0, ![some (1 : ℚ), none, some 2]), (1, ![some 2, none, some 3])] = .ok r ∧ splitColumns 1 r = ([0], [2]) := ⟨_, rfl, by decide⟩

example : ∃ r, pricesToReturns 1 none true true (fun x => x) [(0, ![some (1 : ℚ), some 2]), (1, ![some 2, some 3])] = .ok r ∧ r.rows ≠ [] ∧ splitColumns 1 r = ([0], [1]) := ⟨_, rfl, List.cons_ne_nil _ _, by decide⟩

end

end Skfolio.Preprocessing
