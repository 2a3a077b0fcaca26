import Verif.Portfolio.MultiTheorems
import Verif.Measures.ConcatTheorems

/-!
C144: the measures of the multi-period portfolios that a program makes, from those of the portfolios they hold. `Verif.Measures.ConcatTheorems` has the statements on the returns, C26 says that the returns are
those of the portfolios.
-/
set_option autoImplicit false

namespace Skfolio.Portfolio.Multi

open Skfolio.Measures

variable {D K : Type} [LinearOrder D] [Field K] [LinearOrder K] [IsStrictOrderedRing K]

/-- The returns of the portfolios of a list, one list for each. -/
def returnsOf : List (Item D K) → List (List K)
  | [] => []
  | .ptf p :: rest => p.rets :: returnsOf rest
  | .other :: rest => returnsOf rest

omit [LinearOrder D] [Field K] [LinearOrder K] [IsStrictOrderedRing K] in
theorem returnsOf_ptf (ps : List (Ptf D K)) : returnsOf (ps.map .ptf) = ps.map Ptf.rets := by
  induction ps with
  | nil => rfl
  | cons p ps ih => simp [returnsOf, ih]

omit [Field K] [IsStrictOrderedRing K] in
theorem exists_least {A : Type} (g : A → K) (rs : List A) (h : rs ≠ []) : ∃ r ∈ rs, ∀ r' ∈ rs, g r ≤ g r' := by
  induction rs with
  | nil => exact absurd rfl h
  | cons r rs ih =>
    by_cases hrs : rs = []
    · subst hrs; exact ⟨r, by simp, by simp⟩
    · obtain ⟨r0, hr0, hmin⟩ := ih hrs
      rcases le_total (g r) (g r0) with hle | hle
      · refine ⟨r, by simp, fun r' hr' => ?_⟩
        rcases List.mem_cons.1 hr' with rfl | hr'
        · exact le_rfl
        · exact hle.trans (hmin r' hr')
      · refine ⟨r0, by simp [hr0], fun r' hr' => ?_⟩
        rcases List.mem_cons.1 hr' with rfl | hr'
        · exact hle
        · exact hmin r' hr'

/-- **C144.** After any history of operations in which no list is shared: the mean of every multi-period portfolio is the average of the means of the portfolios it then holds, its worst realization and its VaR are within theirs, its CVaR
is at least the average of theirs and its maximum drawdown at least each of theirs. -/
theorem C144_history [FloorSemiring K] (P : Partition K) (beta : K) (h0 : 0 ≤ beta) (h1 : beta < 1) (ops : List (Op D K)) (hops : ∀ op ∈ ops, op.Private) (o : Mpp D K) (ho : o ∈ (run ops).objs)
    (hsome : (run ops).items o ≠ []) (hfull : ∀ r ∈ returnsOf ((run ops).items o), r ≠ []) :
    mean o.rets = periodAverage mean (returnsOf ((run ops).items o)) ∧
    (∃ w, worstRealization o.rets = some w ∧ ∃ r ∈ returnsOf ((run ops).items o), worstRealization r = some w) ∧
    (∃ v, valueAtRisk P o.rets beta = some v ∧ (∃ r ∈ returnsOf ((run ops).items o), ∃ x, valueAtRisk P r beta = some x ∧ x ≤ v) ∧
      ∃ r ∈ returnsOf ((run ops).items o), ∃ x, valueAtRisk P r beta = some x ∧ v ≤ x) ∧
    (∃ c, cvar P o.rets beta = some c ∧ periodAverage (fun r => (cvar P r beta).getD 0) (returnsOf ((run ops).items o)) ≤ c) ∧
    ∀ r ∈ returnsOf ((run ops).items o), ∀ m, maxDrawdown P (drawdowns r false) = some m → ∃ m', maxDrawdown P (drawdowns o.rets false) = some m' ∧ m ≤ m' := by
  obtain ⟨ps, hps, -, hrets⟩ := C26_concatenation_partial ops hops o ho
  rw [hps, returnsOf_ptf] at hfull ⊢
  rw [hps] at hsome
  generalize hrs : ps.map Ptf.rets = rs at hfull ⊢
  have hflat : o.rets = rs.flatten := by rw [hrets, ← hrs, List.flatMap_def]
  have hne : rs ≠ [] := by
    rw [← hrs]
    intro h
    exact hsome (by rw [List.map_eq_nil_iff.1 h]; rfl)
  rw [hflat]
  have hfl : rs.flatten ≠ [] := by
    have := flatten_length_pos rs hne hfull
    intro h
    rw [h] at this
    simp at this
  obtain ⟨⟨v, hv⟩, ⟨c, hc⟩, -⟩ := C12_defined P _ hfl beta h0 h1
  obtain ⟨w, hw, hwr, -⟩ := C144_worst rs hne hfull
  have hvar : ∀ r ∈ rs, ∃ x, valueAtRisk P r beta = some x := fun r hr => (C12_defined P r (hfull r hr) beta h0 h1).1
  obtain ⟨r0, hr0, hmin⟩ := exists_least (fun r => (valueAtRisk P r beta).getD 0) rs hne
  obtain ⟨r1, hr1, hmax⟩ := exists_least (fun r => -(valueAtRisk P r beta).getD 0) rs hne
  obtain ⟨x0, hx0⟩ := hvar r0 hr0
  obtain ⟨x1, hx1⟩ := hvar r1 hr1
  have hbound := C144_var P rs hne hfull beta h0 h1 x0 x1 v (by
      intro r hr x hx
      have := hmin r hr
      rw [hx0, hx] at this
      exact this) (by
      intro r hr x hx
      have := hmax r hr
      rw [hx1, hx] at this
      exact neg_le_neg_iff.1 this) hv
  refine ⟨(C144_averages 0).1 rs hfull, ⟨w, hw, hwr⟩, ⟨v, hv, ?_, ?_⟩, ⟨c, hc, C144_cvar P rs hne hfull beta h0 h1 c hc⟩, ?_⟩
  · exact ⟨r0, hr0, x0, hx0, hbound.1⟩
  · exact ⟨r1, hr1, x1, hx1, hbound.2⟩
  · intro r hr m hm
    have hd : drawdowns rs.flatten false ≠ [] := by
      intro h
      have := length_drawdowns rs.flatten false
      rw [h] at this
      exact hfl (List.length_eq_zero_iff.1 this.symm)
    obtain ⟨⟨m', hm', -⟩, -⟩ := C14_max_and_average P _ hd
    exact ⟨m', hm', C144_max_drawdown P rs false (by simp) r hr m m' hm hm'⟩

/-- A history with two portfolios and one more appended: the object holds three portfolios with returns, and the numbers of the theorem. -/
example : let p : ℕ → ℚ → ℚ → Item ℕ ℚ := fun d x y => .ptf ⟨[d, d + 1], [x, y], rfl⟩
    let ops : List (Op ℕ ℚ) := [.construct (.fresh [p 0 1 3, p 2 2 (-1)]) true, .append 0 (p 4 0 4)]
    (run ops).objs.map (fun o => (o.rets, returnsOf ((run ops).items o), mean o.rets, periodAverage mean (returnsOf ((run ops).items o)))) =
      [([1, 3, 2, -1, 0, 4], [[1, 3], [2, -1], [0, 4]], 3 / 2, 3 / 2)] := by decide +kernel

end Skfolio.Portfolio.Multi
