import Verif.Display.Theorems

/-!
C145: `measures_df`, the table of "all measures" of a portfolio, and the summary of C104.
-/
set_option autoImplicit false

namespace Skfolio.Display

open Skfolio.Portfolio

/-! ### Model -/

/-- `idx` of `BasePortfolio.measures_df`, `src/skfolio/portfolio/_base.py` L703: the measures of three of the four enumerations. -/
def tableMeasures : List Measure := allPerf.map (.base ∘ .perf) ++ allRisk.map (.base ∘ .risk) ++ allRatio.map .ratio

/-- `BasePortfolio.measures_df`, L700-705: the label of each row and its entry in the only column. -/
def measuresDf (p : Ptf) : List (String × Num) := tableMeasures.map fun e => (measureValue e, p.measure (measureValue e))

/-! ### Claims -/

theorem values_nodup : (measures.map measureValue).Nodup := by decide +kernel

theorem measureValue_injective {e e' : Measure} (h : measureValue e = measureValue e') : e = e' :=
  List.inj_on_of_nodup_map values_nodup (measures_complete e) (measures_complete e') h

theorem mem_tableMeasures (e : Measure) : e ∈ tableMeasures ↔ ∀ x, e ≠ .base (.extra x) := by
  rcases e with (p | r | x) | r
  · cases p <;> simp [tableMeasures, allPerf]
  · cases r <;> simp [tableMeasures, allRisk]
  · simp [tableMeasures]
  · cases r <;> simp [tableMeasures, allRatio]

/-- **C145** (partial: all measures but the extra risk measures, see `C145_extra_missing`). `measures_df` has one row for each performance measure, risk measure and ratio, under its own label, and the row holds that measure; it has no other rows. -/
theorem C145_rows_partial (p : Ptf) : ((measuresDf p).map Prod.fst).Nodup ∧
    ∀ k x, (k, x) ∈ measuresDf p ↔ ∃ e : Measure, (∀ i, e ≠ .base (.extra i)) ∧ k = measureValue e ∧ x = p.measure (measureValue e) := by
  constructor
  · unfold measuresDf
    rw [List.map_map]
    refine List.Nodup.map (f := fun e => measureValue e) (fun _ _ h => measureValue_injective h) (by decide)
  · intro k x
    unfold measuresDf
    rw [List.mem_map]
    constructor
    · rintro ⟨e, he, h⟩
      cases h
      exact ⟨e, (mem_tableMeasures e).1 he, rfl, rfl⟩
    · rintro ⟨e, he, rfl, rfl⟩
      exact ⟨e, (mem_tableMeasures e).2 he, rfl⟩

/-- **C145.** Where both have a row for a measure, `measures_df` and the unformatted summary hold the same number. -/
theorem C145_agrees (p : Ptf) (e : Measure) (x y : Num) (d : List (Word × Cell)) (hd : summary p false = .ok d) (hx : (measureValue e, x) ∈ measuresDf p)
    (hy : (key p e, Cell.raw y) ∈ d) : x = y := by
  obtain ⟨e', -, hk, rfl⟩ := (C145_rows_partial p).2 _ _ |>.1 hx
  have he := measureValue_injective hk
  subst he
  obtain ⟨hnd, -, hall⟩ := C104_rows p d hd
  have h1 := hall e
  have huniq : ∀ (l : List (Word × Cell)), (l.map Prod.fst).Nodup → ∀ k a b, (k, a) ∈ l → (k, b) ∈ l → a = b := by
    intro l hl k a b ha hb
    have := List.inj_on_of_nodup_map hl ha hb rfl
    exact (Prod.ext_iff.1 this).2
  have := huniq d hnd _ _ _ h1 hy
  injection this

/-- **C145** (negated): the table of all measures lacks the seven extra risk measures, which the summary shows, though ratios that divide by three of them are in the table. -/
theorem C145_extra_missing (p : Ptf) : (∀ i : Extra, ∀ x, (baseValue (.extra i), x) ∉ measuresDf p) ∧ (measuresDf p).length + allExtra.length = measures.length ∧
    (∀ d, summary p false = .ok d → ∀ i : Extra, (key p (.base (.extra i)), Cell.raw (p.measure (baseValue (.extra i)))) ∈ d) ∧
    ∀ r : Ratio, ∃ x, (ratioValue r, x) ∈ measuresDf p := by
  refine ⟨?_, ?_, ?_, ?_⟩
  · intro i x h
    obtain ⟨e, he, hk, -⟩ := ((C145_rows_partial p).2 _ _).1 h
    exact he i (measureValue_injective (e' := .base (.extra i)) hk.symm)
  · unfold measuresDf
    rw [List.length_map]
    rfl
  · intro d hd i
    exact (C104_rows p d hd).2.2 (.base (.extra i))
  · intro r
    exact ⟨_, ((C145_rows_partial p).2 _ _).2 ⟨.ratio r, by simp, rfl, rfl⟩⟩

/-- The table has 39 rows, the summary 46. -/
example (p : Ptf) : (measuresDf p).length = 39 ∧ ("cvar", p.measure "cvar") ∈ measuresDf p ∧ ("value_at_risk_ratio", p.measure "value_at_risk_ratio") ∈ measuresDf p :=
  ⟨by unfold measuresDf; rw [List.length_map]; rfl, ((C145_rows_partial p).2 _ _).2 ⟨.base (.risk .cvar), by simp, rfl, rfl⟩,
    ((C145_rows_partial p).2 _ _).2 ⟨.ratio .valueAtRisk, by simp, rfl, rfl⟩⟩

end Skfolio.Display
