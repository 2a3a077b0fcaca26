import Verif.Portfolio.ScorerModel
import Verif.Sorting.Theorems
import Mathlib.Algebra.Order.Ring.Int
import Mathlib.Data.List.GetD

/-!
# Fitness, comparison of portfolios and scorers: the claims
-/

set_option autoImplicit false

namespace Skfolio.Portfolio.Score

open Skfolio.Portfolio

variable {K : Type} [Ring K] [LinearOrder K] [IsStrictOrderedRing K]

/-! ### Specification -/

/-- The measures for which a smaller value is preferred, listed by hand from the documentation of `make_scorer` ("False for
`RiskMeasure` and `ExtraRiskMeasure`"). -/
def lowerIsBetter : Measure → Prop
  | .base (.perf _) => False
  | .base (.risk _) => True
  | .base (.extra _) => True
  | .ratio _ => False

/-- Value `a` is strictly better than `b` for the measure. -/
def Better (m : Measure) (a b : K) : Prop := (lowerIsBetter m ∧ a < b) ∨ (¬ lowerIsBetter m ∧ b < a)

/-- `p` is at least as good as `q` on every measure of the list and better on one. -/
def Beats (p q : Ptf K) (ms : List Measure) : Prop :=
  (∀ m ∈ ms, ¬ Better m (q.value m) (p.value m)) ∧ ∃ m ∈ ms, Better m (p.value m) (q.value m)

/-! ### Proofs -/

/-- The fitness entry of a measure. -/
def entry (p : Ptf K) (m : Measure) : K := (if m.isPerf || m.isRatio then 1 else -1) * p.value m

theorem entry_lt (p q : Ptf K) (m : Measure) : entry q m < entry p m ↔ Better m (p.value m) (q.value m) := by
  unfold entry Better
  match m with
  | .base (.perf _) => simp [Measure.isPerf, lowerIsBetter]
  | .base (.risk _) => simp [Measure.isPerf, Measure.isRatio, lowerIsBetter]
  | .base (.extra _) => simp [Measure.isPerf, Measure.isRatio, lowerIsBetter]
  | .ratio _ => simp [Measure.isPerf, Measure.isRatio, lowerIsBetter]

theorem dominate_entries (p q : Ptf K) (ms : List Measure) :
    (Sorting.dominate (ms.map (entry p)) (ms.map (entry q)) = .ok true ↔ Beats p q ms) ∧
    (Sorting.dominate (ms.map (entry p)) (ms.map (entry q)) = .ok false ↔ ¬ Beats p q ms) := by
  have key := Sorting.C01_dominate_iff (ms.map (entry p)) (ms.map (entry q)) (by simp)
  have : Sorting.Dominates (ms.map (entry p)) (ms.map (entry q)) ↔ Beats p q ms := by
    unfold Sorting.Dominates Beats
    constructor
    · rintro ⟨h1, i, hf, hg, h2⟩
      constructor
      · intro m hm hb
        obtain ⟨j, hj, rfl⟩ := List.getElem_of_mem hm
        have := h1 j (by simpa using hj) (by simpa using hj)
        simp only [List.getElem_map] at this
        exact absurd ((entry_lt q p _).mpr hb) (not_lt.mpr this)
      · simp only [List.getElem_map] at h2
        exact ⟨_, List.getElem_mem _, (entry_lt p q _).mp h2⟩
    · rintro ⟨h1, m, hm, h2⟩
      constructor
      · intro i hf hg
        simp only [List.getElem_map]
        exact not_lt.mp fun h => h1 _ (List.getElem_mem _) ((entry_lt q p _).mp h)
      · obtain ⟨j, hj, rfl⟩ := List.getElem_of_mem hm
        exact ⟨j, by simpa using hj, by simpa using hj, by simpa using (entry_lt p q _).mpr h2⟩
  rw [← this]
  exact key

/-- C41: between portfolios with the same fitness measures `dominates` answers whether the portfolio is at least as good on
each of the fitness measures and better on one; with `idx`, on each of the selected ones. -/
theorem C41_dominates (p q : Ptf K) (h : p.fitnessMeasures = q.fitnessMeasures) :
    ((dominates p q none = .ok true ↔ Beats p q p.fitnessMeasures) ∧
      (dominates p q none = .ok false ↔ ¬ Beats p q p.fitnessMeasures)) ∧
    ∀ (idx : List ℕ) (ms : List Measure), idx.map (p.fitnessMeasures[·]?) = ms.map some →
      (dominates p q (some idx) = .ok true ↔ Beats p q ms) ∧ (dominates p q (some idx) = .ok false ↔ ¬ Beats p q ms) := by
  constructor
  · have := dominate_entries p q p.fitnessMeasures
    unfold dominates select fitness
    rw [← h]
    exact this
  · intro idx ms hms
    have hsel : ∀ r : Ptf K, r.fitnessMeasures = p.fitnessMeasures → select (fitness r) (some idx) = ms.map (entry r) := by
      intro r hr
      unfold select fitness
      rw [hr]
      clear hr
      induction idx generalizing ms with
      | nil => cases ms with
        | nil => rfl
        | cons => simp at hms
      | cons i idx ih => cases ms with
        | nil => simp at hms
        | cons m ms =>
          simp only [List.map_cons, List.cons.injEq] at hms ⊢
          refine ⟨?_, ih ms hms.2⟩
          rw [List.getD_eq_getElem?_getD, List.getElem?_map, hms.1]
          rfl
    unfold dominates
    rw [hsel p rfl, hsel q h.symm]
    exact dominate_entries p q ms

/-- C41: `==` means equal on every fitness measure, `>` is dominance, and `>=` means at least as good on every fitness measure. -/
theorem C41_comparison (p q : Ptf K) (h : p.fitnessMeasures = q.fitnessMeasures) :
    (eq p q = true ↔ ∀ m ∈ p.fitnessMeasures, p.value m = q.value m) ∧
    (gt p q = .ok true ↔ Beats p q p.fitnessMeasures) ∧
    (∃ b, ge p q = .ok b ∧ (b = true ↔ ∀ m ∈ p.fitnessMeasures, ¬ Better m (q.value m) (p.value m))) := by
  have hent : ∀ m, (entry p m = entry q m ↔ p.value m = q.value m) := by
    intro m
    unfold entry
    split <;> simp
  have heq : eq p q = true ↔ ∀ m ∈ p.fitnessMeasures, p.value m = q.value m := by
    unfold eq fitness
    rw [decide_eq_true_eq, ← h]
    change p.fitnessMeasures.map (entry p) = p.fitnessMeasures.map (entry q) ↔ _
    rw [List.map_inj_left]
    exact forall₂_congr fun m _ => hent m
  have hdom := (C41_dominates p q h).1
  refine ⟨heq, hdom.1, ?_⟩
  unfold ge
  by_cases he : eq p q = true
  · rw [if_pos he]
    refine ⟨true, rfl, fun _ m hm hb => ?_, fun _ => rfl⟩
    rw [heq.mp he m hm] at hb
    unfold Better at hb
    rcases hb with ⟨-, hb⟩ | ⟨-, hb⟩ <;> exact lt_irrefl _ hb
  · rw [if_neg he]
    have hne : ∃ m ∈ p.fitnessMeasures, p.value m ≠ q.value m := by
      by_contra hcon
      push Not at hcon
      exact he (heq.mpr hcon)
    have hgood : ∀ m, ¬ Better m (q.value m) (p.value m) → p.value m ≠ q.value m → Better m (p.value m) (q.value m) := by
      intro m h1 h2
      rw [← entry_lt]
      rw [← entry_lt] at h1
      exact lt_of_le_of_ne (not_lt.mp h1) fun h' => h2 ((hent m).mp h'.symm)
    by_cases hb : Beats p q p.fitnessMeasures
    · exact ⟨true, hdom.1.mpr hb, by simpa using hb.1⟩
    · refine ⟨false, hdom.2.mpr hb, ?_⟩
      simp only [Bool.false_eq_true, false_iff]
      intro hall
      obtain ⟨m, hm, h2⟩ := hne
      exact hb ⟨hall, m, hm, hgood m (hall m hm) h2⟩

/-- C41: the default scorer of a measure ranks portfolios by that measure, better ones higher; its value is the measure or its
negation.  `greater_is_better` overrides the direction, a function is a score unless stated otherwise, and anything
else is rejected. -/
theorem C41_scorer (m : Measure) (f : Ptf K → K) :
    (∃ s, makeScorer (.measure m : ScoreFunc K) none = .ok s ∧
      (∀ p q, s q < s p ↔ Better m (p.value m) (q.value m)) ∧
      (∀ p, s p = if m.isRisk then - p.value m else p.value m)) ∧
    (∀ b, ∃ s, makeScorer (.measure m : ScoreFunc K) (some b) = .ok s ∧
      ∀ p, s p = if b then p.value m else - p.value m) ∧
    (∃ s, makeScorer (.function f) none = .ok s ∧ ∀ p, s p = f p) ∧
    (∀ b, ∃ s, makeScorer (.function f) (some b) = .ok s ∧ ∀ p, s p = if b then f p else - f p) ∧
    (∀ b, makeScorer (.other : ScoreFunc K) b = .error .typeError) := by
  refine ⟨⟨_, rfl, fun p q => ?_, fun p => ?_⟩, fun b => ⟨_, rfl, fun p => ?_⟩, ⟨_, rfl, fun p => ?_⟩,
    fun b => ⟨_, rfl, fun p => ?_⟩, fun b => rfl⟩
  · rw [← entry_lt]
    unfold entry
    simp
  · match m with
    | .base (.perf _) => simp [Measure.isPerf, Measure.isRisk]
    | .base (.risk _) => simp [Measure.isPerf, Measure.isRatio, Measure.isRisk]
    | .base (.extra _) => simp [Measure.isPerf, Measure.isRatio, Measure.isRisk]
    | .ratio _ => simp [Measure.isPerf, Measure.isRatio, Measure.isRisk]
  · cases b <;> simp
  · simp
  · cases b <;> simp

/-- The risk measure each ratio divides by, written down from the documentation of `RatioMeasure`
(`measures/_enums.py` L252-289) and independently of `linked_risk_measure`. -/
def denominators : List (Ratio × Base) :=
  [(.sharpe, .risk .standardDeviation), (.annualizedSharpe, .risk .annualizedStandardDeviation),
   (.sortino, .risk .semiDeviation), (.annualizedSortino, .risk .annualizedSemiDeviation),
   (.meanAbsoluteDeviation, .risk .meanAbsoluteDeviation), (.firstLowerPartialMoment, .risk .firstLowerPartialMoment),
   (.valueAtRisk, .extra .valueAtRisk), (.cvar, .risk .cvar), (.entropicRiskMeasure, .extra .entropicRiskMeasure),
   (.evar, .risk .evar), (.worstRealization, .risk .worstRealization), (.drawdownAtRisk, .extra .drawdownAtRisk),
   (.cdar, .risk .cdar), (.calmar, .risk .maxDrawdown), (.averageDrawdown, .risk .averageDrawdown),
   (.edar, .risk .edar), (.ulcerIndex, .risk .ulcerIndex), (.giniMeanDifference, .risk .giniMeanDifference)]

/-- C41: every ratio measure is linked to the risk measure its documentation names, and every denominator is a measure for which
lower is better. -/
theorem C41_ratio_denominators (r : Ratio) :
    (r, r.linked) ∈ denominators ∧ lowerIsBetter (.base r.linked) := by
  cases r <;> exact ⟨by decide, trivial⟩

/-! ### Instances -/

/-- Two portfolios compared on mean and variance. -/
def steady : Ptf ℤ := ⟨fun m => if m = .base (.perf .mean) then 2 else 3, [.base (.perf .mean), .base (.risk .variance)]⟩
@[inherit_doc steady]
def risky : Ptf ℤ := ⟨fun m => if m = .base (.perf .mean) then 2 else 5, [.base (.perf .mean), .base (.risk .variance)]⟩

example : gt steady risky = .ok true ∧ gt risky steady = .ok false ∧ ge steady steady = .ok true := by decide
example : dominates steady risky (some [0]) = .ok false ∧ dominates steady risky (some [1]) = .ok true := by decide

/-- C41, finding: skewness counts as a risk measure, so the default scorer prefers the portfolio with the more negative skew. -/
theorem C41_skew_is_penalised : ∃ s, makeScorer (.measure (.base (.extra .skew)) : ScoreFunc ℤ) none = .ok s ∧
    ∀ p q : Ptf ℤ, p.value (.base (.extra .skew)) < q.value (.base (.extra .skew)) → s q < s p := by
  obtain ⟨s, hs, h, -⟩ := (C41_scorer (K := ℤ) (.base (.extra .skew)) (fun _ => 0)).1
  exact ⟨s, hs, fun p q hpq => (h p q).mpr (.inl ⟨trivial, hpq⟩)⟩

end Skfolio.Portfolio.Score
