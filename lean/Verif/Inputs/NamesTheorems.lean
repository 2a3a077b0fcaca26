import Verif.Inputs.NamesModel
import Verif.Inputs.Theorems

/-! **C123.** Names of assets and of annualised measures. -/
set_option autoImplicit false

namespace Skfolio.Inputs

open Skfolio.Equations (Word)

/-- **C123.** Default names: one per asset, the position in the name, no two the same. -/
theorem C123_default_names (n : Nat) : (defaultAssetNames n).length = n ∧ (∀ i (h : i < (defaultAssetNames n).length), (defaultAssetNames n)[i] = 'x' :: Nat.toDigits 10 i) ∧ (defaultAssetNames n).Nodup := by
  refine ⟨by simp [defaultAssetNames], fun i h => by simp [defaultAssetNames], ?_⟩
  refine List.Nodup.map ?_ List.nodup_range
  intro i j h
  exact (suffixed_inj [] [] i j (by
    have : Nat.toDigits 10 i = Nat.toDigits 10 j := by simpa using h
    simp [suffixed, this])).2

/-- The distinct types of the columns. -/
theorem types_length {columns : List Label} {t : PyType} (h : ∀ c ∈ columns, c.type = t) (hne : columns ≠ []) : (columns.map Label.type).dedup = [t] := by
  have hmem : ∀ x, x ∈ (columns.map Label.type).dedup ↔ x = t := by
    intro x
    rw [List.mem_dedup, List.mem_map]
    constructor
    · rintro ⟨c, hc, rfl⟩
      exact h c hc
    · rintro rfl
      obtain ⟨c, hc⟩ := List.exists_mem_of_ne_nil _ hne
      exact ⟨c, hc, h c hc⟩
  have hnd := List.nodup_dedup (columns.map Label.type)
  generalize (columns.map Label.type).dedup = l at hmem hnd
  match l, hmem, hnd with
  | [], hmem, _ => exact absurd ((hmem t).2 rfl) (by simp)
  | [x], hmem, _ => rw [(hmem x).1 (by simp)]
  | x :: y :: l, hmem, hnd =>
    have h1 := (hmem x).1 (by simp)
    have h2 := (hmem y).1 (by simp)
    subst h1
    subst h2
    simp at hnd

theorem types_many {columns : List Label} {c d : Label} (hc : c ∈ columns) (hd : d ∈ columns) (h : c.type ≠ d.type) : 1 < (columns.map Label.type).dedup.length := by
  have h1 : c.type ∈ (columns.map Label.type).dedup := List.mem_dedup.2 (List.mem_map.2 ⟨c, hc, rfl⟩)
  have h2 : d.type ∈ (columns.map Label.type).dedup := List.mem_dedup.2 (List.mem_map.2 ⟨d, hd, rfl⟩)
  generalize (columns.map Label.type).dedup = l at h1 h2
  match l with
  | [] => simp at h1
  | [x] =>
    simp only [List.mem_singleton] at h1 h2
    exact absurd (h1.trans h2.symm) h
  | x :: y :: l => simp

/-- **C123.** Feature names are the labels of the columns, in their order, if they are all strings; labels that are strings and others together are a `TypeError`; without strings, without columns and for everything that is no
frame there are no names. (The types of labels are told apart; no type other than `str` has its name.) -/
theorem C123_feature_names (columns : List Label) (hq : ∀ c ∈ columns, c.type.qualname = "str" → c.type = pyStr) :
    (getFeatureNames (.frame columns) = .ok (some columns) ↔ columns ≠ [] ∧ ∀ c ∈ columns, c.type = pyStr) ∧
    (getFeatureNames (.frame columns) = .error () ↔ (∃ c ∈ columns, c.type = pyStr) ∧ ∃ d ∈ columns, d.type ≠ pyStr) ∧
    (getFeatureNames (.frame columns) = .ok none ↔ ∀ c ∈ columns, c.type ≠ pyStr) ∧ getFeatureNames .other = .ok none := by
  by_cases hne : columns = []
  · subst hne
    simp [getFeatureNames]
  have hlen : columns.length ≠ 0 := by simpa using hne
  obtain ⟨c₀, hc₀⟩ := List.exists_mem_of_ne_nil _ hne
  by_cases hall : ∀ c ∈ columns, c.type = pyStr
  · have e : getFeatureNames (.frame columns) = .ok (some columns) := by
      simp [getFeatureNames, hne, types_length hall hne, pyStr]
    rw [e]
    refine ⟨⟨fun _ => ⟨hne, hall⟩, fun _ => rfl⟩, ?_, ?_, rfl⟩
    · simp only [reduceCtorEq, false_iff]
      rintro ⟨-, d, hd, h⟩
      exact h (hall d hd)
    · simp only [Except.ok.injEq, reduceCtorEq, false_iff]
      exact fun h => h c₀ hc₀ (hall c₀ hc₀)
  · push Not at hall
    obtain ⟨d, hd, hdn⟩ := hall
    by_cases hex : ∃ c ∈ columns, c.type = pyStr
    · obtain ⟨c, hc, hcs⟩ := hex
      have hmem : "str" ∈ ((columns.map Label.type).dedup).map PyType.qualname :=
        List.mem_map.2 ⟨pyStr, List.mem_dedup.2 (List.mem_map.2 ⟨c, hc, hcs⟩), rfl⟩
      have e : getFeatureNames (.frame columns) = .error () := by
        have hlt := types_many hc hd (by rw [hcs]; exact hdn.symm)
        simp only [getFeatureNames]
        rw [if_neg hlen]
        exact if_pos ⟨by simpa using hlt, hmem⟩
      rw [e]
      refine ⟨?_, ?_, ?_, rfl⟩
      · simp only [reduceCtorEq, false_iff]
        exact fun h => hdn (h.2 d hd)
      · simp only [true_iff]
        exact ⟨⟨c, hc, hcs⟩, d, hd, hdn⟩
      · simp only [reduceCtorEq, false_iff]
        exact fun h => h c hc hcs
    · have hnm : "str" ∉ ((columns.map Label.type).dedup).map PyType.qualname := by
        intro hm
        obtain ⟨t, ht, e⟩ := List.mem_map.1 hm
        obtain ⟨c, hc, rfl⟩ := List.mem_map.1 (List.mem_dedup.1 ht)
        exact hex ⟨c, hc, hq c hc e⟩
      have e : getFeatureNames (.frame columns) = .ok none := by
        simp only [getFeatureNames]
        rw [if_neg hlen, if_neg (fun h => hnm h.2), if_neg (fun h => hnm (by rw [h]; simp))]
      rw [e]
      refine ⟨?_, ?_, ?_, rfl⟩
      · simp only [Except.ok.injEq, reduceCtorEq, false_iff]
        exact fun h => hdn (h.2 d hd)
      · simp only [reduceCtorEq, false_iff]
        exact fun h => hex h.1
      · simp only [true_iff]
        exact fun c hc h => hex ⟨c, hc, h⟩

/-- **C123.** In any enumeration: the annualised version of a measure is an annualised member, whose non-annualised version is the measure; an annualised measure has no annualised version, another one no
non-annualised version. -/
theorem C123_annualized (members : List Word) (name : Word) (hm : name ∈ members) :
    (∀ x, annualizedMeasure members name = .ok x → x ∈ members ∧ isAnnualized x = true ∧ isAnnualized name = false ∧ nonAnnualizedMeasure members x = .ok name) ∧
    (isAnnualized name = true → annualizedMeasure members name = .error .valueError) ∧ (isAnnualized name = false → nonAnnualizedMeasure members name = .error .valueError) := by
  refine ⟨fun x hx => ?_, fun h => by simp [annualizedMeasure, h], fun h => by simp [nonAnnualizedMeasure, h]⟩
  unfold annualizedMeasure at hx
  split at hx
  · cases hx
  · rename_i hna
    split at hx
    · rename_i hmem
      cases hx
      have h1 : isAnnualized ("ANNUALIZED_".toList ++ name) = true := by simp [isAnnualized]
      have h2 : ("ANNUALIZED_".toList ++ name).drop 11 = name := by simp
      refine ⟨hmem, h1, by simpa using hna, ?_⟩
      unfold nonAnnualizedMeasure
      rw [if_pos h1, h2, if_pos hm]
    · cases hx

/-- **C123.** Every annualised measure of the library has a non-annualised one, of which it is the annualised version (the enumerations are finite: all members are looked at). -/
theorem C123_annualized_members (members : List Word) (h : members = perfMembers ∨ members = riskMembers ∨ members = ratioMembers) (name : Word) (hm : name ∈ members) (ha : isAnnualized name = true) :
    ∃ x ∈ members, nonAnnualizedMeasure members name = .ok x ∧ annualizedMeasure members x = .ok name := by
  have key : ∀ m ∈ [perfMembers, riskMembers, ratioMembers], ∀ y ∈ m, isAnnualized y = true → ∃ x ∈ m, nonAnnualizedMeasure m y = .ok x ∧ annualizedMeasure m x = .ok y := by decide +kernel
  exact key members (by simpa using h) name hm ha

/-- Two assets by name, one of them numbered: an error; both numbered: no names. -/
example : getFeatureNames (.frame [⟨pyStr, "a".toList⟩, ⟨pyStr, "b".toList⟩]) = .ok (some [⟨pyStr, "a".toList⟩, ⟨pyStr, "b".toList⟩]) ∧
    getFeatureNames (.frame [⟨pyStr, "a".toList⟩, ⟨⟨1, "int"⟩, "1".toList⟩]) = .error () ∧ getFeatureNames (.frame [⟨⟨1, "int"⟩, "0".toList⟩, ⟨⟨1, "int"⟩, "1".toList⟩]) = .ok none ∧
    defaultAssetNames 11 = ["x0", "x1", "x2", "x3", "x4", "x5", "x6", "x7", "x8", "x9", "x10"].map String.toList := by decide +kernel

example : annualizedMeasure ratioMembers "SHARPE_RATIO".toList = .ok "ANNUALIZED_SHARPE_RATIO".toList ∧ annualizedMeasure ratioMembers "CVAR_RATIO".toList = .error .attributeError := by decide +kernel

end Skfolio.Inputs
