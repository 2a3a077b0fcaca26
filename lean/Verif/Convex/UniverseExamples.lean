import Verif.Convex.UniverseTheorems
import Verif.Convex.TradeOffExamples

/-! **C120**: concrete fits that meet the hypotheses. -/
set_option autoImplicit false

namespace Skfolio.Convex

open Skfolio.Measures

/-- The selection of the first of two assets. -/
def firstAsset : Fin 1 ↪ Fin 2 := ⟨fun _ => 0, fun _ _ _ => Subsingleton.elim _ _⟩

/-- The problem of `frontierAssets` on the first asset. -/
noncomputable def singleAsset : MeanRisk 1 2 :=
  { data := { returns := fun t _ => if t = 0 then 3 / 100 else 4 / 100, mu := fun _ => 4 / 100, previousWeights := fun _ => 0, transactionCosts := fun _ => 0, managementFees := fun _ => 0, riskFreeRate := 0 },
    cholesky := fun _ _ => 1,
    weights := { minWeights := some fun _ => 0, maxWeights := some fun _ => 1, maxLong := none, maxShort := none, minBudget := none, maxBudget := none, budget := some 1, cardinality := none,
                 groupCardinalities := none, thresholdLong := none, thresholdShort := none, eqRows := [], ineqRows := [], inequality := none, mixedIntegerSolver := false },
    objective := .minimizeRisk, riskMeasure := .standardDeviation, minAcceptableReturn := .default,
    cvarBeta := 95 / 100, evarBeta := 95 / 100, cdarBeta := 95 / 100, edarBeta := 95 / 100, riskAversion := 1, l1Coef := 0, l2Coef := 0, maxTrackingError := none,
    benchmark := fun _ => 0, maxTurnover := none, minReturns := [], riskLimits := fun _ => none, uncertainty := none, scale := 1, scaleObjective := 1 }

theorem single_part : IsPart firstAsset singleAsset (frontierAssets (4 / 100) (2 / 100)) where
  data := ⟨fun _ _ => rfl, fun _ => rfl, fun _ => rfl, fun _ _ => rfl, fun _ => rfl, fun _ => rfl, rfl⟩
  covariance := by
    intro i j
    simp [covarianceOf, frontierAssets, twoAssets, singleAsset, firstAsset]
    exact Subsingleton.elim _ _
  weights := by
    constructor <;> simp [frontierAssets, twoAssets, singleAsset, longOnly, noLimits]
  objective := rfl
  riskMeasure := rfl
  acceptable := fun _ => rfl
  cvarBeta := rfl
  evarBeta := rfl
  cdarBeta := rfl
  edarBeta := rfl
  riskAversion := rfl
  l1Coef := rfl
  l2Coef := rfl
  maxTrackingError := rfl
  benchmark := rfl
  maxTurnover := rfl
  minReturns := rfl
  riskLimits := rfl
  uncertainty := fun _ => rfl
  overwrite := fun _ => rfl

/-- Holding the asset is within the limits on the selection. -/
theorem single_comparable : Comparable (sortPartition ℝ) singleAsset (fun _ => 1) := by
  refine ⟨⟨?_, ?_, ?_, fun x hx => (by cases hx), fun r x hx => (by cases hx)⟩, fun r _ x hx => (by cases hx), fun h => (by cases h)⟩
  · constructor <;> simp [singleAsset]
  · constructor <;> simp [singleAsset]
  · constructor <;> simp [singleAsset]

/-- The standard deviation of the first asset is 1, that of the fit on both is the square root of one half. -/
example : ∃ (cs : List (Constraint ℝ 2)) (a : ℝ), IsPart firstAsset singleAsset (frontierAssets (4 / 100) (2 / 100)) ∧ Comparable (sortPartition ℝ) singleAsset (fun _ => 1) ∧
    getWeightConstraints (frontierAssets (4 / 100) (2 / 100)).weights (factorIsVariable (frontierAssets (4 / 100) (2 / 100))) true (frontierAssets (4 / 100) (2 / 100)).scale = .ok cs ∧
    IsOptimum (frontierAssets (4 / 100) (2 / 100)) cs ![1 / 2, 1 / 2] 1 a ∧ BetasOk (frontierAssets (4 / 100) (2 / 100)) ∧ isMip (frontierAssets (4 / 100) (2 / 100)).weights = false ∧
    IsRiskOf (sortPartition ℝ) singleAsset singleAsset.riskMeasure (fun w => Real.sqrt (∑ i, ∑ j, w i * covarianceOf singleAsset i j * w j)) ∧
    IsRiskOf (sortPartition ℝ) (frontierAssets (4 / 100) (2 / 100)) singleAsset.riskMeasure (fun w => Real.sqrt (∑ i, ∑ j, w i * covarianceOf (frontierAssets (4 / 100) (2 / 100)) i j * w j)) ∧
    Real.sqrt (∑ i : Fin 1, ∑ j : Fin 1, (1 : ℝ) * covarianceOf singleAsset i j * 1) = 1 := by
  obtain ⟨cs, hcs⟩ := frontier_ok
  refine ⟨cs, Real.sqrt (1 / 2), single_part, single_comparable, hcs, frontier_min _ _ cs hcs, tradeoff_betas, rfl, fun _ _ => Iff.rfl, fun _ _ => Iff.rfl, ?_⟩
  simp [covarianceOf, singleAsset]

/-- Without room for the other asset (here it has to be held) the larger problem can be worse: the limits of `IsLooser` matter. -/
example : ¬ IsLooser firstAsset singleAsset.weights { longOnly with minWeights := some ![0, 1 / 2] } := by
  intro h
  obtain ⟨h1, -⟩ := h.minWeights _ rfl
  have := h1 1 (by
    rintro ⟨i, hi⟩
    exact absurd (show (0 : Fin 2) = 1 from hi) (by decide))
  norm_num at this

end Skfolio.Convex
