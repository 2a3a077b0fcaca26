import Verif.Moments.ImpliedTheorems

/-!
C77: `fit` of `ImpliedCovariance` with the volatility regression gives the same result again, although it overwrites the caller's array.
-/
set_option autoImplicit false

namespace Skfolio.Moments

open Matrix
open Skfolio.Equations (Word)

/-- The mean of a list. -/
noncomputable def listMean (l : List ℝ) : ℝ := l.sum / l.length

/-- A linear regressor with an intercept, as `LinearRegression()`, the default, L312-316 (and `Ridge` and `Lasso`, with `fit_intercept=True`): features and targets are centred, the coefficients are computed from the centred data in whatever way, and the
prediction is the mean of the targets plus the coefficients times the centred features. -/
noncomputable def centredReg (coef : List (ℝ × ℝ) → List ℝ → ℝ × ℝ) (X : List (ℝ × ℝ)) (y : List ℝ) (q : ℝ × ℝ) : ℝ :=
  let m1 := listMean (X.map Prod.fst)
  let m2 := listMean (X.map Prod.snd)
  let b := coef (X.map fun r => (r.1 - m1, r.2 - m2)) (y.map (· - listMean y))
  listMean y + b.1 * (q.1 - m1) + b.2 * (q.2 - m2)

theorem listMean_sub (l : List ℝ) (hl : l ≠ []) (c : ℝ) : listMean (l.map (· - c)) = listMean l - c := by
  have h : (l.length : ℝ) ≠ 0 := by
    have := List.length_pos_iff.2 hl
    positivity
  have hs : (l.map (· - c)).sum = l.sum - l.length * c := by
    clear h hl
    induction l with
    | nil => simp
    | cons a as ih =>
      simp only [List.map_cons, List.sum_cons, List.length_cons, ih]
      push_cast
      ring
  rw [listMean, listMean, hs, List.length_map]
  field_simp

/-- Moving the first feature by a constant does not change the predictions. -/
theorem centredReg_shift (coef : List (ℝ × ℝ) → List ℝ → ℝ × ℝ) (X : List (ℝ × ℝ)) (hX : X ≠ []) (y : List ℝ) (q : ℝ × ℝ) (c : ℝ) :
    centredReg coef (X.map fun r => (r.1 - c, r.2)) y (q.1 - c, q.2) = centredReg coef X y q := by
  have h1 : listMean ((X.map fun r => (r.1 - c, r.2)).map Prod.fst) = listMean (X.map Prod.fst) - c := by
    rw [← listMean_sub _ (by simpa using hX), List.map_map, List.map_map]
    rfl
  have h2 : (X.map fun r => (r.1 - c, r.2)).map Prod.snd = X.map Prod.snd := by
    rw [List.map_map]
    rfl
  unfold centredReg
  simp only [h1, h2]
  rw [List.map_map]
  have h3 : ((fun r : ℝ × ℝ => (r.1 - (listMean (X.map Prod.fst) - c), r.2 - listMean (X.map Prod.snd))) ∘ fun r : ℝ × ℝ => (r.1 - c, r.2)) =
      fun r => (r.1 - listMean (X.map Prod.fst), r.2 - listMean (X.map Prod.snd)) := by
    funext r
    simp
  rw [h3]
  ring

theorem computeImpliedVol_div (n w : Nat) (v : Nat → ℝ) (c : ℝ) : computeImpliedVol n w (fun t => v t / c) = (computeImpliedVol n w v).map (· / c) := by
  simp [computeImpliedVol, Function.comp_def]

theorem predictVol_div (coef : List (ℝ × ℝ) → List ℝ → ℝ × ℝ) (n w : Nat) (x v : Nat → ℝ) (c : ℝ) (hc : 0 < c) (hpos : ∀ s ∈ computeImpliedVol n w v, 0 < s)
    (hlen : (computeRealisedVol n w x).length = (computeImpliedVol n w v).length) (hn : 2 ≤ (computeRealisedVol n w x).length) :
    predictVol (centredReg coef) n w x (fun t => v t / c) = predictVol (centredReg coef) n w x v := by
  have h1 : (computeImpliedVol n w fun t => v t / c).map Real.log = ((computeImpliedVol n w v).map Real.log).map (· - Real.log c) := by
    rw [computeImpliedVol_div, List.map_map, List.map_map]
    refine List.map_congr_left fun s hs => ?_
    exact Real.log_div (hpos s hs).ne' hc.ne'
  unfold predictVol regressionData
  simp only [h1]
  rw [List.zip_map_left (l₁ := (computeImpliedVol n w v).map Real.log)]
  generalize hX : ((computeImpliedVol n w v).map Real.log).zip ((computeRealisedVol n w x).map Real.log) = X
  have hXl : X.length = (computeRealisedVol n w x).length := by
    rw [← hX]
    simp [hlen]
  have hd : X.dropLast ≠ [] := by
    intro h
    have := congrArg List.length h
    simp only [List.length_dropLast, List.length_nil] at this
    omega
  have hne : X ≠ [] := fun h => hd (by rw [h]; rfl)
  have hl : (X.map (Prod.map (· - Real.log c) id)).getLast?.getD (0, 0) = ((X.getLast?.getD (0, 0)).1 - Real.log c, (X.getLast?.getD (0, 0)).2) := by
    rw [List.getLast?_map, List.getLast?_eq_some_getLast hne]
    rfl
  rw [hl, ← List.map_dropLast]
  congr 1
  exact centredReg_shift coef _ hd _ _ _

theorem predVols_div {m : Nat} (coef : List (ℝ × ℝ) → List ℝ → ℝ × ℝ) (p : ImpliedParams m) (hp : p.premium = none) (n : Nat) (x : Nat → Fin m → ℝ) (v : Nat → Nat → ℝ) (c : ℝ) (hc : 0 < c) :
    predVols (centredReg coef) p n x (fun t i => v t i / c) = predVols (centredReg coef) p n x v := by
  unfold predVols
  simp only [hp, computeImpliedVol_div, List.length_map]
  have hiff : ∀ i : Fin m, (∃ s ∈ computeRealisedVol n p.windowSize (x · i) ++ (computeImpliedVol n p.windowSize (v · i)).map (· / c), s ≤ 0) ↔
      ∃ s ∈ computeRealisedVol n p.windowSize (x · i) ++ computeImpliedVol n p.windowSize (v · i), s ≤ 0 := by
    intro i
    constructor
    · rintro ⟨s, hs, h0⟩
      rcases List.mem_append.1 hs with hs | hs
      · exact ⟨s, List.mem_append_left _ hs, h0⟩
      · obtain ⟨a, ha, rfl⟩ := List.mem_map.1 hs
        refine ⟨a, List.mem_append_right _ ha, ?_⟩
        by_contra hlt
        exact absurd h0 (not_le.2 (div_pos (not_le.1 hlt) hc))
    · rintro ⟨s, hs, h0⟩
      rcases List.mem_append.1 hs with hs | hs
      · exact ⟨s, List.mem_append_left _ hs, h0⟩
      · exact ⟨s / c, List.mem_append_right _ (List.mem_map.2 ⟨s, hs, rfl⟩), div_nonpos_of_nonpos_of_nonneg h0 hc.le⟩
  simp only [hiff]
  split_ifs with h1 h2 h3 h4
  · rfl
  · rfl
  · rfl
  · rfl
  · congr 1
    funext i
    push Not at h3 h4
    refine predictVol_div coef n p.windowSize (x · i) (v · i) c hc (fun s hs => h4 i s (List.mem_append_right _ hs)) (h3 i) ?_
    simp only [computeRealisedVol, List.length_map, List.length_range]
    omega

/-- **C77.** With the volatility regression and a linear regressor with an intercept, as by default, fitting again gives the same volatilities and covariance, or the same exception, although the first `fit` may have overwritten the caller's array. -/
theorem C77_refit_regression {m : Nat} (isPD : Matrix (Fin m) (Fin m) ℝ → Bool) (eigh : Matrix (Fin m) (Fin m) ℝ → (Fin m → ℝ) × Matrix (Fin m) (Fin m) ℝ) (coef : List (ℝ × ℝ) → List ℝ → ℝ × ℝ)
    (p : ImpliedParams m) (hp : p.premium = none) (haf : 0 < p.annualizedFactor) (prior : Matrix (Fin m) (Fin m) ℝ) (n : Nat) (names : Option (Fin m → Word)) (x : Nat → Fin m → ℝ) (vol : Vol) :
    (impliedFit isPD eigh (centredReg coef) p prior n names x (impliedFit isPD eigh (centredReg coef) p prior n names x vol).2).1 = (impliedFit isPD eigh (centredReg coef) p prior n names x vol).1 := by
  by_cases hb : vol.sameBuffer = false ∨ (names.isSome ∧ vol.names.isSome)
  · rw [C77_refit_partial p prior n names x vol hb]
  · push Not at hb
    obtain ⟨hb, hn⟩ := hb
    have hs : vol.sameBuffer = true := by simpa using hb
    have ha : ∀ v : Vol, v.names = vol.names → alignVol names v = .ok v := by
      intro v hv
      unfold alignVol
      cases names with
      | none => rfl
      | some nm =>
        have : vol.names = none := by simpa using hn rfl
        rw [hv, this]
    have hc : 0 < Real.sqrt p.annualizedFactor := Real.sqrt_pos.2 haf
    have key : ∀ v : Vol, v.names = vol.names → v.sameBuffer = true → v.rows = vol.rows → v.cols = vol.cols → (impliedFit isPD eigh (centredReg coef) p prior n names x v).1 =
        match checkVol n m vol with
        | .error e => .error e
        | .ok () => match predVols (centredReg coef) p n x v.val with
          | .error e => .error e
          | .ok vols => match setCovariance isPD eigh p.nearest p.higham p.highamMaxIteration (corrToCov (covToCorr prior).1 vols) with
            | .error e => .error (.moments e)
            | .ok cov => .ok (vols, cov) := by
      intro v h1 h2 h3 h4
      have hck : checkVol n m v = checkVol n m vol := by simp only [checkVol, h3, h4]
      unfold impliedFit
      simp only [ha v h1, hck, predVols_div coef p hp n x v.val _ hc]
      cases checkVol n m vol with
      | error e => rfl
      | ok u =>
        simp only
        cases predVols (centredReg coef) p n x v.val with
        | error e => rfl
        | ok vols =>
          simp only
          cases setCovariance isPD eigh p.nearest p.higham p.highamMaxIteration (corrToCov (covToCorr prior).1 vols) <;> rfl
    have hafter : (impliedFit isPD eigh (centredReg coef) p prior n names x vol).2 = vol ∨ (impliedFit isPD eigh (centredReg coef) p prior n names x vol).2 = { vol with val := fun t i => vol.val t i / Real.sqrt p.annualizedFactor } := by
      unfold impliedFit
      simp only [ha vol rfl, hs, if_true]
      cases checkVol n m vol with
      | error e => exact Or.inl rfl
      | ok u =>
        right
        simp only
        cases predVols (centredReg coef) p n x (fun t i => vol.val t i / Real.sqrt p.annualizedFactor) with
        | error e => rfl
        | ok vols =>
          simp only
          cases setCovariance isPD eigh p.nearest p.higham p.highamMaxIteration (corrToCov (covToCorr prior).1 vols) <;> rfl
    rcases hafter with h | h
    · rw [h]
    · rw [h]
      refine (key { vol with val := fun t i => vol.val t i / Real.sqrt p.annualizedFactor } rfl hs rfl rfl).trans (Eq.trans ?_ (key vol rfl hs rfl rfl).symm)
      simp only [predVols_div coef p hp n x vol.val _ hc]

/-- The case is met by an array of floats in C order with 12 rows, a window of 4, no premium and returns that are not constant: a first fit overwrites the array, and the regression has three windows. -/
example : ∃ (p : ImpliedParams 1) (vol : Vol) (x : Nat → Fin 1 → ℝ), p.premium = none ∧ 0 < p.annualizedFactor ∧ vol.sameBuffer = true ∧ (∃ v, predVols (centredReg fun _ _ => (1, 1)) p 12 x vol.val = .ok v) := by
  refine ⟨⟨4, 4, none, false, false, 100⟩, ⟨12, 1, none, fun _ _ => 1, true⟩, fun t _ => if t % 4 = 0 then 1 else 0, rfl, by norm_num, rfl, ?_⟩
  unfold predVols
  simp only
  have hpos : ∀ i : Fin 1, ∀ s ∈ computeRealisedVol 12 4 (fun t => if t % 4 = 0 then (1 : ℝ) else 0) ++ computeImpliedVol 12 4 (fun _ => (1 : ℝ)), ¬ s ≤ 0 := by
    intro i s hs
    rcases List.mem_append.1 hs with hs | hs
    · obtain ⟨k, hk, rfl⟩ := List.mem_map.1 hs
      have e : ∀ t, (12 - 12 / 4 * 4 + (k * 4 + t)) % 4 = t % 4 := by intro t; omega
      rw [not_le]
      unfold sampleStd
      refine Real.sqrt_pos.2 ?_
      simp only [e, Finset.sum_range_succ, Finset.sum_range_zero]
      norm_num
    · obtain ⟨k, hk, rfl⟩ := List.mem_map.1 hs
      norm_num
  rw [if_neg (by norm_num), if_neg (by norm_num), if_neg, if_neg]
  · exact ⟨_, rfl⟩
  · rintro ⟨i, s, hs, h0⟩
    exact hpos i s hs h0
  · rintro ⟨i, h⟩
    exact h (by simp [computeRealisedVol, computeImpliedVol, arange])

end Skfolio.Moments
