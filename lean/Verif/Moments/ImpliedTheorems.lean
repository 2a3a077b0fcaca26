import Verif.Moments.ImpliedModel
import Verif.Moments.CorrTheorems

/-!
Claims C76 (the regression of `ImpliedCovariance`) and C77 (its covariance).
-/
set_option autoImplicit false

namespace Skfolio.Moments

open Matrix
open Skfolio.Equations (Word)

/-! ### specification of the windows -/

/-- Row `t` of window `k`: there are `n / w` windows of `w` rows, one after the other, and the last one ends with the last row. -/
def windowRow (n w k t : Nat) : Nat := n % w + (k * w + t)

/-- The realised volatility of window `k`: the square root of the unbiased variance, which is half the mean squared difference of two
different returns. -/
noncomputable def windowVol (n w : Nat) (x : Nat → ℝ) (k : Nat) : ℝ :=
  Real.sqrt ((∑ s ∈ Finset.range w, ∑ t ∈ Finset.range w, (x (windowRow n w k s) - x (windowRow n w k t)) ^ 2) / (2 * (w * ((w : ℝ) - 1))))

/-- The implied volatility at the last row of window `k`. -/
def windowImplied (n w : Nat) (v : Nat → ℝ) (k : Nat) : ℝ := v (windowRow n w k (w - 1))

/-- **C76.** The windows: consecutive, without overlap and without gap, only the oldest `n % w` rows are left out, and the last window ends
with the last observation. -/
theorem C76_windows (n w : Nat) (hw : 0 < w) (hn : w ≤ n) :
    windowRow n w 0 0 = n % w ∧ windowRow n w (n / w - 1) (w - 1) = n - 1 ∧
    (∀ k, windowRow n w (k + 1) 0 = windowRow n w k (w - 1) + 1) ∧
    (∀ k t, windowRow n w k (t + 1) = windowRow n w k t + 1) ∧
    ∀ k < n / w, ∀ t < w, windowRow n w k t < n := by
  have hc : 1 ≤ n / w := (Nat.one_le_div_iff hw).2 hn
  have hd := Nat.div_add_mod n w
  refine ⟨by simp [windowRow], ?_, ?_, ?_, ?_⟩
  · obtain ⟨c, hc'⟩ : ∃ c, n / w = c + 1 := ⟨n / w - 1, by omega⟩
    rw [hc'] at hd ⊢
    have : w * (c + 1) = c * w + w := by ring
    simp only [windowRow, Nat.add_sub_cancel]
    omega
  · intro k
    have : (k + 1) * w = k * w + w := by ring
    simp only [windowRow]
    omega
  · intro k t
    simp only [windowRow]
    omega
  · intro k hk t ht
    have h1 : (k + 1) * w ≤ n / w * w := Nat.mul_le_mul_right w hk
    have h2 : (k + 1) * w = k * w + w := by ring
    have h3 : n / w * w = w * (n / w) := by ring
    simp only [windowRow]
    omega

theorem sampleStd_eq (w : Nat) (x : Nat → ℝ) :
    sampleStd w x = Real.sqrt ((∑ s ∈ Finset.range w, ∑ t ∈ Finset.range w, (x s - x t) ^ 2) / (2 * (w * ((w : ℝ) - 1)))) := by
  unfold sampleStd
  congr 1
  by_cases hw : w = 0
  · subst hw; simp
  have hw' : (w : ℝ) ≠ 0 := by exact_mod_cast hw
  have key : (∑ s ∈ Finset.range w, ∑ t ∈ Finset.range w, (x s - x t) ^ 2) =
      2 * w * ∑ t ∈ Finset.range w, (x t - (∑ s ∈ Finset.range w, x s) / w) ^ 2 := by
    obtain ⟨S, hS⟩ : ∃ S, S = ∑ s ∈ Finset.range w, x s := ⟨_, rfl⟩
    have h1 : ∀ s, ∑ t ∈ Finset.range w, (x s - x t) ^ 2 = w * x s ^ 2 - 2 * x s * S + ∑ t ∈ Finset.range w, x t ^ 2 := by
      intro s
      simp only [sub_sq, Finset.sum_add_distrib, Finset.sum_sub_distrib, ← Finset.mul_sum, Finset.sum_const, Finset.card_range, nsmul_eq_mul, hS]
    simp only [h1, ← hS, sub_sq, Finset.sum_add_distrib, Finset.sum_sub_distrib, ← Finset.mul_sum, ← Finset.sum_mul, Finset.sum_const,
      Finset.card_range, nsmul_eq_mul]
    field_simp
    ring
  rw [key, mul_assoc, mul_div_mul_left _ _ two_ne_zero, mul_div_mul_left _ _ hw']

theorem realised_eq (n w : Nat) (x : Nat → ℝ) : computeRealisedVol n w x = (List.range (n / w)).map (windowVol n w x) := by
  unfold computeRealisedVol
  apply List.map_congr_left
  intro k _
  have : n - n / w * w = n % w := by
    have := Nat.div_add_mod n w
    have h3 : n / w * w = w * (n / w) := by ring
    omega
  simp only [this, windowVol, windowRow, sampleStd_eq]

theorem implied_eq (n w : Nat) (hw : 0 < w) (hn : w ≤ n) (v : Nat → ℝ) :
    computeImpliedVol n w v = (List.range (n / w)).map (windowImplied n w v) := by
  have hc : 1 ≤ n / w := (Nat.one_le_div_iff hw).2 hn
  have hd := Nat.div_add_mod n w
  obtain ⟨c, hc'⟩ : ∃ c, n / w = c + 1 := ⟨n / w - 1, by omega⟩
  unfold computeImpliedVol arange
  simp only [hc'] at hd ⊢
  have h1 : w * (c + 1) = c * w + w := by ring
  have e : n - (c + 1 - 1) * w - 1 = n % w + (w - 1) := by
    simp only [Nat.add_sub_cancel]; omega
  have e2 : (n - (n % w + (w - 1)) + w - 1) / w = c + 1 := by
    rw [show n - (n % w + (w - 1)) + w - 1 = (c + 1) * w by
      have : (c + 1) * w = c * w + w := by ring
      omega]
    exact Nat.mul_div_cancel _ hw
  rw [e, e2, List.map_map]
  apply List.map_congr_left
  intro k _
  simp only [Function.comp, windowImplied, windowRow]
  congr 1
  omega

theorem zip_map_range (c : Nat) (f g : Nat → ℝ) : ((List.range c).map f).zip ((List.range c).map g) = (List.range c).map fun k => (f k, g k) := by
  rw [List.zip_map']

/-- **C76.** The regression of each asset: sample `k` explains the logarithm of the realised volatility of window `k + 1` by the logarithms
of the implied volatility at the end of window `k` and of the realised volatility of window `k`, for all windows but the last; the
prediction is made from the last implied volatility and the last window. -/
theorem C76_regression (n w : Nat) (hw : 0 < w) (hn : w ≤ n) (x v : Nat → ℝ) :
    regressionData n w x v =
      ((List.range (n / w - 1)).map (fun k => (Real.log (windowImplied n w v k), Real.log (windowVol n w x k))),
       (List.range (n / w - 1)).map (fun k => Real.log (windowVol n w x (k + 1))),
       (Real.log (v (n - 1)), Real.log (windowVol n w x (n / w - 1)))) := by
  have hc : 1 ≤ n / w := (Nat.one_le_div_iff hw).2 hn
  obtain ⟨c, hc'⟩ : ∃ c, n / w = c + 1 := ⟨n / w - 1, by omega⟩
  have hlast := (C76_windows n w hw hn).2.1
  unfold regressionData
  rw [realised_eq, implied_eq n w hw hn]
  simp only [List.map_map, Function.comp_def, zip_map_range]
  refine Prod.ext ?_ (Prod.ext ?_ ?_)
  · simp only [hc', Nat.add_sub_cancel, List.range_succ, List.map_append, List.map_cons, List.map_nil, List.dropLast_concat]
  · simp only [hc', Nat.add_sub_cancel, List.range_succ_eq_map, List.map_cons, List.tail_cons, List.map_map, Function.comp_def, Nat.succ_eq_add_one]
  · rw [hc'] at hlast
    simp only [Nat.add_sub_cancel] at hlast
    simp only [hc', Nat.add_sub_cancel, List.range_succ, List.map_append, List.map_cons, List.map_nil, List.getLast?_append,
      List.getLast?_singleton, Option.some_or, Option.getD_some, windowImplied, hlast]

theorem windowVol_congr (n w : Nat) (x x' : Nat → ℝ) (k : Nat) (h : ∀ t < w, x (windowRow n w k t) = x' (windowRow n w k t)) :
    windowVol n w x k = windowVol n w x' k := by
  unfold windowVol
  congr 2
  exact Finset.sum_congr rfl fun s hs => Finset.sum_congr rfl fun t ht => by rw [h s (Finset.mem_range.1 hs), h t (Finset.mem_range.1 ht)]

/-- **C76.** No look-ahead: the features of training sample `k` do not depend on the rows from the first row of window `k + 1` on, which
are those of its target and of all later ones. -/
theorem C76_no_look_ahead (n w : Nat) (hw : 0 < w) (hn : w ≤ n) (x x' v v' : Nat → ℝ) (k : Nat)
    (hx : ∀ r < windowRow n w (k + 1) 0, x r = x' r) (hv : ∀ r < windowRow n w (k + 1) 0, v r = v' r) :
    (regressionData n w x v).1[k]? = (regressionData n w x' v').1[k]? := by
  have hrow : ∀ t < w, windowRow n w k t < windowRow n w (k + 1) 0 := by
    intro t ht
    rw [(C76_windows n w hw hn).2.2.1 k]
    simp only [windowRow]
    omega
  rw [C76_regression n w hw hn, C76_regression n w hw hn]
  simp only [List.getElem?_map]
  by_cases hk : k < n / w - 1
  · rw [List.getElem?_range hk]
    simp only [Option.map_some, Option.some.injEq, Prod.mk.injEq]
    rw [windowVol_congr n w x x' k fun t ht => hx _ (hrow t ht)]
    exact ⟨by unfold windowImplied; rw [hv _ (hrow _ (by omega))], rfl⟩
  · rw [List.getElem?_eq_none (by simpa using hk)]
    rfl

/-- **C76.** The target of training sample `k` depends on the returns of window `k + 1` only. -/
theorem C76_target (n w : Nat) (hw : 0 < w) (hn : w ≤ n) (x x' v v' : Nat → ℝ) (k : Nat)
    (hx : ∀ t < w, x (windowRow n w (k + 1) t) = x' (windowRow n w (k + 1) t)) :
    (regressionData n w x v).2.1[k]? = (regressionData n w x' v').2.1[k]? := by
  rw [C76_regression n w hw hn, C76_regression n w hw hn]
  simp only [List.getElem?_map]
  by_cases hk : k < n / w - 1
  · rw [List.getElem?_range hk]
    simp only [Option.map_some, Option.some.injEq]
    rw [windowVol_congr n w x x' (k + 1) hx]
  · rw [List.getElem?_eq_none (by simpa using hk)]
    rfl

/-- **C76.** The prediction of an asset depends only on its own returns and implied volatilities in the windows: the oldest `n % w` rows
have no effect. -/
theorem C76_oldest_ignored (reg : List (ℝ × ℝ) → List ℝ → ℝ × ℝ → ℝ) (n w : Nat) (hw : 0 < w) (hn : w ≤ n) (x x' v v' : Nat → ℝ)
    (hx : ∀ r, n % w ≤ r → r < n → x r = x' r) (hv : ∀ r, n % w ≤ r → r < n → v r = v' r) :
    predictVol reg n w x v = predictVol reg n w x' v' := by
  have hrow := (C76_windows n w hw hn).2.2.2.2
  have hge : ∀ k t, n % w ≤ windowRow n w k t := fun k t => Nat.le_add_right _ _
  have e1 : ∀ k < n / w, windowVol n w x k = windowVol n w x' k := fun k hk =>
    windowVol_congr n w x x' k fun t ht => hx _ (hge k t) (hrow k hk t ht)
  have e2 : ∀ k < n / w, windowImplied n w v k = windowImplied n w v' k := fun k hk =>
    hv _ (hge k _) (hrow k hk _ (by omega))
  have hd : regressionData n w x v = regressionData n w x' v' := by
    unfold regressionData
    rw [realised_eq, realised_eq, implied_eq n w hw hn, implied_eq n w hw hn,
      List.map_congr_left (fun k hk => e1 k (List.mem_range.1 hk)), List.map_congr_left (fun k hk => e2 k (List.mem_range.1 hk))]
  unfold predictVol
  rw [hd]

/-- Seven rows in windows of three: rows 1-3 and 4-6. -/
example : (List.range 2).map (fun k => (List.range 3).map (windowRow 7 3 k)) = [[1, 2, 3], [4, 5, 6]] := by decide
example : arange (7 - (7 / 3 - 1) * 3 - 1) 7 3 = [3, 6] := by decide

/-! ### C77 -/

section fit
variable {m : Nat} {isPD : Matrix (Fin m) (Fin m) ℝ → Bool} {eigh : Matrix (Fin m) (Fin m) ℝ → (Fin m → ℝ) × Matrix (Fin m) (Fin m) ℝ}
variable {reg : List (ℝ × ℝ) → List ℝ → ℝ × ℝ → ℝ}

/-- The column of `implied_vol` that belongs to asset `i`: the first column of its name if both tables have names, column `i` otherwise. -/
def ownColumn (names : Option (Fin m → Word)) (vol : Vol) (i : Fin m) (c : Nat) : Prop :=
  match names, vol.names with
  | some names, some volNames => volNames[c]? = some (names i) ∧ ∀ c' < c, volNames[c']? ≠ some (names i)
  | _, _ => c = i

theorem idxOf_own (l : List Word) (a : Word) (h : a ∈ l) : l[l.idxOf a]? = some a ∧ ∀ c' < l.idxOf a, l[c']? ≠ some a := by
  have hlt := List.idxOf_lt_length_iff.2 h
  refine ⟨by rw [List.getElem?_eq_getElem hlt, List.getElem_idxOf], fun c' hc' => ?_⟩
  rw [List.getElem?_eq_getElem (by omega)]
  intro e
  have := List.not_of_lt_findIdx (xs := l) (p := (· == a)) (i := c') hc'
  simp only [Option.some.inj e, beq_self_eq_true] at this
  cases this

/-- The steps of a successful fit. -/
theorem fit_ok (p : ImpliedParams m) (prior : Matrix (Fin m) (Fin m) ℝ) (n : Nat) (names : Option (Fin m → Word)) (x : Nat → Fin m → ℝ)
    (vol : Vol) (vols : Fin m → ℝ) (cov : Matrix (Fin m) (Fin m) ℝ)
    (h : (impliedFit isPD eigh reg p prior n names x vol).1 = .ok (vols, cov)) :
    ∃ vol1, alignVol names vol = .ok vol1 ∧ vol1.rows = n ∧ vol1.cols = m ∧
      predVols reg p n x (fun t i => vol1.val t i / Real.sqrt p.annualizedFactor) = .ok vols ∧
      setCovariance isPD eigh p.nearest p.higham p.highamMaxIteration (corrToCov (covToCorr prior).1 vols) = .ok cov ∧
      (impliedFit isPD eigh reg p prior n names x vol).2 =
        if vol1.sameBuffer then { vol with val := fun t i => vol1.val t i / Real.sqrt p.annualizedFactor } else vol := by
  unfold impliedFit at h ⊢
  simp only at h ⊢
  cases ha : alignVol names vol with
  | error e => rw [ha] at h; cases h
  | ok vol1 =>
    simp only [ha] at h ⊢
    cases hc : checkVol n m vol1 with
    | error e => rw [hc] at h; cases h
    | ok u =>
      simp only [hc] at h ⊢
      have hshape : vol1.rows = n ∧ vol1.cols = m := by
        unfold checkVol at hc
        split_ifs at hc with h1
        exact h1
      cases hp : predVols reg p n x (fun t i => vol1.val t i / Real.sqrt p.annualizedFactor) with
      | error e => rw [hp] at h; cases h
      | ok vs =>
        simp only [hp] at h ⊢
        cases hs : setCovariance isPD eigh p.nearest p.higham p.highamMaxIteration (corrToCov (covToCorr prior).1 vs) with
        | error e => rw [hs] at h; cases h
        | ok cv =>
          simp only [hs] at h ⊢
          cases h
          exact ⟨vol1, rfl, hshape.1, hshape.2, hp, hs, rfl⟩

theorem align_column (names : Option (Fin m → Word)) (vol vol1 : Vol) (h : alignVol names vol = .ok vol1) (i : Fin m) :
    ∃ c, ownColumn names vol i c ∧ ∀ t, vol1.val t i = vol.val t c := by
  unfold alignVol at h
  unfold ownColumn
  cases names with
  | none => cases h; exact ⟨i, rfl, fun _ => rfl⟩
  | some names =>
    cases hv : vol.names with
    | none => simp only [hv] at h; cases h; exact ⟨i, rfl, fun _ => rfl⟩
    | some l =>
      simp only [hv] at h
      split_ifs at h with hm
      cases h
      exact ⟨l.idxOf (names i), idxOf_own l (names i) (hm i), fun t => by simp⟩

/-- **C77.** Without a risk premium: the volatility that is used for an asset is the exponential of the regression's prediction from the
asset's own returns and its own column of implied volatilities (found by name), per period; it is positive. -/
theorem C77_regression_vols (p : ImpliedParams m) (prior : Matrix (Fin m) (Fin m) ℝ) (n : Nat) (names : Option (Fin m → Word))
    (x : Nat → Fin m → ℝ) (vol : Vol) (vols : Fin m → ℝ) (cov : Matrix (Fin m) (Fin m) ℝ)
    (h : (impliedFit isPD eigh reg p prior n names x vol).1 = .ok (vols, cov)) (hp : p.premium = none) (i : Fin m) :
    3 ≤ p.windowSize ∧ 3 ≤ n / p.windowSize ∧ 0 < vols i ∧ ∃ c, ownColumn names vol i c ∧
      vols i = predictVol reg n p.windowSize (x · i) (fun t => vol.val t c / Real.sqrt p.annualizedFactor) := by
  obtain ⟨vol1, ha, _, _, h1, _⟩ := fit_ok p prior n names x vol vols cov h
  obtain ⟨c, hc, e⟩ := align_column names vol vol1 ha i
  unfold predVols at h1
  simp only [hp] at h1
  split_ifs at h1 with g1 g2 g3 g4
  cases h1
  exact ⟨by omega, by omega, Real.exp_pos _, c, hc, by simp only [e]⟩

/-- **C77.** With a risk premium: the volatility of an asset is the last number of its own column, per period, divided by its premium, which
is positive. -/
theorem C77_premium_vols (p : ImpliedParams m) (prior : Matrix (Fin m) (Fin m) ℝ) (n : Nat) (names : Option (Fin m → Word))
    (x : Nat → Fin m → ℝ) (vol : Vol) (vols : Fin m → ℝ) (cov : Matrix (Fin m) (Fin m) ℝ)
    (h : (impliedFit isPD eigh reg p prior n names x vol).1 = .ok (vols, cov)) (adj : Fin m → ℝ) (hp : p.premium = some adj) (i : Fin m) :
    0 < adj i ∧ ∃ c, ownColumn names vol i c ∧ vols i = vol.val (n - 1) c / Real.sqrt p.annualizedFactor / adj i := by
  obtain ⟨vol1, ha, _, _, h1, _⟩ := fit_ok p prior n names x vol vols cov h
  obtain ⟨c, hc, e⟩ := align_column names vol vol1 ha i
  unfold predVols at h1
  simp only [hp] at h1
  split_ifs at h1 with g1
  cases h1
  push Not at g1
  exact ⟨g1 i, c, hc, by simp only [e]⟩

/-- **C77.** The covariance has the variances of these volatilities and is positive definite (unless `nearest=False`); if it is not
adjusted, its correlations are those of the prior estimator when the volatilities are positive. -/
theorem C77_covariance (hnum : Numerics isPD eigh) (p : ImpliedParams m) (prior : Matrix (Fin m) (Fin m) ℝ) (hprior : ∀ i, 0 < prior i i)
    (n : Nat) (names : Option (Fin m → Word)) (x : Nat → Fin m → ℝ) (vol : Vol) (vols : Fin m → ℝ) (cov : Matrix (Fin m) (Fin m) ℝ)
    (h : (impliedFit isPD eigh reg p prior n names x vol).1 = .ok (vols, cov)) :
    (∀ i, 0 < cov i i ∧ cov i i = vols i ^ 2) ∧ (p.nearest = true → PD cov) ∧
    (p.nearest = false → (∀ i, 0 < vols i) → (covToCorr cov).1 = (covToCorr prior).1) := by
  obtain ⟨vol1, _, _, _, _, hs, _⟩ := fit_ok p prior n names x vol vols cov h
  obtain ⟨h1, h2, h3⟩ := C50_set_covariance hnum _ _ _ _ _ hs
  have hd := (C37_correlation prior hprior).1
  refine ⟨fun i => ⟨(h1 i).1, ?_⟩, h2, fun hn hv => ?_⟩
  · rw [(h1 i).2, corrToCov, hd]; ring
  · rw [h3 hn, C37_roundtrip_corr _ _ hd hv]

/-- **C77, negated.** Negative implied volatilities are accepted (the check is applied to the shape): with a risk premium, no adjustment and
implied volatilities of any sign that are not too small, the fit succeeds, and the correlation of two assets whose last implied volatilities
have opposite signs is reversed. -/
theorem C77_negative_accepted (p : ImpliedParams m) (prior : Matrix (Fin m) (Fin m) ℝ) (hprior : ∀ i, 0 < prior i i) (n : Nat)
    (x : Nat → Fin m → ℝ) (vol : Vol) (hr : vol.rows = n) (hc : vol.cols = m) (adj : Fin m → ℝ) (hp : p.premium = some adj)
    (hadj : ∀ i, 0 < adj i) (haf : 0 < p.annualizedFactor) (hne : p.nearest = false)
    (hbig : ∀ i : Fin m, 1 / 10 ^ 15 ≤ (vol.val (n - 1) i / Real.sqrt p.annualizedFactor / adj i) ^ 2) :
    ∃ vols cov, (impliedFit isPD eigh reg p prior n none x vol).1 = .ok (vols, cov) ∧
      ∀ i j : Fin m, vol.val (n - 1) i < 0 → 0 < vol.val (n - 1) j → (covToCorr cov).1 i j = - (covToCorr prior).1 i j := by
  have hd := (C37_correlation prior hprior).1
  obtain ⟨vs, hvs⟩ : ∃ vs : Fin m → ℝ, vs = fun i : Fin m => vol.val (n - 1) i / Real.sqrt p.annualizedFactor / adj i := ⟨_, rfl⟩
  have hpred : predVols reg p n x (fun t i => vol.val t i / Real.sqrt p.annualizedFactor) = .ok vs := by
    unfold predVols
    simp only [hp]
    rw [if_neg (by push Not; exact hadj), hvs]
  have hset : setCovariance isPD eigh p.nearest p.higham p.highamMaxIteration (corrToCov (covToCorr prior).1 vs) =
      .ok (corrToCov (covToCorr prior).1 vs) := by
    unfold setCovariance
    rw [if_neg, hne]
    · simp
    · push Not
      intro i
      rw [corrToCov, hd, hvs]
      have := hbig i
      nlinarith [this]
  refine ⟨vs, corrToCov (covToCorr prior).1 vs, ?_, fun i j hi hj => ?_⟩
  · unfold impliedFit
    simp only [alignVol]
    have hck : checkVol n m vol = .ok () := by
      unfold checkVol
      rw [if_neg (by simp [hr, hc]), if_neg]
      have h1 : (0 : ℝ) ≤ n := Nat.cast_nonneg n
      have h2 : (0 : ℝ) ≤ m := Nat.cast_nonneg m
      exact not_lt.2 (le_min h1 h2)
    simp only [hck, hpred, hset]
  · have hs := Real.sqrt_pos.2 haf
    have hvi : vs i < 0 := by
      rw [hvs]
      exact div_neg_of_neg_of_pos (div_neg_of_neg_of_pos hi hs) (hadj i)
    have hvj : 0 < vs j := by
      rw [hvs]
      exact div_pos (div_pos hj hs) (hadj j)
    have e : ∀ k, Real.sqrt (corrToCov (covToCorr prior).1 vs k k) = |vs k| := by
      intro k
      rw [corrToCov, hd, one_mul, ← pow_two, Real.sqrt_sq_eq_abs]
    obtain ⟨c, hc⟩ : ∃ c, c = (covToCorr prior).1 := ⟨_, rfl⟩
    rw [← hc] at e ⊢
    simp only [covToCorr]
    rw [e, e, abs_of_neg hvi, abs_of_pos hvj]
    simp only [corrToCov]
    have := hvi.ne
    have := hvj.ne'
    field_simp

/-- **C77, negated.** `fit` changes the caller's array: if it is an array of floats in C order, it is divided by the square root of the
annualization factor. -/
theorem C77_input_changed (p : ImpliedParams m) (prior : Matrix (Fin m) (Fin m) ℝ) (n : Nat) (x : Nat → Fin m → ℝ) (vol : Vol)
    (hb : vol.sameBuffer = true) (vols : Fin m → ℝ) (cov : Matrix (Fin m) (Fin m) ℝ)
    (h : (impliedFit isPD eigh reg p prior n none x vol).1 = .ok (vols, cov)) :
    (impliedFit isPD eigh reg p prior n none x vol).2.val = fun t i => vol.val t i / Real.sqrt p.annualizedFactor := by
  obtain ⟨vol1, ha, _, _, _, _, e⟩ := fit_ok p prior n none x vol vols cov h
  have : vol1 = vol := by unfold alignVol at ha; cases ha; rfl
  subst this
  rw [e, if_pos hb]

/-- **C77, negated.** Fitting again with the same array gives other volatilities: with a risk premium they are divided by the square root of
the annualization factor, and the variances by the annualization factor. -/
theorem C77_refit_differs (hnum : Numerics isPD eigh) (p : ImpliedParams m) (prior : Matrix (Fin m) (Fin m) ℝ) (hprior : ∀ i, 0 < prior i i)
    (n : Nat) (x : Nat → Fin m → ℝ) (vol : Vol) (hb : vol.sameBuffer = true) (adj : Fin m → ℝ) (hp : p.premium = some adj)
    (haf : 0 < p.annualizedFactor) (vols vols' : Fin m → ℝ) (cov cov' : Matrix (Fin m) (Fin m) ℝ)
    (h : (impliedFit isPD eigh reg p prior n none x vol).1 = .ok (vols, cov))
    (h' : (impliedFit isPD eigh reg p prior n none x (impliedFit isPD eigh reg p prior n none x vol).2).1 = .ok (vols', cov')) (i : Fin m) :
    vols' i = vols i / Real.sqrt p.annualizedFactor ∧ cov' i i = cov i i / p.annualizedFactor := by
  obtain ⟨_, c, hc, e⟩ := C77_premium_vols p prior n none x vol vols cov h adj hp i
  obtain ⟨_, c', hc', e'⟩ := C77_premium_vols p prior n none x _ vols' cov' h' adj hp i
  cases hc
  cases hc'
  rw [C77_input_changed p prior n x vol hb vols cov h] at e'
  have hv : vols' i = vols i / Real.sqrt p.annualizedFactor := by rw [e, e']; ring
  refine ⟨hv, ?_⟩
  rw [((C77_covariance hnum p prior hprior n none x _ vols' cov' h').1 i).2, ((C77_covariance hnum p prior hprior n none x vol vols cov h).1 i).2,
    hv, div_pow, Real.sq_sqrt haf.le]

/-- **C77, in part.** Fitting again gives the same result if `check_array` copies (a data frame, a list, an array in Fortran order) or the
columns are selected by name. Missing: arrays of floats in C order. -/
theorem C77_refit_partial (p : ImpliedParams m) (prior : Matrix (Fin m) (Fin m) ℝ) (n : Nat) (names : Option (Fin m → Word))
    (x : Nat → Fin m → ℝ) (vol : Vol) (hb : vol.sameBuffer = false ∨ (names.isSome ∧ vol.names.isSome)) :
    (impliedFit isPD eigh reg p prior n names x vol).2 = vol := by
  have key : ∀ vol1, alignVol names vol = .ok vol1 → vol1.sameBuffer = false := by
    intro vol1 h
    unfold alignVol at h
    rcases hb with hb | ⟨h1, h2⟩
    · cases names with
      | none => cases h; exact hb
      | some names =>
        cases hv : vol.names with
        | none => simp only [hv] at h; cases h; exact hb
        | some l =>
          simp only [hv] at h
          split_ifs at h
          cases h; rfl
    · obtain ⟨nm, rfl⟩ := Option.isSome_iff_exists.1 h1
      obtain ⟨l, hl⟩ := Option.isSome_iff_exists.1 h2
      simp only [hl] at h
      split_ifs at h
      cases h; rfl
  unfold impliedFit
  simp only
  cases ha : alignVol names vol with
  | error e => rfl
  | ok vol1 =>
    have hk := key vol1 ha
    simp only [hk, Bool.false_eq_true, if_false]
    cases checkVol n m vol1 with
    | error e => rfl
    | ok u =>
      simp only
      cases predVols reg p n x (fun t i => vol1.val t i / Real.sqrt p.annualizedFactor) with
      | error e => rfl
      | ok vs =>
        simp only
        cases setCovariance isPD eigh p.nearest p.higham p.highamMaxIteration (corrToCov (covToCorr prior).1 vs) with
        | error e => rfl
        | ok cv => rfl

end fit

/-- Two assets with a last implied volatility of -0.5 and 0.5, an annualization factor of 4 and no premium: all hypotheses of
`C77_negative_accepted` hold. -/
example : ∃ (p : ImpliedParams 2) (adj : Fin 2 → ℝ) (vol : Vol) (prior : Matrix (Fin 2) (Fin 2) ℝ), vol.rows = 3 ∧ vol.cols = 2 ∧
    p.premium = some adj ∧ (∀ i, 0 < adj i) ∧ 0 < p.annualizedFactor ∧ p.nearest = false ∧ (∀ i, 0 < prior i i) ∧
    (∀ i : Fin 2, 1 / 10 ^ 15 ≤ (vol.val (3 - 1) i / Real.sqrt p.annualizedFactor / adj i) ^ 2) ∧
    vol.val (3 - 1) 0 < 0 ∧ 0 < vol.val (3 - 1) 1 := by
  refine ⟨⟨4, 20, some fun _ => 1, false, false, 100⟩, fun _ => 1, ⟨3, 2, none, fun _ i => if i = 0 then -(1 / 2) else 1 / 2, true⟩,
    fun i j => if i = j then 1 else 1 / 2, rfl, rfl, rfl, fun _ => one_pos, by norm_num, rfl, fun i => by simp, fun i => ?_, by norm_num, by norm_num⟩
  have h4 : Real.sqrt 4 = 2 := by
    rw [show (4 : ℝ) = 2 ^ 2 by norm_num, Real.sqrt_sq (by norm_num)]
  simp only [h4]
  fin_cases i <;> norm_num

end Skfolio.Moments
