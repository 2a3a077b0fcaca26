import Verif.Copula.SampleTau
import Verif.Copula.KendallClayton
import Verif.Copula.KendallJoe
import Verif.Copula.KendallRotation
import Mathlib.Analysis.SpecialFunctions.Trigonometric.Inverse
import Mathlib.Topology.Order.IntermediateValue
import Mathlib.Analysis.Real.Pi.Bounds

/-!
The copula fitted by inversion of Kendall's tau.
-/
set_option autoImplicit false

namespace Skfolio.Copula

open Real Set
open Skfolio.ModelSelection (Flt selectRotation rotations pyMin)

/-- The data that a fit uses. -/
noncomputable def clipped (X : List (ℝ × ℝ)) : List (ℝ × ℝ) := X.map fun x => (clipMarginal x.1, clipMarginal x.2)

theorem validate_ok {X Y : List (ℝ × ℝ)} (h : validateMargins X = .ok Y) : Y = clipped X ∧ X ≠ [] ∧ ∀ x ∈ X, Unit x.1 ∧ Unit x.2 := by
  unfold validateMargins at h
  split_ifs at h with h1 h2
  cases h
  exact ⟨rfl, h1, h2⟩

/-- The rotation is that of the greatest likelihood. -/
theorem rotation_best (score : ℝ → ℝ × ℝ → ℝ) (θ : ℝ) (X : List (ℝ × ℝ)) (r : Rotation) :
    (X.map fun x => score θ (applyRotation r x)).sum ≤ (X.map fun x => score θ (applyRotation (withRotation score (some θ) X).rotation x)).sum := by
  have e : ∀ r : Rotation, negLogLik score (some θ) (X.map (applyRotation r)) = .fin (-(X.map fun x => score θ (applyRotation r x)).sum) := by
    intro r
    simp only [negLogLik, List.map_map, Function.comp_def]
  simp only [withRotation, selectRotation, rotations, List.map_cons, List.map_nil, e, pyMin, List.foldl_cons, List.foldl_nil, Option.getD_some]
  obtain ⟨S, hS⟩ : ∃ S : Rotation → ℝ, ∀ r, (X.map fun x => score θ (applyRotation r x)).sum = S r := ⟨_, fun r => rfl⟩
  simp only [hS, Flt.lt, decide_eq_true_eq]
  split_ifs with h1 h2 h3 h2 h3 h3 h3 <;> simp only [decide_eq_true_eq] at * <;> cases r <;> linarith

theorem theta_nan (score : ℝ → ℝ × ℝ → ℝ) (X : List (ℝ × ℝ)) : withRotation score none X = ⟨none, .r0⟩ := rfl

theorem clip_mem {lo hi x : ℝ} (h : lo ≤ hi) : lo ≤ clip lo hi x ∧ clip lo hi x ≤ hi := ⟨le_min (le_max_right _ _) h, min_le_right _ _⟩

/-- A strictly increasing function commutes with clipping. -/
theorem clip_map {lo hi x : ℝ} (f : ℝ → ℝ) (h : lo ≤ hi) (hlo : x ≤ lo → f x ≤ f lo) (hlo' : lo ≤ x → f lo ≤ f x) (hhi : x ≤ hi → f x ≤ f hi) (hhi' : hi ≤ x → f hi ≤ f x) (hb : f lo ≤ f hi) :
    f (clip lo hi x) = clip (f lo) (f hi) (f x) := by
  unfold clip
  rcases le_total x lo with a | a
  · rw [max_eq_right a, max_eq_right (hlo a), min_eq_left h, min_eq_left hb]
  · rw [max_eq_left a, max_eq_left (hlo' a)]
    rcases le_total x hi with b | b
    · rw [min_eq_left b, min_eq_left (hhi b)]
    · rw [min_eq_right b, min_eq_right (hhi' b)]

/-- What the fit gives: a parameter within its bounds, the rotation with the greatest likelihood, and a copula whose Kendall's tau is the absolute value of the sample's, moved into the range
of the family, with the sign of the rotation. -/
structure FitsTau (cdf : ℝ → ℝ × ℝ → ℝ) (density : ℝ → ℝ × ℝ → ℝ) (score : ℝ → ℝ × ℝ → ℝ) (lo hi tlo thi : ℝ) (X : List (ℝ × ℝ)) (τ : ℝ) (f : FittedCopula) (θ : ℝ) : Prop where
  theta : f.theta = some θ
  bounds : lo ≤ θ ∧ θ ≤ hi
  best : ∀ r, (X.map fun x => score θ (applyRotation r x)).sum ≤ (X.map fun x => score θ (applyRotation f.rotation x)).sum
  copula : IsCopula (rotationCdf (cdf θ) f.rotation)
  kendall : IsKendall (rotationCdf (cdf θ) f.rotation) (fun x => density θ (applyRotation f.rotation x)) (f.rotation.sign * clip tlo thi |τ|)

theorem sign_kendall {C c : ℝ × ℝ → ℝ} {τ : ℝ} {r : Rotation} (h : IsKendall C c (match r with | .r0 | .r180 => τ | .r90 | .r270 => -τ)) : IsKendall C c (r.sign * τ) := by
  cases r <;> simp only [Rotation.sign, one_mul, neg_mul] <;> exact h

/-! ### Clayton -/

theorem claytonScore_symm {θ u v : ℝ} : claytonScore θ (v, u) = claytonScore θ (u, v) := by
  simp only [claytonScore, add_comm (log v), add_comm (exp (-θ * log v) - 1)]

theorem clayton_rotated {θ : ℝ} (hθ : 0 < θ) (r : Rotation) :
    IsKendall (rotationCdf (claytonCdf θ) r) (fun x => exp (claytonScore θ (applyRotation r x))) (r.sign * (θ / (θ + 2))) :=
  sign_kendall ((clayton_generated hθ).rotated (fun u v _ _ => clayton_symm θ v u) (fun _ _ _ _ => congrArg exp claytonScore_symm) (clayton_kendall hθ) r)

theorem clayton_inversion {t : ℝ} (h0 : 0 ≤ t) :
    clip claytonLo claytonHi (2 * (if 9999 / 10000 < t then 9999 / 10000 else t) / (1 - (if 9999 / 10000 < t then 9999 / 10000 else t))) /
      (clip claytonLo claytonHi (2 * (if 9999 / 10000 < t then 9999 / 10000 else t) / (1 - (if 9999 / 10000 < t then 9999 / 10000 else t))) + 2) = clip (1 / 20001) (25 / 26) t := by
  have mono : ∀ a b : ℝ, 0 ≤ a → a ≤ b → a / (a + 2) ≤ b / (b + 2) := by
    intro a b ha hab
    rw [div_le_div_iff₀ (by linarith) (by linarith)]
    nlinarith
  obtain ⟨s, hs⟩ : ∃ s : ℝ, s = if 9999 / 10000 < t then 9999 / 10000 else t := ⟨_, rfl⟩
  rw [← hs]
  have s0 : 0 ≤ s := by rw [hs]; split_ifs <;> linarith
  have s1 : s ≤ 9999 / 10000 := by rw [hs]; split_ifs <;> linarith
  have x0 : 0 ≤ 2 * s / (1 - s) := div_nonneg (by linarith) (by linarith)
  have hx : 2 * s / (1 - s) / (2 * s / (1 - s) + 2) = s := by
    have : 1 - s ≠ 0 := by linarith
    field_simp
    ring
  have := clip_map (lo := claytonLo) (hi := claytonHi) (x := 2 * s / (1 - s)) (fun x => x / (x + 2)) (by norm_num [claytonLo, claytonHi]) (mono _ _ x0) (mono _ _ (by norm_num [claytonLo]))
    (mono _ _ x0) (mono _ _ (by norm_num [claytonHi])) (mono _ _ (by norm_num [claytonLo]) (by norm_num [claytonLo, claytonHi]))
  rw [this, hx, show claytonLo / (claytonLo + 2) = 1 / 20001 by norm_num [claytonLo], show claytonHi / (claytonHi + 2) = 25 / 26 by norm_num [claytonHi]]
  rw [hs]
  split_ifs with h
  · unfold clip
    rw [max_eq_left (by norm_num), max_eq_left (by linarith), min_eq_right (by norm_num), min_eq_right (by linarith)]
  · rfl

/-- **C90.** `ClaytonCopula.fit`: the tau of the fitted copula is, up to the sign of the rotation, the tau of the sample, moved into `[1/20001, 25/26]`; with a NaN the parameter is NaN. -/
theorem C90_clayton (kt : Option (Flt ℝ)) (X : List (ℝ × ℝ)) (f : FittedCopula) (h : fitClayton kt X = .ok f) :
    (∀ τ, chosenTau kt (clipped X) = .fin τ → ∃ θ, FitsTau claytonCdf (fun θ x => exp (claytonScore θ x)) claytonScore claytonLo claytonHi (1 / 20001) (25 / 26) (clipped X) τ f θ) ∧
    (chosenTau kt (clipped X) = .nan → f.theta = none ∧ f.rotation = .r0) := by
  unfold fitClayton at h
  cases hv : validateMargins X with
  | error e => rw [hv] at h; cases h
  | ok Y =>
    rw [hv] at h
    obtain ⟨rfl, _, _⟩ := validate_ok hv
    have h : withRotation claytonScore (claytonTheta (chosenTau kt (clipped X))) (clipped X) = f := by injection h
    subst h
    refine ⟨fun τ hτ => ?_, fun hn => ?_⟩
    · rw [hτ]
      have hb := clip_mem (lo := claytonLo) (hi := claytonHi) (x := 2 * (if 9999 / 10000 < |τ| then 9999 / 10000 else |τ|) / (1 - (if 9999 / 10000 < |τ| then 9999 / 10000 else |τ|)))
        (by norm_num [claytonLo, claytonHi])
      have hp : 0 < clip claytonLo claytonHi (2 * (if 9999 / 10000 < |τ| then 9999 / 10000 else |τ|) / (1 - (if 9999 / 10000 < |τ| then 9999 / 10000 else |τ|))) :=
        lt_of_lt_of_le (by norm_num [claytonLo]) hb.1
      refine ⟨_, rfl, hb, fun r => rotation_best _ _ _ r, C39_copula _ (clayton_generated hp).copula _, ?_⟩
      rw [← clayton_inversion (abs_nonneg τ)]
      exact clayton_rotated hp _
    · rw [hn]
      exact ⟨rfl, rfl⟩

/-! ### Gumbel -/

theorem gumbel_rotated {θ : ℝ} (hθ : 1 < θ) (r : Rotation) : IsKendall (rotationCdf (gumbelCdf θ) r) (fun x => gumbelDensity θ (applyRotation r x)) (r.sign * (1 - 1 / θ)) :=
  sign_kendall ((gumbel_generated hθ).rotated (fun u v _ _ => gumbel_symm θ v u) (fun u v _ _ => gumbelDensity_symm θ u v) (gumbel_kendall hθ) r)

theorem gumbel_inversion {t : ℝ} (h0 : 0 ≤ t) :
    1 - 1 / clip gumbelLo gumbelHi (1 / (1 - (if 9999 / 10000 < t then 9999 / 10000 else t))) = clip (1 / 10001) (79 / 80) t := by
  have mono : ∀ a b : ℝ, 0 < a → a ≤ b → 1 - 1 / a ≤ 1 - 1 / b := by
    intro a b ha hab
    have := one_div_le_one_div_of_le ha hab
    linarith
  obtain ⟨s, hs⟩ : ∃ s : ℝ, s = if 9999 / 10000 < t then 9999 / 10000 else t := ⟨_, rfl⟩
  rw [← hs]
  have s0 : 0 ≤ s := by rw [hs]; split_ifs <;> linarith
  have s1 : s ≤ 9999 / 10000 := by rw [hs]; split_ifs <;> linarith
  have x0 : 0 < 1 / (1 - s) := div_pos one_pos (by linarith)
  have hx : 1 - 1 / (1 / (1 - s)) = s := by
    rw [one_div_one_div]
    ring
  have := clip_map (lo := gumbelLo) (hi := gumbelHi) (x := 1 / (1 - s)) (fun x => 1 - 1 / x) (by norm_num [gumbelLo, gumbelHi]) (mono _ _ x0) (mono _ _ (by norm_num [gumbelLo]))
    (mono _ _ x0) (mono _ _ (by norm_num [gumbelHi])) (mono _ _ (by norm_num [gumbelLo]) (by norm_num [gumbelLo, gumbelHi]))
  rw [this, hx, show 1 - 1 / gumbelLo = 1 / 10001 by norm_num [gumbelLo], show 1 - 1 / gumbelHi = 79 / 80 by norm_num [gumbelHi]]
  rw [hs]
  split_ifs with h
  · unfold clip
    rw [max_eq_left (by norm_num), max_eq_left (by linarith), min_eq_right (by norm_num), min_eq_right (by linarith)]
  · rfl

/-- **C90.** `GumbelCopula.fit`, with the range `[1/10001, 79/80]`. -/
theorem C90_gumbel (kt : Option (Flt ℝ)) (X : List (ℝ × ℝ)) (f : FittedCopula) (h : fitGumbel kt X = .ok f) :
    (∀ τ, chosenTau kt (clipped X) = .fin τ → ∃ θ, FitsTau gumbelCdf gumbelDensity gumbelScore gumbelLo gumbelHi (1 / 10001) (79 / 80) (clipped X) τ f θ) ∧
    (chosenTau kt (clipped X) = .nan → f.theta = none ∧ f.rotation = .r0) := by
  unfold fitGumbel at h
  cases hv : validateMargins X with
  | error e => rw [hv] at h; cases h
  | ok Y =>
    rw [hv] at h
    obtain ⟨rfl, _, _⟩ := validate_ok hv
    have h : withRotation gumbelScore (gumbelTheta (chosenTau kt (clipped X))) (clipped X) = f := by injection h
    subst h
    refine ⟨fun τ hτ => ?_, fun hn => ?_⟩
    · rw [hτ]
      have hb := clip_mem (lo := gumbelLo) (hi := gumbelHi) (x := 1 / (1 - (if 9999 / 10000 < |τ| then 9999 / 10000 else |τ|))) (by norm_num [gumbelLo, gumbelHi])
      have hp : 1 < clip gumbelLo gumbelHi (1 / (1 - (if 9999 / 10000 < |τ| then 9999 / 10000 else |τ|))) := lt_of_lt_of_le (by norm_num [gumbelLo]) hb.1
      refine ⟨_, rfl, hb, fun r => rotation_best _ _ _ r, C39_copula _ (gumbel_generated hp).copula _, ?_⟩
      rw [← gumbel_inversion (abs_nonneg τ)]
      exact gumbel_rotated hp _
    · rw [hn]
      exact ⟨rfl, rfl⟩

/-! ### Joe -/

theorem joeScore_symm {θ u v : ℝ} : joeScore θ (v, u) = joeScore θ (u, v) := by
  simp only [joeScore, add_comm (log (1 - v)), add_comm (exp (log (1 - v) * θ))]

theorem joe_rotated {θ : ℝ} (hθ : 1 < θ) (r : Rotation) :
    IsKendall (rotationCdf (joeCdf θ) r) (fun x => exp (joeScore θ (applyRotation r x))) (r.sign * (1 - 4 * joeSum θ)) :=
  sign_kendall ((joe_generated hθ).rotated (fun u v _ _ => joe_symm θ v u) (fun _ _ _ _ => congrArg exp joeScore_symm) (joe_kendall hθ) r)

/-- Kendall's tau of the Joe copula. -/
noncomputable def joeTau (θ : ℝ) : ℝ := 1 - 4 * joeSum θ

/-- **C90.** Kendall's tau of the Joe copula is the formula of the code, away from two; at two it is `2 - π² / 6`; it is continuous and strictly increasing. -/
theorem C90_joe_formula :
    (∀ θ, 1 < θ → IsKendall (joeCdf θ) (fun x => exp (joeScore θ x)) (joeTau θ)) ∧
    (∀ θ τ, 1 < θ → tauDiff θ τ = if θ = 2 then none else some (joeTau θ - τ)) ∧ joeTau 2 = 2 - π ^ 2 / 6 ∧ ContinuousOn joeTau (Ici 1) ∧ StrictMonoOn joeTau (Ici 1) := by
  refine ⟨fun θ hθ => joe_kendall hθ, fun θ τ hθ => ?_, joe_tau_two, ?_, ?_⟩
  · unfold tauDiff joeTau
    by_cases h : θ = 2
    · simp [h]
    · rw [if_neg (sub_ne_zero.2 (Ne.symm h)), if_neg h, joe_tau hθ h]
  · exact continuousOn_const.sub (continuousOn_const.mul joeSum_continuous)
  · intro a ha b hb hab
    have := joeSum_anti ha hab
    unfold joeTau
    linarith

/-- What `so.brentq` guarantees, up to its tolerance: a value that it returns is a root between the ends. -/
def BrentqContract (brentq : (ℝ → Option ℝ) → ℝ → ℝ → Except FitErr ℝ) : Prop := ∀ f a b x, brentq f a b = .ok x → a ≤ x ∧ x ≤ b ∧ f x = some 0

theorem joeTheta_fin (brentq : (ℝ → Option ℝ) → ℝ → ℝ → Except FitErr ℝ) (τ : ℝ) :
    joeTheta brentq (.fin τ) = if (joeTau joeLo - |τ|) * (joeTau joeHi - |τ|) > 0 then (if abs (joeTau joeLo - |τ|) < abs (joeTau joeHi - |τ|) then .ok joeLo else .ok joeHi)
      else brentq (fun x => tauDiff x |τ|) joeLo joeHi := by
  obtain ⟨_, F, _, _, _⟩ := C90_joe_formula
  have l1 : 1 < joeLo := by norm_num [joeLo]
  have l2 : 1 < joeHi := by norm_num [joeHi]
  simp only [joeTheta]
  rw [F _ _ l1, F _ _ l2, if_neg (by norm_num [joeLo]), if_neg (by norm_num [joeHi])]

theorem joe_theta (brentq : (ℝ → Option ℝ) → ℝ → ℝ → Except FitErr ℝ) (hb : BrentqContract brentq) {τ θ : ℝ} (h : joeTheta brentq (.fin τ) = .ok θ) :
    (joeLo ≤ θ ∧ θ ≤ joeHi) ∧ joeTau θ = clip (joeTau joeLo) (joeTau joeHi) |τ| := by
  obtain ⟨_, F, _, _, M⟩ := C90_joe_formula
  have l1 : 1 < joeLo := by norm_num [joeLo]
  have l2 : 1 < joeHi := by norm_num [joeHi]
  have l3 : joeLo < joeHi := by norm_num [joeLo, joeHi]
  have mm := M (show joeLo ∈ Ici 1 from l1.le) (show joeHi ∈ Ici 1 from l2.le) l3
  rw [joeTheta_fin] at h
  unfold clip
  split_ifs at h with h1 h2
  · cases h
    refine ⟨⟨le_refl _, l3.le⟩, ?_⟩
    have : |τ| ≤ joeTau joeLo := by
      by_contra hc
      push Not at hc
      have hlt : joeTau joeHi < |τ| := by nlinarith
      rw [abs_of_neg (show joeTau joeLo - |τ| < 0 by linarith), abs_of_neg (show joeTau joeHi - |τ| < 0 by linarith)] at h2
      linarith
    rw [max_eq_right this, min_eq_left mm.le]
  · cases h
    refine ⟨⟨l3.le, le_refl _⟩, ?_⟩
    have : joeTau joeHi ≤ |τ| := by
      by_contra hc
      push Not at hc
      have hlt : |τ| < joeTau joeLo := by nlinarith
      rw [abs_of_pos (show 0 < joeTau joeLo - |τ| by linarith), abs_of_pos (show 0 < joeTau joeHi - |τ| by linarith)] at h2
      linarith
    rw [max_eq_left (by linarith), min_eq_right this]
  · obtain ⟨k1, k2, k3⟩ := hb _ _ _ _ h
    refine ⟨⟨k1, k2⟩, ?_⟩
    rw [F _ _ (by linarith)] at k3
    split_ifs at k3 with k4
    have k5 : joeTau θ = |τ| := by
      have := Option.some.inj k3
      linarith
    have a := M.monotoneOn (show joeLo ∈ Ici 1 from l1.le) (show θ ∈ Ici 1 from (l1.le.trans k1)) k1
    have b := M.monotoneOn (show θ ∈ Ici 1 from (l1.le.trans k1)) (show joeHi ∈ Ici 1 from l2.le) k2
    rw [max_eq_left (by linarith), min_eq_left (by linarith), k5]

/-- **C90.** `JoeCopula.fit`: the same, with the tau of the Joe copulas at the bounds; a NaN is an error. -/
theorem C90_joe (brentq : (ℝ → Option ℝ) → ℝ → ℝ → Except FitErr ℝ) (hb : BrentqContract brentq) (kt : Option (Flt ℝ)) (X : List (ℝ × ℝ)) :
    (∀ f τ, fitJoe brentq kt X = .ok f → chosenTau kt (clipped X) = .fin τ →
      ∃ θ, FitsTau joeCdf (fun θ x => exp (joeScore θ x)) joeScore joeLo joeHi (joeTau joeLo) (joeTau joeHi) (clipped X) τ f θ) ∧
    (chosenTau kt (clipped X) = .nan → ∀ f, fitJoe brentq kt X ≠ .ok f) := by
  have key : ∀ f, fitJoe brentq kt X = .ok f → ∃ θ, joeTheta brentq (chosenTau kt (clipped X)) = .ok θ ∧ f = withRotation joeScore (some θ) (clipped X) := by
    intro f h
    unfold fitJoe at h
    cases hv : validateMargins X with
    | error e => rw [hv] at h; cases h
    | ok Y =>
      rw [hv] at h
      obtain ⟨rfl, _, _⟩ := validate_ok hv
      cases ht : joeTheta brentq (chosenTau kt (clipped X)) with
      | error e =>
        simp only [bind, Except.bind, ht] at h
        cases h
      | ok θ =>
        simp only [bind, Except.bind, ht, pure, Except.pure, Except.ok.injEq] at h
        exact ⟨θ, rfl, h.symm⟩
  constructor
  · intro f τ h hτ
    obtain ⟨θ, h1, rfl⟩ := key f h
    rw [hτ] at h1
    obtain ⟨k1, k2⟩ := joe_theta brentq hb h1
    have hθ : 1 < θ := lt_of_lt_of_le (by norm_num [joeLo]) k1.1
    refine ⟨θ, rfl, k1, fun r => rotation_best _ _ _ r, C39_copula _ (joe_generated hθ).copula _, ?_⟩
    rw [← k2]
    exact joe_rotated hθ _
  · intro hn f h
    obtain ⟨θ, h1, _⟩ := key f h
    rw [hn] at h1
    cases h1

/-- **C90.** A root finder that meets the contract exists and finds the parameter for every tau in the range but one: with `2 - π² / 6`, whose parameter is two, no fit can succeed. -/
theorem C90_joe_two :
    (∃ brentq, BrentqContract brentq ∧ ∀ τ, |τ| ≠ 2 - π ^ 2 / 6 → ∃ θ, joeTheta brentq (.fin τ) = .ok θ) ∧
    (∀ brentq, BrentqContract brentq → ∀ X θ, joeTheta brentq (.fin (2 - π ^ 2 / 6)) ≠ .ok θ ∧ ∀ f, fitJoe brentq (some (.fin (2 - π ^ 2 / 6))) X ≠ .ok f) := by
  obtain ⟨_, F, T, Cn, M⟩ := C90_joe_formula
  have l1 : 1 < joeLo := by norm_num [joeLo]
  have l2 : 1 < joeHi := by norm_num [joeHi]
  have l3 : joeLo < joeHi := by norm_num [joeLo, joeHi]
  have mm := M (show joeLo ∈ Ici 1 from l1.le) (show joeHi ∈ Ici 1 from l2.le) l3
  constructor
  · classical
    let solve : (ℝ → Option ℝ) → ℝ → ℝ → Except FitErr ℝ := fun f a b => if h : ∃ x, a ≤ x ∧ x ≤ b ∧ f x = some 0 then .ok h.choose else .error .failed
    refine ⟨solve, ?_, ?_⟩
    · intro f a b x h
      simp only [solve] at h
      split_ifs at h with hx
      cases h
      exact hx.choose_spec
    · intro τ hτ
      rw [joeTheta_fin]
      split_ifs with h1 h2
      · exact ⟨_, rfl⟩
      · exact ⟨_, rfl⟩
      · have hr : joeTau joeLo ≤ |τ| ∧ |τ| ≤ joeTau joeHi := by
          constructor <;> by_contra hc <;> push Not at hc <;> apply h1
          · exact mul_pos (by linarith) (by linarith)
          · exact mul_pos_of_neg_of_neg (by linarith) (by linarith)
        obtain ⟨θ, hθ, e⟩ := intermediate_value_Icc l3.le (Cn.mono fun x hx => l1.le.trans hx.1) hr
        have h2 : θ ≠ 2 := by
          rintro rfl
          exact hτ (by rw [← e, T])
        have hx : ∃ x, joeLo ≤ x ∧ x ≤ joeHi ∧ tauDiff x |τ| = some 0 := ⟨θ, hθ.1, hθ.2, by rw [F _ _ (lt_of_lt_of_le l1 hθ.1), if_neg h2, e, sub_self]⟩
        simp only [solve, dif_pos hx]
        exact ⟨_, rfl⟩
  · intro brentq hb X θ
    have t0 : joeTau joeLo < joeTau 2 := M (show joeLo ∈ Ici 1 from l1.le) (show (2 : ℝ) ∈ Ici 1 by norm_num) (by norm_num [joeLo])
    have t1 : joeTau 2 < joeTau joeHi := M (show (2 : ℝ) ∈ Ici 1 by norm_num) (show joeHi ∈ Ici 1 from l2.le) (by norm_num [joeHi])
    have hpos : 0 ≤ 2 - π ^ 2 / 6 := by
      have := pi_lt_d2
      nlinarith [pi_pos]
    have no : ∀ θ, joeTheta brentq (.fin (2 - π ^ 2 / 6)) ≠ .ok θ := by
      intro θ h
      rw [joeTheta_fin, abs_of_nonneg hpos, ← T] at h
      rw [if_neg (by nlinarith)] at h
      obtain ⟨k1, k2, k3⟩ := hb _ _ _ _ h
      rw [F _ _ (by linarith)] at k3
      split_ifs at k3 with k4
      have k5 : joeTau θ = joeTau 2 := by
        have := Option.some.inj k3
        linarith
      exact k4 (M.injOn (show θ ∈ Ici 1 from (l1.le.trans k1)) (show (2 : ℝ) ∈ Ici 1 by norm_num) k5)
    refine ⟨no θ, fun f h => ?_⟩
    unfold fitJoe at h
    cases hv : validateMargins X with
    | error e => rw [hv] at h; cases h
    | ok Y =>
      rw [hv] at h
      cases ht : joeTheta brentq (.fin (2 - π ^ 2 / 6)) with
      | error e =>
        simp only [bind, Except.bind, chosenTau, ht] at h
        cases h
      | ok θ => exact no θ ht

/-! ### the elliptical copulas -/

theorem arcsin_rho {τ : ℝ} (h : |τ| ≤ 1) : 2 / π * arcsin (sin (π * τ / 2)) = τ := by
  have hπ := pi_pos
  have h1 := abs_le.1 h
  rw [arcsin_sin (by nlinarith) (by nlinarith)]
  field_simp

/-- **C90.** `GaussianCopula.fit` and `StudentTCopula.fit`: the correlation is between its bounds, and `(2 / π) arcsin` of it, the tau of an elliptical copula, is the tau of the sample unless
the correlation is at a bound; it is odd in the tau. With a NaN it is NaN. `FitElliptical.lean` shows that the elliptical copulas have this tau. -/
theorem C90_elliptical_rho (minimize : Option ℝ → List (ℝ × ℝ) → Option ℝ) (kt : Option (Flt ℝ)) (X : List (ℝ × ℝ)) :
    (∀ r, fitGaussian kt X = .ok r → r = rhoOfTau (chosenTau kt (clipped X))) ∧
    (∀ d r, fitStudent minimize kt X = .ok (d, r) → r = rhoOfTau (chosenTau kt (clipped X)) ∧ minimize r (clipped X) = some d) ∧
    (∀ t, rhoOfTau t = none ↔ ∀ τ, t ≠ .fin τ) ∧ (∀ t, rhoOfTau (negFlt t) = (rhoOfTau t).map (- ·)) ∧
    (∀ τ ρ, rhoOfTau (.fin τ) = some ρ → |ρ| ≤ rhoHi ∧ (|τ| ≤ 1 → (|ρ| < rhoHi → 2 / π * arcsin ρ = τ) ∧ (0 < τ ↔ 0 < ρ) ∧ (τ < 0 ↔ ρ < 0))) := by
  have h0 : (0 : ℝ) < rhoHi := by norm_num [rhoHi]
  refine ⟨?_, ?_, ?_, ?_, ?_⟩
  · intro r h
    unfold fitGaussian at h
    cases hv : validateMargins X with
    | error e => rw [hv] at h; cases h
    | ok Y =>
      rw [hv] at h
      obtain ⟨rfl, _, _⟩ := validate_ok hv
      injection h with h
      exact h.symm
  · intro d r h
    unfold fitStudent at h
    cases hv : validateMargins X with
    | error e => rw [hv] at h; cases h
    | ok Y =>
      rw [hv] at h
      obtain ⟨rfl, _, _⟩ := validate_ok hv
      simp only [bind, Except.bind] at h
      cases hm : minimize (rhoOfTau (chosenTau kt (clipped X))) (clipped X) with
      | none => rw [hm] at h; cases h
      | some d' =>
        rw [hm] at h
        injection h with h
        cases h
        exact ⟨rfl, hm⟩
  · intro t
    cases t <;> simp [rhoOfTau]
  · intro t
    cases t with
    | fin t =>
      simp only [negFlt, rhoOfTau, Option.map_some, Option.some.injEq, mul_neg, neg_div, sin_neg, clip]
      rcases le_total (sin (π * t / 2)) rhoHi with a | a <;> rcases le_total (-rhoHi) (sin (π * t / 2)) with b | b
      · rw [max_eq_left b, min_eq_left a, max_eq_left (by linarith), min_eq_left (by linarith)]
      · rw [max_eq_right b, min_eq_left (by linarith : -rhoHi ≤ rhoHi), max_eq_left (by linarith), min_eq_right (by linarith), neg_neg]
      · rw [max_eq_left b, min_eq_right a, max_eq_right (by linarith), min_eq_left (by linarith)]
      · linarith
    | _ => rfl
  · intro τ ρ h
    simp only [rhoOfTau, Option.some.injEq] at h
    have hm := clip_mem (lo := -rhoHi) (hi := rhoHi) (x := sin (π * τ / 2)) (by linarith)
    rw [h] at hm
    refine ⟨abs_le.2 hm, fun hτ => ?_⟩
    have hπ := pi_pos
    have ht := abs_le.1 hτ
    have key : (0 < τ → 0 < ρ) ∧ (τ < 0 → ρ < 0) ∧ (τ = 0 → ρ = 0) := by
      refine ⟨fun hp => ?_, fun hn => ?_, fun hz => ?_⟩
      · have : 0 < sin (π * τ / 2) := sin_pos_of_pos_of_lt_pi (by positivity) (by nlinarith)
        rw [← h]
        unfold clip
        exact lt_min (lt_of_lt_of_le this (le_max_left _ _)) h0
      · have : sin (π * τ / 2) < 0 := sin_neg_of_neg_of_neg_pi_lt (by nlinarith) (by nlinarith)
        rw [← h]
        unfold clip
        exact lt_of_le_of_lt (min_le_left _ _) (max_lt this (by linarith))
      · rw [← h, hz]
        simp only [mul_zero, zero_div, sin_zero, clip]
        rw [max_eq_left (by linarith), min_eq_left h0.le]
    refine ⟨fun hρ => ?_, ⟨key.1, fun hp => ?_⟩, key.2.1, fun hp => ?_⟩
    · have e : ρ = sin (π * τ / 2) := by
        have hρ := abs_lt.1 hρ
        rw [← h] at hρ ⊢
        unfold clip at hρ ⊢
        rw [min_eq_left, max_eq_left]
        · by_contra hc
          push Not at hc
          rw [max_eq_right hc.le, min_eq_left (by linarith)] at hρ
          linarith [hρ.1]
        · by_contra hc
          push Not at hc
          rw [min_eq_right hc.le] at hρ
          linarith [hρ.2]
      rw [e]
      exact arcsin_rho hτ
    · rcases lt_trichotomy τ 0 with k | k | k
      · linarith [key.2.1 k]
      · linarith [key.2.2 k]
      · exact k
    · rcases lt_trichotomy τ 0 with k | k | k
      · exact k
      · linarith [key.2.2 k]
      · linarith [key.1 k]

/-- **C90.** A `kendall_tau` that is no tau is accepted: two gives the correlation zero, and three the least one; the sign of a `kendall_tau` has no effect on the Archimedean copulas. -/
theorem C90_argument_unchecked (X : List (ℝ × ℝ)) (hX : X ≠ []) (hu : ∀ x ∈ X, Unit x.1 ∧ Unit x.2) (brentq : (ℝ → Option ℝ) → ℝ → ℝ → Except FitErr ℝ) (τ : ℝ) :
    fitGaussian (some (.fin 2)) X = .ok (some 0) ∧ fitGaussian (some (.fin 3)) X = .ok (some (-rhoHi)) ∧
    fitClayton (some (.fin (-τ))) X = fitClayton (some (.fin τ)) X ∧ fitGumbel (some (.fin (-τ))) X = fitGumbel (some (.fin τ)) X ∧
    fitJoe brentq (some (.fin (-τ))) X = fitJoe brentq (some (.fin τ)) X := by
  have h0 : (0 : ℝ) < rhoHi := by norm_num [rhoHi]
  have hv : validateMargins X = .ok (clipped X) := by
    unfold validateMargins
    rw [if_neg hX]
    exact if_pos hu
  refine ⟨?_, ?_, ?_, ?_, ?_⟩
  · unfold fitGaussian
    rw [hv]
    simp only [bind, Except.bind, pure, Except.pure, chosenTau, rhoOfTau, clip]
    rw [show π * 2 / 2 = π by ring, sin_pi, max_eq_left (by linarith), min_eq_left h0.le]
  · unfold fitGaussian
    rw [hv]
    simp only [bind, Except.bind, pure, Except.pure, chosenTau, rhoOfTau, clip]
    rw [show π * 3 / 2 = π / 2 + π by ring, sin_add_pi, sin_pi_div_two, max_eq_right (by norm_num [rhoHi]), min_eq_left (by linarith)]
  · simp only [fitClayton, chosenTau, claytonTheta, absTau, abs_neg]
  · simp only [fitGumbel, chosenTau, gumbelTheta, absTau, abs_neg]
  · simp only [fitJoe, chosenTau, joeTheta, abs_neg]

/-- **C90.** A constant column: the fits of the Clayton, Gumbel and Gaussian copulas succeed with the parameter NaN, and that of the Joe copula fails. -/
theorem C90_constant_column (X : List (ℝ × ℝ)) (hX : X ≠ []) (hu : ∀ x ∈ X, Unit x.1 ∧ Unit x.2) (hc : (∀ a ∈ X, ∀ b ∈ X, a.1 = b.1) ∨ ∀ a ∈ X, ∀ b ∈ X, a.2 = b.2)
    (brentq : (ℝ → Option ℝ) → ℝ → ℝ → Except FitErr ℝ) :
    fitClayton none X = .ok ⟨none, .r0⟩ ∧ fitGumbel none X = .ok ⟨none, .r0⟩ ∧ fitGaussian none X = .ok none ∧ fitJoe brentq none X = .error .notNumber := by
  have hv : validateMargins X = .ok (clipped X) := by
    unfold validateMargins
    rw [if_neg hX]
    exact if_pos hu
  have hn : kendalltau (clipped X) = .nan := by
    rw [(C90_sample_tau _).1]
    refine hc.imp (fun h => ?_) fun h => ?_ <;> intro a ha b hb <;> obtain ⟨x, hx, rfl⟩ := List.mem_map.1 ha <;> obtain ⟨y, hy, rfl⟩ := List.mem_map.1 hb
    · simp only [h x hx y hy]
    · simp only [h x hx y hy]
  refine ⟨?_, ?_, ?_, ?_⟩
  · simp only [fitClayton, hv, bind, Except.bind, pure, Except.pure, chosenTau, hn, claytonTheta, absTau, Option.map_none, theta_nan]
  · simp only [fitGumbel, hv, bind, Except.bind, pure, Except.pure, chosenTau, hn, gumbelTheta, absTau, Option.map_none, theta_nan]
  · simp only [fitGaussian, hv, bind, Except.bind, pure, Except.pure, chosenTau, hn, rhoOfTau]
  · simp only [fitJoe, hv, bind, Except.bind, chosenTau, hn, joeTheta]

/-! ### the sign -/

/-- The density of the Clayton copula with the parameter one half, at squares. -/
noncomputable def halfDensity (p q : ℝ) : ℝ := 3 / 2 / ((1 / p + 1 / q - 1) ^ 4 * (p * q) ^ 3)

theorem half_score {p q : ℝ} (hp : 0 < p) (hq : 0 < q) (hp1 : p ≤ 1) (hq1 : q ≤ 1) : claytonScore (1 / 2) (p ^ 2, q ^ 2) = log (halfDensity p q) := by
  have e : ∀ p : ℝ, 0 < p → exp (-(1 / 2) * log (p ^ 2)) = 1 / p := by
    intro p hp
    rw [log_pow, show -(1 / 2) * (((2 : ℕ) : ℝ) * log p) = -log p by push_cast; ring, exp_neg, exp_log hp, one_div]
  have h1 : 1 ≤ 1 / p := by rw [le_div_iff₀ hp]; linarith
  have h2 : 1 ≤ 1 / q := by rw [le_div_iff₀ hq]; linarith
  have h3 : 0 < 1 / p + 1 / q - 1 := by linarith
  simp only [claytonScore, halfDensity]
  rw [e p hp, e q hq, log_div (by norm_num) (by positivity), log_mul (by positivity) (by positivity), log_pow, log_pow, log_pow, log_pow, log_mul hp.ne' hq.ne',
    show 1 + (1 / p - 1 + (1 / q - 1)) = 1 / p + 1 / q - 1 by ring, show (1 : ℝ) + 1 / 2 = 3 / 2 by norm_num]
  push_cast
  ring

/-- One pair at the corner, and four pairs on the other diagonal. -/
noncomputable def cornerData : List (ℝ × ℝ) :=
  [((20 / 101) ^ 2, (20 / 101) ^ 2), ((3 / 5) ^ 2, (4 / 5) ^ 2), ((20 / 29) ^ 2, (21 / 29) ^ 2), ((21 / 29) ^ 2, (20 / 29) ^ 2), ((4 / 5) ^ 2, (3 / 5) ^ 2)]

theorem corner_tau : kendalltau cornerData = .fin (-1 / 5) := by
  have hs : ∀ a b : ℝ, a < b → sgn a b = 1 := fun a b h => by simp [sgn, h]
  have hs' : ∀ a b : ℝ, b < a → sgn a b = -1 := fun a b h => by simp [sgn, h, not_lt.2 h.le]
  have e1 : pairSum (fun a b => sgn a.1 b.1 * sgn a.2 b.2) cornerData = -2 := by
    simp only [cornerData, pairSum, List.map_cons, List.map_nil, List.sum_cons, List.sum_nil]
    norm_num [sgn]
  have e2 : pairSum (fun a b => sgn a.1 b.1 ^ 2) cornerData = 10 := by
    simp only [cornerData, pairSum, List.map_cons, List.map_nil, List.sum_cons, List.sum_nil]
    norm_num [sgn]
  have e3 : pairSum (fun a b => sgn a.2 b.2 ^ 2) cornerData = 10 := by
    simp only [cornerData, pairSum, List.map_cons, List.map_nil, List.sum_cons, List.sum_nil]
    norm_num [sgn]
  simp only [kendalltau, e1, e2, e3]
  rw [if_neg (by norm_num), div_div, Real.mul_self_sqrt (by norm_num), min_eq_right (by norm_num), max_eq_right (by norm_num)]
  norm_num

theorem corner_clipped : clipped cornerData = cornerData := by
  simp only [clipped, cornerData, List.map_cons, List.map_nil, clipMarginal, marginalEpsilon]
  norm_num

theorem log_sum {l : List ℝ} (h : ∀ x ∈ l, 0 < x) : (l.map log).sum = log l.prod := by
  induction l with
  | nil => simp
  | cons a l ih =>
    have hl : ∀ x ∈ l, 0 < x := fun x hx => h x (List.mem_cons_of_mem _ hx)
    rw [List.map_cons, List.sum_cons, ih hl, List.prod_cons, log_mul (h a (by simp)).ne' (List.prod_pos hl).ne']

/-- **C90.** The sign is lost: data in the unit square whose Kendall's tau is `-1/5` and to which the Clayton copula fitted has the tau `+1/5`, since the rotation is chosen by the likelihood. -/
theorem C90_sign_false : ∃ (X : List (ℝ × ℝ)) (f : FittedCopula), IsSampleTau X (-1 / 5) ∧ fitClayton none X = .ok f ∧ f.rotation = .r0 ∧ f.theta = some (1 / 2) ∧
    IsKendall (rotationCdf (claytonCdf (1 / 2)) f.rotation) (fun x => exp (claytonScore (1 / 2) (applyRotation f.rotation x))) (1 / 5) := by
  have hv : validateMargins cornerData = .ok cornerData := by
    unfold validateMargins
    rw [if_neg (by simp [cornerData]), if_pos (by simp [cornerData]; norm_num)]
    exact congrArg _ corner_clipped
  have ht : claytonTheta (.fin (-1 / 5)) = some (1 / 2) := by
    simp only [claytonTheta, absTau, Option.map_some, Option.some.injEq, clip, claytonLo, claytonHi]
    rw [show |(-1 / 5 : ℝ)| = 1 / 5 by rw [abs_of_neg (by norm_num)]; norm_num, if_neg (by norm_num)]
    norm_num
  have comp : ∀ p q : ℝ, p ^ 2 + q ^ 2 = 1 → 1 - p ^ 2 = q ^ 2 := fun p q h => by linarith
  have c1 := comp (20 / 101) (99 / 101) (by norm_num)
  have c2 := comp (3 / 5) (4 / 5) (by norm_num)
  have c3 := comp (4 / 5) (3 / 5) (by norm_num)
  have c4 := comp (20 / 29) (21 / 29) (by norm_num)
  have c5 := comp (21 / 29) (20 / 29) (by norm_num)
  have hr : (withRotation claytonScore (some (1 / 2)) cornerData).rotation = .r0 := by
    have L : ∀ a b c d e : ℝ, 0 < a → 0 < b → 0 < c → 0 < d → 0 < e → log a + (log b + (log c + (log d + (log e + 0)))) = log (a * (b * (c * (d * e)))) := by
      intro a b c d e ha hb hc hd he
      rw [add_zero, ← log_mul hd.ne' he.ne', ← log_mul hc.ne' (by positivity), ← log_mul hb.ne' (by positivity), ← log_mul ha.ne' (by positivity)]
    have pos : ∀ p q : ℝ, 0 < p → 0 < q → p ≤ 1 → q ≤ 1 → 0 < halfDensity p q := by
      intro p q hp hq hp1 hq1
      have h1 : 1 ≤ 1 / p := by rw [le_div_iff₀ hp]; linarith
      have h2 : 1 ≤ 1 / q := by rw [le_div_iff₀ hq]; linarith
      have h3 : 0 < 1 / p + 1 / q - 1 := by linarith
      unfold halfDensity
      positivity
    have five : ∀ p1 q1 p2 q2 p3 q3 p4 q4 p5 q5 : ℝ, (∀ x ∈ [p1, q1, p2, q2, p3, q3, p4, q4, p5, q5], 0 < x ∧ x ≤ 1) →
        (([(p1 ^ 2, q1 ^ 2), (p2 ^ 2, q2 ^ 2), (p3 ^ 2, q3 ^ 2), (p4 ^ 2, q4 ^ 2), (p5 ^ 2, q5 ^ 2)] : List (ℝ × ℝ)).map (claytonScore (1 / 2))).sum =
          log (halfDensity p1 q1 * (halfDensity p2 q2 * (halfDensity p3 q3 * (halfDensity p4 q4 * halfDensity p5 q5)))) := by
      intro p1 q1 p2 q2 p3 q3 p4 q4 p5 q5 h
      simp only [List.mem_cons, List.not_mem_nil, or_false, forall_eq_or_imp, forall_eq] at h
      obtain ⟨⟨a1, b1⟩, ⟨a2, b2⟩, ⟨a3, b3⟩, ⟨a4, b4⟩, ⟨a5, b5⟩, ⟨a6, b6⟩, ⟨a7, b7⟩, ⟨a8, b8⟩, ⟨a9, b9⟩, a10, b10⟩ := h
      simp only [List.map_cons, List.map_nil, List.sum_cons, List.sum_nil]
      rw [half_score a1 a2 b1 b2, half_score a3 a4 b3 b4, half_score a5 a6 b5 b6, half_score a7 a8 b7 b8, half_score a9 a10 b9 b10]
      exact L _ _ _ _ _ (pos _ _ a1 a2 b1 b2) (pos _ _ a3 a4 b3 b4) (pos _ _ a5 a6 b5 b6) (pos _ _ a7 a8 b7 b8) (pos _ _ a9 a10 b9 b10)
    have m0 : cornerData.map (applyRotation .r0) = [((20 / 101) ^ 2, (20 / 101) ^ 2), ((3 / 5) ^ 2, (4 / 5) ^ 2), ((20 / 29) ^ 2, (21 / 29) ^ 2), ((21 / 29) ^ 2, (20 / 29) ^ 2), ((4 / 5) ^ 2, (3 / 5) ^ 2)] := rfl
    have m1 : cornerData.map (applyRotation .r90) = [((20 / 101) ^ 2, (99 / 101) ^ 2), ((4 / 5) ^ 2, (4 / 5) ^ 2), ((21 / 29) ^ 2, (21 / 29) ^ 2), ((20 / 29) ^ 2, (20 / 29) ^ 2), ((3 / 5) ^ 2, (3 / 5) ^ 2)] := by
      simp only [cornerData, List.map_cons, List.map_nil, applyRotation, c1, c2, c3, c4, c5]
    have m2 : cornerData.map (applyRotation .r180) = [((99 / 101) ^ 2, (99 / 101) ^ 2), ((4 / 5) ^ 2, (3 / 5) ^ 2), ((21 / 29) ^ 2, (20 / 29) ^ 2), ((20 / 29) ^ 2, (21 / 29) ^ 2), ((3 / 5) ^ 2, (4 / 5) ^ 2)] := by
      simp only [cornerData, List.map_cons, List.map_nil, applyRotation, c1, c2, c3, c4, c5]
    have m3 : cornerData.map (applyRotation .r270) = [((99 / 101) ^ 2, (20 / 101) ^ 2), ((3 / 5) ^ 2, (3 / 5) ^ 2), ((20 / 29) ^ 2, (20 / 29) ^ 2), ((21 / 29) ^ 2, (21 / 29) ^ 2), ((4 / 5) ^ 2, (4 / 5) ^ 2)] := by
      simp only [cornerData, List.map_cons, List.map_nil, applyRotation, c1, c2, c3, c4, c5]
    have n0 : negLogLik claytonScore (some (1 / 2)) (cornerData.map (applyRotation .r0)) = .fin (-log (halfDensity (20 / 101) (20 / 101) * (halfDensity (3 / 5) (4 / 5) * (halfDensity (20 / 29) (21 / 29) * (halfDensity (21 / 29) (20 / 29) * halfDensity (4 / 5) (3 / 5)))))) := by
      simp only [negLogLik]
      rw [m0, five _ _ _ _ _ _ _ _ _ _ (by norm_num)]
    have n1 : negLogLik claytonScore (some (1 / 2)) (cornerData.map (applyRotation .r90)) = .fin (-log (halfDensity (20 / 101) (99 / 101) * (halfDensity (4 / 5) (4 / 5) * (halfDensity (21 / 29) (21 / 29) * (halfDensity (20 / 29) (20 / 29) * halfDensity (3 / 5) (3 / 5)))))) := by
      simp only [negLogLik]
      rw [m1, five _ _ _ _ _ _ _ _ _ _ (by norm_num)]
    have n2 : negLogLik claytonScore (some (1 / 2)) (cornerData.map (applyRotation .r180)) = .fin (-log (halfDensity (99 / 101) (99 / 101) * (halfDensity (4 / 5) (3 / 5) * (halfDensity (21 / 29) (20 / 29) * (halfDensity (20 / 29) (21 / 29) * halfDensity (3 / 5) (4 / 5)))))) := by
      simp only [negLogLik]
      rw [m2, five _ _ _ _ _ _ _ _ _ _ (by norm_num)]
    have n3 : negLogLik claytonScore (some (1 / 2)) (cornerData.map (applyRotation .r270)) = .fin (-log (halfDensity (99 / 101) (20 / 101) * (halfDensity (3 / 5) (3 / 5) * (halfDensity (20 / 29) (20 / 29) * (halfDensity (21 / 29) (21 / 29) * halfDensity (4 / 5) (4 / 5)))))) := by
      simp only [negLogLik]
      rw [m3, five _ _ _ _ _ _ _ _ _ _ (by norm_num)]
    simp only [withRotation, selectRotation, rotations, List.map_cons, List.map_nil, n0, n1, n2, n3, pyMin, List.foldl_cons, List.foldl_nil, Option.getD_some, Flt.lt, decide_eq_true_eq]
    have lt : ∀ a b : ℝ, 0 < a → a < b → ¬(-log a < -log b) := fun a b ha hab => by
      have := log_lt_log ha hab
      linarith
    rw [if_neg (lt _ _ (by norm_num [halfDensity]) (by norm_num [halfDensity]))]
    simp only [decide_eq_true_eq]
    rw [if_neg (lt _ _ (by norm_num [halfDensity]) (by norm_num [halfDensity]))]
    simp only [decide_eq_true_eq]
    rw [if_neg (lt _ _ (by norm_num [halfDensity]) (by norm_num [halfDensity]))]
  refine ⟨cornerData, ⟨some (1 / 2), .r0⟩, ((C90_sample_tau _).2.1 _).1 corner_tau, ?_, rfl, rfl, ?_⟩
  · simp only [fitClayton, hv, bind, Except.bind, pure, Except.pure, chosenTau, corner_tau, ht]
    rw [← hr]
    rfl
  · have := clayton_rotated (θ := 1 / 2) (by norm_num) .r0
    norm_num [Rotation.sign] at this ⊢
    exact this

/-! ### turning the data -/

/-- **C90.** The fit turns with the data: data turned by a quarter has the same parameter, and the likelihood of the copula fitted is the same. -/
theorem C90_turned (X : List (ℝ × ℝ)) (f g : FittedCopula) (s : Rotation) (h : fitClayton none X = .ok f) (k : fitClayton none (X.map (applyRotation s)) = .ok g) :
    g.theta = f.theta ∧ ∀ θ, f.theta = some θ →
      ((clipped (X.map (applyRotation s))).map fun x => claytonScore θ (applyRotation g.rotation x)).sum = ((clipped X).map fun x => claytonScore θ (applyRotation f.rotation x)).sum := by
  have hclip : ∀ t : ℝ, clipMarginal (1 - t) = 1 - clipMarginal t := by
    intro t
    have e : marginalEpsilon ≤ 1 - marginalEpsilon := by norm_num [marginalEpsilon]
    unfold clipMarginal
    rcases le_total t marginalEpsilon with a | a
    · rw [max_eq_right a, min_eq_left e, max_eq_left (by linarith), min_eq_right (by linarith)]
    · rw [max_eq_left a]
      rcases le_total t (1 - marginalEpsilon) with b | b
      · rw [min_eq_left b, max_eq_left (by linarith), min_eq_left (by linarith)]
      · rw [min_eq_right b, max_eq_right (by linarith), min_eq_left e]
        ring
  have hc : clipped (X.map (applyRotation s)) = (clipped X).map (applyRotation s) := by
    simp only [clipped, List.map_map]
    refine List.map_congr_left fun x _ => ?_
    cases s <;> simp [applyRotation, hclip]
  have get : ∀ Y f, fitClayton none Y = .ok f → f = withRotation claytonScore (claytonTheta (kendalltau (clipped Y))) (clipped Y) := by
    intro Y f h
    unfold fitClayton at h
    cases hv : validateMargins Y with
    | error e => rw [hv] at h; cases h
    | ok Z =>
      rw [hv] at h
      obtain ⟨rfl, _, _⟩ := validate_ok hv
      injection h with h
      exact h.symm
  have hf := get _ _ h
  have hg := get _ _ k
  rw [hc] at hg ⊢
  obtain ⟨_, i2, i1, i3⟩ := C90_sample_invariant (clipped X)
  have habs : ∀ t, claytonTheta (negFlt t) = claytonTheta t := by
    intro t
    cases t <;> simp [claytonTheta, negFlt, absTau]
  have ht : claytonTheta (kendalltau ((clipped X).map (applyRotation s))) = claytonTheta (kendalltau (clipped X)) := by
    cases s with
    | r0 =>
      have : (applyRotation .r0 : ℝ × ℝ → ℝ × ℝ) = id := rfl
      rw [this, List.map_id]
    | r90 => rw [i1, habs]
    | r180 => rw [i2]
    | r270 => rw [i3, habs]
  rw [ht] at hg
  have hft : f.theta = claytonTheta (kendalltau (clipped X)) := by rw [hf]; rfl
  have hgt : g.theta = claytonTheta (kendalltau (clipped X)) := by rw [hg]; rfl
  refine ⟨hgt.trans hft.symm, fun θ hθ => ?_⟩
  rw [← hft, hθ] at hf hg
  rw [hf, hg]
  have comp : ∀ r s : Rotation, ∃ q : Rotation, ∀ x : ℝ × ℝ, applyRotation r (applyRotation s x) = applyRotation q x := by
    intro r s
    refine ⟨(match r, s with | .r0, .r0 => .r0 | .r0, .r90 => .r90 | .r0, .r180 => .r180 | .r0, .r270 => .r270 | .r90, .r0 => .r90 | .r90, .r90 => .r180 | .r90, .r180 => .r270 | .r90, .r270 => .r0 | .r180, .r0 => .r180 | .r180, .r90 => .r270 | .r180, .r180 => .r0 | .r180, .r270 => .r90 | .r270, .r0 => .r270 | .r270, .r90 => .r0 | .r270, .r180 => .r90 | .r270, .r270 => .r180), fun x => ?_⟩
    cases r <;> cases s <;> simp [applyRotation]
  have back : ∀ r s : Rotation, ∃ q : Rotation, ∀ x : ℝ × ℝ, applyRotation q (applyRotation s x) = applyRotation r x := by
    intro r s
    obtain ⟨q, hq⟩ := comp r s.inverse
    refine ⟨q, fun x => ?_⟩
    rw [← hq, (C39_rotate_back s x).1]
  refine le_antisymm ?_ ?_
  · obtain ⟨q, hq⟩ := comp (withRotation claytonScore (some θ) ((clipped X).map (applyRotation s))).rotation s
    have := rotation_best claytonScore θ (clipped X) q
    rw [List.map_map]
    simp only [Function.comp_def, hq]
    exact this
  · obtain ⟨q, hq⟩ := back (withRotation claytonScore (some θ) (clipped X)).rotation s
    have := rotation_best claytonScore θ ((clipped X).map (applyRotation s)) q
    rw [List.map_map] at this
    simp only [Function.comp_def, hq] at this
    exact this

/-! ### the hypotheses are met -/

/-- Data without a tie that the fits accept. -/
example : ∃ f, fitClayton none cornerData = .ok f ∧ ∃ θ, FitsTau claytonCdf (fun θ x => exp (claytonScore θ x)) claytonScore claytonLo claytonHi (1 / 20001) (25 / 26) (clipped cornerData) (-1 / 5) f θ := by
  have hv : validateMargins cornerData = .ok (clipped cornerData) := by
    unfold validateMargins
    rw [if_neg (by simp [cornerData])]
    exact if_pos (by simp [cornerData]; norm_num)
  obtain ⟨f, hf⟩ : ∃ f, fitClayton none cornerData = .ok f := ⟨_, by rw [fitClayton, hv]; rfl⟩
  exact ⟨f, hf, (C90_clayton none cornerData f hf).1 _ (by rw [corner_clipped]; exact corner_tau)⟩

end Skfolio.Copula
