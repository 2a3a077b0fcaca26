import Verif.Copula.MleModel
import Verif.Copula.FitTheorems
import Verif.ModelSelection.Theorems
import Mathlib.Topology.Order.Compact
import Mathlib.Topology.Algebra.Order.Field

/-!
C130: a copula fitted by maximum likelihood is at least as likely as the others of its family.
-/
set_option autoImplicit false

namespace Skfolio.Copula

open Skfolio.ModelSelection (Flt ext selectThetaRotation)

/-! ### specification -/

/-- `minimize` finds a minimum between the bounds, up to `ε` (what `so.minimize_scalar(method="bounded")` is used for). -/
def Minimises (ε : ℝ) (minimize : (ℝ → ℝ) → ℝ → ℝ → Option (ℝ × ℝ)) : Prop :=
  ∀ f lo hi x v, minimize f lo hi = some (x, v) → (lo ≤ x ∧ x ≤ hi) ∧ v = f x ∧ ∀ y, lo ≤ y → y ≤ hi → f x ≤ f y + ε

/-- `lbfgs` does not end at a point worse than the one where it starts, nor outside of the bounds. -/
def Descends (lbfgs : (ℝ × ℝ → ℝ) → ℝ × ℝ → ℝ × ℝ → ℝ × ℝ → Option (ℝ × ℝ)) : Prop :=
  ∀ f x0 b1 b2 x, lbfgs f x0 b1 b2 = some x → (b1.1 ≤ x.1 ∧ x.1 ≤ b1.2) ∧ (b2.1 ≤ x.2 ∧ x.2 ≤ b2.2) ∧ f x ≤ f x0

/-! ### Archimedean copulas -/

theorem rotated_sum (score : ℝ → ℝ × ℝ → ℝ) (θ : ℝ) (r : Rotation) (X : List (ℝ × ℝ)) :
    negLogLikelihood score θ (X.map (applyRotation r)) = -(X.map fun x => score θ (applyRotation r x)).sum := by
  simp only [negLogLikelihood, List.map_map]
  rfl

/-- **C130.** Maximum likelihood: the score of the fitted copula is, up to the tolerance of the minimiser, at least that of every other parameter within the bounds and every rotation. A rotation for which the minimisation fails is left
out. -/
theorem C130_archimedean (score : ℝ → ℝ × ℝ → ℝ) (lo hi ε : ℝ) (minimize : (ℝ → ℝ) → ℝ → ℝ → Option (ℝ × ℝ)) (hm : Minimises ε minimize) (X : List (ℝ × ℝ)) (f : FittedCopula)
    (h : fitMle score lo hi minimize X = .ok f) :
    ∃ θ s, f.theta = some θ ∧ lo ≤ θ ∧ θ ≤ hi ∧ scoreOf score f X = .ok (some s) ∧
      ∀ θ' r' s', lo ≤ θ' → θ' ≤ hi → minimize (fun t => negLogLikelihood score t ((clipped X).map (applyRotation r'))) lo hi ≠ none →
        scoreOf score ⟨some θ', r'⟩ X = .ok (some s') → s' ≤ s + ε := by
  unfold fitMle at h
  cases hv : validateMargins X with
  | error e => rw [hv] at h; cases h
  | ok Y =>
    rw [hv] at h
    obtain ⟨rfl, _, _⟩ := validate_ok hv
    simp only [bind, Except.bind] at h
    cases hsel : selectThetaRotation (fun Y => (minimize (fun theta => negLogLikelihood score theta Y) lo hi).map fun r => (r.1, Flt.fin r.2)) (clipped X) with
    | none => rw [hsel] at h; cases h
    | some tr =>
      obtain ⟨θ, r⟩ := tr
      rw [hsel] at h
      injection h with h
      subst h
      obtain ⟨m, v, h1, h2, h3⟩ := (ModelSelection.C81_rotation_mle _ _).2 θ r hsel (by
        intro r t m hr
        obtain ⟨p, _, hp⟩ := Option.map_eq_some_iff.1 hr
        cases hp
        simp)
      obtain ⟨⟨x, w⟩, hx, hxe⟩ := Option.map_eq_some_iff.1 h1
      cases hxe
      obtain ⟨hb, hval, hmin⟩ := hm _ _ _ _ _ hx
      refine ⟨x, ((clipped X).map fun y => score x (applyRotation r y)).sum, rfl, hb.1, hb.2, by simp only [scoreOf, hv, bind, Except.bind]; rfl, ?_⟩
      intro θ' r' s' hlo hhi hsuc hs'
      simp only [scoreOf, hv, bind, Except.bind, pure, Except.pure, Except.ok.injEq, Option.map_some, Option.some.injEq] at hs'
      obtain ⟨⟨x', w'⟩, hx'⟩ := Option.ne_none_iff_exists'.1 hsuc
      obtain ⟨hb', hval', hmin'⟩ := hm _ _ _ _ _ hx'
      obtain ⟨u, hu, hle⟩ := h3 r' x' (Flt.fin w') (by rw [hx']; rfl)
      simp only [ext, Option.some.injEq] at h2 hu
      subst h2 hu
      have hww : w ≤ w' := by simpa [Prod.Lex.toLex_le_toLex] using hle
      have := hmin' θ' hlo hhi
      rw [rotated_sum] at hval
      have e2 : w' = negLogLikelihood score x' ((clipped X).map (applyRotation r')) := hval'
      simp only [rotated_sum] at this e2
      linarith

/-- The minimisation succeeds for every rotation of the data. -/
def Succeeds (score : ℝ → ℝ × ℝ → ℝ) (lo hi : ℝ) (minimize : (ℝ → ℝ) → ℝ → ℝ → Option (ℝ × ℝ)) (X : List (ℝ × ℝ)) : Prop :=
  ∀ r, minimize (fun t => negLogLikelihood score t ((clipped X).map (applyRotation r))) lo hi ≠ none

/-- **C130.** The fit by maximum likelihood raises an error exactly if the data is refused or the minimisation fails for all rotations. -/
theorem C130_error (score : ℝ → ℝ × ℝ → ℝ) (lo hi : ℝ) (minimize : (ℝ → ℝ) → ℝ → ℝ → Option (ℝ × ℝ)) (X : List (ℝ × ℝ)) (hX : X ≠ []) (hu : ∀ x ∈ X, Unit x.1 ∧ Unit x.2) :
    (∃ f, fitMle score lo hi minimize X = .ok f) ↔ ∃ r, minimize (fun t => negLogLikelihood score t ((clipped X).map (applyRotation r))) lo hi ≠ none := by
  have hv : validateMargins X = .ok (clipped X) := by
    unfold validateMargins
    rw [if_neg hX, if_pos]
    · rfl
    · exact fun x hx => ⟨(hu x hx).1, (hu x hx).2⟩
  have key := (ModelSelection.C81_rotation_mle (fun Y => (minimize (fun theta => negLogLikelihood score theta Y) lo hi).map fun r => (r.1, Flt.fin r.2)) (clipped X)).1
  simp only [Option.map_eq_none_iff] at key
  simp only [fitMle, hv, bind, Except.bind]
  cases hsel : selectThetaRotation (fun Y => (minimize (fun theta => negLogLikelihood score theta Y) lo hi).map fun r => (r.1, Flt.fin r.2)) (clipped X) with
  | none =>
    have := key.1 hsel
    constructor
    · rintro ⟨f, hf⟩
      cases hf
    · rintro ⟨r, hr⟩
      exact absurd (this r) hr
  | some tr =>
    constructor
    · intro _
      by_contra hno
      push Not at hno
      rw [key.2 hno] at hsel
      cases hsel
    · intro _
      exact ⟨_, rfl⟩

/-- **C130.** The copula fitted by maximum likelihood is, up to the tolerance, at least as likely as the one fitted by Kendall's tau (Clayton). -/
theorem C130_clayton_beats_tau (ε : ℝ) (minimize : (ℝ → ℝ) → ℝ → ℝ → Option (ℝ × ℝ)) (hm : Minimises ε minimize) (kt : Option (Flt ℝ)) (X : List (ℝ × ℝ)) (hs : Succeeds claytonScore claytonLo claytonHi minimize X)
    (f g : FittedCopula) (hf : fitClaytonMle minimize X = .ok f) (hg : fitClayton kt X = .ok g) (τ : ℝ) (hτ : chosenTau kt (clipped X) = .fin τ) :
    ∃ s s', scoreOf claytonScore f X = .ok (some s) ∧ scoreOf claytonScore g X = .ok (some s') ∧ s' ≤ s + ε := by
  obtain ⟨θ, s, _, _, _, h1, h2⟩ := C130_archimedean _ _ _ ε minimize hm X f hf
  obtain ⟨θ', hθ'⟩ := (C90_clayton kt X g hg).1 τ hτ
  obtain ⟨s', hs'⟩ : ∃ s', scoreOf claytonScore g X = .ok (some s') := by
    unfold scoreOf at h1 ⊢
    cases hv : validateMargins X with
    | error e => rw [hv] at h1; cases h1
    | ok Y => exact ⟨_, by simp only [bind, Except.bind, hθ'.theta]; rfl⟩
  refine ⟨s, s', h1, hs', h2 θ' g.rotation s' hθ'.bounds.1 hθ'.bounds.2 (hs _) ?_⟩
  rw [← hθ'.theta]
  exact hs'

/-- **C130.** The same for the Gumbel copula. -/
theorem C130_gumbel_beats_tau (ε : ℝ) (minimize : (ℝ → ℝ) → ℝ → ℝ → Option (ℝ × ℝ)) (hm : Minimises ε minimize) (kt : Option (Flt ℝ)) (X : List (ℝ × ℝ)) (hs : Succeeds gumbelScore gumbelLo gumbelHi minimize X)
    (f g : FittedCopula) (hf : fitGumbelMle minimize X = .ok f) (hg : fitGumbel kt X = .ok g) (τ : ℝ) (hτ : chosenTau kt (clipped X) = .fin τ) :
    ∃ s s', scoreOf gumbelScore f X = .ok (some s) ∧ scoreOf gumbelScore g X = .ok (some s') ∧ s' ≤ s + ε := by
  obtain ⟨θ, s, _, _, _, h1, h2⟩ := C130_archimedean _ _ _ ε minimize hm X f hf
  obtain ⟨θ', hθ'⟩ := (C90_gumbel kt X g hg).1 τ hτ
  obtain ⟨s', hs'⟩ : ∃ s', scoreOf gumbelScore g X = .ok (some s') := by
    unfold scoreOf at h1 ⊢
    cases hv : validateMargins X with
    | error e => rw [hv] at h1; cases h1
    | ok Y => exact ⟨_, by simp only [bind, Except.bind, hθ'.theta]; rfl⟩
  refine ⟨s, s', h1, hs', h2 θ' g.rotation s' hθ'.bounds.1 hθ'.bounds.2 (hs _) ?_⟩
  rw [← hθ'.theta]
  exact hs'

/-- **C130.** The same for the Joe copula. -/
theorem C130_joe_beats_tau (ε : ℝ) (minimize : (ℝ → ℝ) → ℝ → ℝ → Option (ℝ × ℝ)) (hm : Minimises ε minimize) (brentq : (ℝ → Option ℝ) → ℝ → ℝ → Except FitErr ℝ) (hb : BrentqContract brentq)
    (kt : Option (Flt ℝ)) (X : List (ℝ × ℝ)) (hs : Succeeds joeScore joeLo joeHi minimize X) (f g : FittedCopula) (hf : fitJoeMle minimize X = .ok f) (hg : fitJoe brentq kt X = .ok g) (τ : ℝ)
    (hτ : chosenTau kt (clipped X) = .fin τ) :
    ∃ s s', scoreOf joeScore f X = .ok (some s) ∧ scoreOf joeScore g X = .ok (some s') ∧ s' ≤ s + ε := by
  obtain ⟨θ, s, _, _, _, h1, h2⟩ := C130_archimedean _ _ _ ε minimize hm X f hf
  obtain ⟨θ', hθ'⟩ := (C90_joe brentq hb kt X).1 g τ hg hτ
  obtain ⟨s', hs'⟩ : ∃ s', scoreOf joeScore g X = .ok (some s') := by
    unfold scoreOf at h1 ⊢
    cases hv : validateMargins X with
    | error e => rw [hv] at h1; cases h1
    | ok Y => exact ⟨_, by simp only [bind, Except.bind, hθ'.theta]; rfl⟩
  refine ⟨s, s', h1, hs', h2 θ' g.rotation s' hθ'.bounds.1 hθ'.bounds.2 (hs _) ?_⟩
  rw [← hθ'.theta]
  exact hs'

theorem clipped_rotation (X : List (ℝ × ℝ)) (s : Rotation) : clipped (X.map (applyRotation s)) = (clipped X).map (applyRotation s) := by
  have hclip : ∀ t : ℝ, clipMarginal (1 - t) = 1 - clipMarginal t := by
    intro t
    have e : marginalEpsilon ≤ 1 - marginalEpsilon := by norm_num [marginalEpsilon]
    unfold clipMarginal
    rcases le_total t marginalEpsilon with a | a
    · rw [max_eq_right a, min_eq_left e, max_eq_left (by linarith), min_eq_right (by linarith)]
    · rw [max_eq_left a]
      rcases le_total t (1 - marginalEpsilon) with b | b
      · rw [min_eq_left b, max_eq_left (by linarith), min_eq_left (by linarith)]
      · rw [min_eq_right b, max_eq_right (by linarith), min_eq_left e]
        ring
  simp only [clipped, List.map_map]
  refine List.map_congr_left fun x _ => ?_
  cases s <;> simp [applyRotation, hclip]

theorem rotation_comp (r s : Rotation) : ∃ q : Rotation, ∀ x : ℝ × ℝ, applyRotation r (applyRotation s x) = applyRotation q x := by
  refine ⟨(match r, s with | .r0, .r0 => .r0 | .r0, .r90 => .r90 | .r0, .r180 => .r180 | .r0, .r270 => .r270 | .r90, .r0 => .r90 | .r90, .r90 => .r180 | .r90, .r180 => .r270 | .r90, .r270 => .r0 | .r180, .r0 => .r180 | .r180, .r90 => .r270 | .r180, .r180 => .r0 | .r180, .r270 => .r90 | .r270, .r0 => .r270 | .r270, .r90 => .r0 | .r270, .r180 => .r90 | .r270, .r270 => .r180), fun x => ?_⟩
  cases r <;> cases s <;> simp [applyRotation]

theorem scoreOf_value {score : ℝ → ℝ × ℝ → ℝ} {θ : ℝ} {r : Rotation} {X : List (ℝ × ℝ)} {s : ℝ} (h : scoreOf score ⟨some θ, r⟩ X = .ok (some s)) :
    s = ((clipped X).map fun x => score θ (applyRotation r x)).sum := by
  unfold scoreOf at h
  cases hv : validateMargins X with
  | error e => rw [hv] at h; cases h
  | ok Y =>
    rw [hv] at h
    obtain ⟨rfl, _, _⟩ := validate_ok hv
    simp only [bind, Except.bind, pure, Except.pure, Except.ok.injEq, Option.map_some, Option.some.injEq] at h
    exact h.symm

theorem turned_le (score : ℝ → ℝ × ℝ → ℝ) (lo hi ε : ℝ) (minimize : (ℝ → ℝ) → ℝ → ℝ → Option (ℝ × ℝ)) (hm : Minimises ε minimize) (X Y : List (ℝ × ℝ)) (t : Rotation)
    (hY : clipped Y = (clipped X).map (applyRotation t)) (hs : Succeeds score lo hi minimize X) (f g : FittedCopula) (hf : fitMle score lo hi minimize X = .ok f)
    (hg : fitMle score lo hi minimize Y = .ok g) (s s' : ℝ) (h1 : scoreOf score f X = .ok (some s)) (h2 : scoreOf score g Y = .ok (some s')) : s' ≤ s + ε := by
  obtain ⟨θ, s0, _, _, _, a4, a5⟩ := C130_archimedean score lo hi ε minimize hm X f hf
  rw [h1] at a4
  cases a4
  obtain ⟨θ', s1, b1, b2, b3, b4, _⟩ := C130_archimedean score lo hi ε minimize hm Y g hg
  obtain ⟨gt, gr⟩ := g
  simp only at b1
  subst b1
  obtain ⟨q, hq⟩ := rotation_comp gr t
  have e := scoreOf_value h2
  rw [hY, List.map_map] at e
  have e' : s' = ((clipped X).map fun x => score θ' (applyRotation q x)).sum := by
    rw [e]
    congr 1
    exact List.map_congr_left fun x _ => by simp only [Function.comp, hq]
  refine a5 θ' q s' b2 b3 (hs q) ?_
  unfold scoreOf at h1 ⊢
  cases hv : validateMargins X with
  | error e => rw [hv] at h1; cases h1
  | ok Z =>
    obtain ⟨rfl, _, _⟩ := validate_ok hv
    simp only [bind, Except.bind, e']
    rfl

/-- **C130.** The likelihood reached does not depend on the orientation of the data: data turned by any rotation gives the same score up to the tolerance. -/
theorem C130_turned (score : ℝ → ℝ × ℝ → ℝ) (lo hi ε : ℝ) (minimize : (ℝ → ℝ) → ℝ → ℝ → Option (ℝ × ℝ)) (hm : Minimises ε minimize) (X : List (ℝ × ℝ)) (t : Rotation)
    (hs : Succeeds score lo hi minimize X) (hs' : Succeeds score lo hi minimize (X.map (applyRotation t))) (f g : FittedCopula) (hf : fitMle score lo hi minimize X = .ok f)
    (hg : fitMle score lo hi minimize (X.map (applyRotation t)) = .ok g) :
    ∃ s s', scoreOf score f X = .ok (some s) ∧ scoreOf score g (X.map (applyRotation t)) = .ok (some s') ∧ |s - s'| ≤ ε := by
  obtain ⟨_, s, _, _, _, h1, _⟩ := C130_archimedean score lo hi ε minimize hm X f hf
  obtain ⟨_, s', _, _, _, h2, _⟩ := C130_archimedean score lo hi ε minimize hm _ g hg
  refine ⟨s, s', h1, h2, ?_⟩
  have u1 := turned_le score lo hi ε minimize hm X _ t (clipped_rotation X t) hs f g hf hg s s' h1 h2
  have hback : clipped X = (clipped (X.map (applyRotation t))).map (applyRotation t.inverse) := by
    rw [clipped_rotation, List.map_map]
    conv_lhs => rw [← List.map_id (clipped X)]
    refine List.map_congr_left fun x _ => ?_
    cases t <;> simp [applyRotation, Rotation.inverse]
  have u2 := turned_le score lo hi ε minimize hm _ X t.inverse hback hs' g f hg hf s' s h2 h1
  rw [abs_le]
  constructor <;> linarith

/-! ### Gaussian and Student copulas -/

/-- **C130.** The Gaussian copula fitted by maximum likelihood is, up to the tolerance, at least as likely as that of any correlation within the bounds; in particular as the one fitted by Kendall's tau and as
independence, whose score is zero. -/
theorem C130_gaussian (ndtri : ℝ → ℝ) (ε : ℝ) (minimize : (ℝ → ℝ) → ℝ → ℝ → Option (ℝ × ℝ)) (hm : Minimises ε minimize) (X : List (ℝ × ℝ)) (ρ : ℝ) (h : fitGaussianMle ndtri minimize X = .ok ρ) :
    -rhoHi ≤ ρ ∧ ρ ≤ rhoHi ∧ ∃ s, gaussianScoreOf ndtri ρ X = .ok s ∧
      (∀ ρ' s', -rhoHi ≤ ρ' → ρ' ≤ rhoHi → gaussianScoreOf ndtri ρ' X = .ok s' → s' ≤ s + ε) ∧
      (∀ kt ρ' s', fitGaussian kt X = .ok (some ρ') → gaussianScoreOf ndtri ρ' X = .ok s' → s' ≤ s + ε) ∧ 0 ≤ s + ε := by
  unfold fitGaussianMle at h
  cases hv : validateMargins X with
  | error e => rw [hv] at h; cases h
  | ok Y =>
    rw [hv] at h
    simp only [bind, Except.bind] at h
    cases hmin : minimize (fun rho => negLogLikelihood (gaussianScore ndtri) rho Y) (-rhoHi) rhoHi with
    | none => rw [hmin] at h; cases h
    | some r =>
      rw [hmin] at h
      injection h with h
      subst h
      obtain ⟨hb, _, hbest⟩ := hm _ _ _ _ _ hmin
      have hsc : ∀ ρ', gaussianScoreOf ndtri ρ' X = .ok (Y.map (gaussianScore ndtri ρ')).sum := by
        intro ρ'
        simp only [gaussianScoreOf, hv, bind, Except.bind]
        rfl
      have hall : ∀ ρ' s', -rhoHi ≤ ρ' → ρ' ≤ rhoHi → gaussianScoreOf ndtri ρ' X = .ok s' → s' ≤ (Y.map (gaussianScore ndtri r.1)).sum + ε := by
        intro ρ' s' h1 h2 h3
        rw [hsc] at h3
        injection h3 with h3
        have := hbest ρ' h1 h2
        simp only [negLogLikelihood] at this
        linarith
      have hpos : (0 : ℝ) < rhoHi := by norm_num [rhoHi]
      refine ⟨hb.1, hb.2, _, hsc _, hall, ?_, ?_⟩
      · intro kt ρ' s' hk
        simp only [fitGaussian, hv, bind, Except.bind, pure, Except.pure, Except.ok.injEq] at hk
        cases ht : chosenTau kt Y with
        | nan => rw [ht] at hk; cases hk
        | ninf => rw [ht] at hk; cases hk
        | pinf => rw [ht] at hk; cases hk
        | fin t =>
          rw [ht] at hk
          simp only [rhoOfTau, Option.some.injEq] at hk
          have := clip_mem (lo := -rhoHi) (hi := rhoHi) (x := Real.sin (Real.pi * t / 2)) (by linarith)
          rw [hk] at this
          exact hall ρ' s' this.1 this.2
      · have h0 : (Y.map (gaussianScore ndtri 0)).sum = 0 := by
          have : gaussianScore ndtri 0 = fun _ => 0 := by
            funext x
            simp [gaussianScore]
          rw [this]
          simp
        exact hall 0 0 (by linarith) hpos.le (by rw [hsc, h0])

/-- **C130.** The Student copula with `itau=True` has, for the correlation from Kendall's tau, the degrees of freedom with the greatest likelihood up to the tolerance. -/
theorem C130_student_itau (stdtrit : ℝ → ℝ → ℝ) (ε : ℝ) (minimize : (ℝ → ℝ) → ℝ → ℝ → Option (ℝ × ℝ)) (hm : Minimises ε minimize)
    (lbfgs : (ℝ × ℝ → ℝ) → ℝ × ℝ → ℝ × ℝ → ℝ × ℝ → Option (ℝ × ℝ)) (kt : Option (Flt ℝ)) (X : List (ℝ × ℝ)) (p : ℝ × ℝ) (h : fitStudentMle stdtrit minimize lbfgs true kt X = .ok p) :
    rhoOfTau (chosenTau kt (clipped X)) = some p.2 ∧ dofLo ≤ p.1 ∧ p.1 ≤ dofHi ∧ ∃ s, studentScoreOf stdtrit p X = .ok s ∧
      ∀ ν s', dofLo ≤ ν → ν ≤ dofHi → studentScoreOf stdtrit (ν, p.2) X = .ok s' → s' ≤ s + ε := by
  unfold fitStudentMle at h
  cases hv : validateMargins X with
  | error e => rw [hv] at h; cases h
  | ok Y =>
    rw [hv] at h
    obtain ⟨rfl, _, _⟩ := validate_ok hv
    simp only [bind, Except.bind] at h
    cases ht : rhoOfTau (chosenTau kt (clipped X)) with
    | none => rw [ht] at h; cases h
    | some ρ =>
      rw [ht] at h
      simp only [if_true] at h
      cases hmin : minimize (fun dof => studentNegLogLikelihood stdtrit dof ρ (clipped X)) dofLo dofHi with
      | none => rw [hmin] at h; cases h
      | some r =>
        rw [hmin] at h
        injection h with h
        subst h
        obtain ⟨hb, _, hbest⟩ := hm _ _ _ _ _ hmin
        refine ⟨rfl, hb.1, hb.2, _, by simp only [studentScoreOf, hv, bind, Except.bind]; rfl, ?_⟩
        intro ν s' h1 h2 h3
        simp only [studentScoreOf, hv, bind, Except.bind, pure, Except.pure, Except.ok.injEq] at h3
        have := hbest ν h1 h2
        simp only [studentNegLogLikelihood] at this
        linarith

/-- **C130, partial.** The Student copula with `itau=False` is at least as likely as the one with three degrees of freedom and the correlation from Kendall's tau. Missing: that no other copula of the family is more likely, which
a local method such as L-BFGS-B does not promise. -/
theorem C130_student_partial (stdtrit : ℝ → ℝ → ℝ) (minimize : (ℝ → ℝ) → ℝ → ℝ → Option (ℝ × ℝ))
    (lbfgs : (ℝ × ℝ → ℝ) → ℝ × ℝ → ℝ × ℝ → ℝ × ℝ → Option (ℝ × ℝ)) (hl : Descends lbfgs) (kt : Option (Flt ℝ)) (X : List (ℝ × ℝ)) (p : ℝ × ℝ) (h : fitStudentMle stdtrit minimize lbfgs false kt X = .ok p) :
    dofLo ≤ p.1 ∧ p.1 ≤ dofHi ∧ -rhoHi ≤ p.2 ∧ p.2 ≤ rhoHi ∧ ∃ ρ s s', rhoOfTau (chosenTau kt (clipped X)) = some ρ ∧ studentScoreOf stdtrit p X = .ok s ∧
      studentScoreOf stdtrit (3, ρ) X = .ok s' ∧ s' ≤ s := by
  unfold fitStudentMle at h
  cases hv : validateMargins X with
  | error e => rw [hv] at h; cases h
  | ok Y =>
    rw [hv] at h
    obtain ⟨rfl, _, _⟩ := validate_ok hv
    simp only [bind, Except.bind] at h
    cases ht : rhoOfTau (chosenTau kt (clipped X)) with
    | none => rw [ht] at h; cases h
    | some ρ =>
      rw [ht] at h
      simp only [Bool.false_eq_true, if_false] at h
      cases hmin : lbfgs (fun p => studentNegLogLikelihood stdtrit p.1 p.2 (clipped X)) (3, ρ) (dofLo, dofHi) (-rhoHi, rhoHi) with
      | none => rw [hmin] at h; cases h
      | some r =>
        rw [hmin] at h
        injection h with h
        subst h
        obtain ⟨h1, h2, h3⟩ := hl _ _ _ _ _ hmin
        refine ⟨h1.1, h1.2, h2.1, h2.2, ρ, _, _, rfl, by simp only [studentScoreOf, hv, bind, Except.bind]; rfl, by simp only [studentScoreOf, hv, bind, Except.bind]; rfl, ?_⟩
        simp only [studentNegLogLikelihood] at h3
        linarith

/-! ### the hypotheses are met -/

open Classical in
/-- A minimiser that finds every minimum there is. -/
noncomputable def exactMinimize (f : ℝ → ℝ) (lo hi : ℝ) : Option (ℝ × ℝ) :=
  if h : ∃ x, (lo ≤ x ∧ x ≤ hi) ∧ ∀ y, lo ≤ y → y ≤ hi → f x ≤ f y then some (h.choose, f h.choose) else none

theorem exactMinimize_minimises : Minimises 0 exactMinimize := by
  intro f lo hi x v h
  unfold exactMinimize at h
  split at h
  · rename_i hex
    injection h with h
    cases h
    have := hex.choose_spec
    exact ⟨this.1, rfl, by simpa using this.2⟩
  · cases h

theorem exactMinimize_continuous {f : ℝ → ℝ} {lo hi : ℝ} (hle : lo ≤ hi) (hc : ContinuousOn f (Set.Icc lo hi)) : exactMinimize f lo hi ≠ none := by
  obtain ⟨x, hx, hmin⟩ := isCompact_Icc.exists_isMinOn ⟨lo, ⟨le_rfl, hle⟩⟩ hc
  unfold exactMinimize
  rw [dif_pos ⟨x, hx, fun y h1 h2 => hmin ⟨h1, h2⟩⟩]
  simp

/-- The Gaussian copula can be fitted to any data in the unit square. -/
example (ndtri : ℝ → ℝ) (X : List (ℝ × ℝ)) (hX : X ≠ []) (hu : ∀ x ∈ X, Unit x.1 ∧ Unit x.2) : ∃ ρ, fitGaussianMle ndtri exactMinimize X = .ok ρ := by
  have hv : validateMargins X = .ok (clipped X) := by
    unfold validateMargins
    rw [if_neg hX, if_pos]
    · rfl
    · exact fun x hx => ⟨(hu x hx).1, (hu x hx).2⟩
  have hc : ContinuousOn (fun rho => negLogLikelihood (gaussianScore ndtri) rho (clipped X)) (Set.Icc (-rhoHi) rhoHi) := by
    have hone : ∀ x : ℝ × ℝ, ContinuousOn (fun rho => gaussianScore ndtri rho x) (Set.Icc (-rhoHi) rhoHi) := by
      intro x
      have hpos : ∀ ρ ∈ Set.Icc (-rhoHi) rhoHi, 1 - ρ ^ 2 ≠ 0 := by
        intro ρ hρ
        have h1 : ρ ^ 2 ≤ rhoHi ^ 2 := sq_le_sq' hρ.1 hρ.2
        have h2 : rhoHi ^ 2 < 1 := by norm_num [rhoHi]
        linarith
      unfold gaussianScore
      refine ContinuousOn.sub (ContinuousOn.mul continuousOn_const (ContinuousOn.log (by fun_prop) ?_)) (ContinuousOn.div (by fun_prop) (by fun_prop) hpos)
      intro ρ hρ
      have := hpos ρ hρ
      rwa [← sub_eq_add_neg]
    have hsum : ∀ Y : List (ℝ × ℝ), ContinuousOn (fun rho => (Y.map (gaussianScore ndtri rho)).sum) (Set.Icc (-rhoHi) rhoHi) := by
      intro Y
      induction Y with
      | nil => simpa using continuousOn_const
      | cons y Y ih =>
        simp only [List.map_cons, List.sum_cons]
        exact (hone y).add ih
    exact (hsum _).neg
  obtain ⟨r, hr⟩ := Option.ne_none_iff_exists'.1 (exactMinimize_continuous (by norm_num [rhoHi]) hc)
  exact ⟨r.1, by simp only [fitGaussianMle, hv, bind, Except.bind, hr]; rfl⟩

theorem claytonScore_continuous {x : ℝ × ℝ} (hx : Unit x.1 ∧ Unit x.2) : ContinuousOn (fun θ => claytonScore θ x) (Set.Icc claytonLo claytonHi) := by
  have hpos : ∀ θ ∈ Set.Icc claytonLo claytonHi, 0 < θ := fun θ h => lt_of_lt_of_le (by norm_num [claytonLo]) h.1
  have ha : Real.log x.1 ≤ 0 := Real.log_nonpos hx.1.1 hx.1.2
  have hb : Real.log x.2 ≤ 0 := Real.log_nonpos hx.2.1 hx.2.2
  unfold claytonScore
  refine ContinuousOn.sub (ContinuousOn.sub (ContinuousOn.log (by fun_prop) ?_) (ContinuousOn.mul ?_ (ContinuousOn.log (by fun_prop) ?_))) (by fun_prop)
  · intro θ hθ
    have := hpos θ hθ
    positivity
  · exact ContinuousOn.add continuousOn_const (ContinuousOn.div continuousOn_const continuousOn_id fun θ hθ => (hpos θ hθ).ne')
  · intro θ hθ
    have h := hpos θ hθ
    have h1 : 1 ≤ Real.exp (-θ * Real.log x.1) := Real.one_le_exp (mul_nonneg_of_nonpos_of_nonpos (by linarith) ha)
    have h2 : 1 ≤ Real.exp (-θ * Real.log x.2) := Real.one_le_exp (mul_nonneg_of_nonpos_of_nonpos (by linarith) hb)
    linarith

/-- A Clayton copula can be fitted to any data in the unit square, and the minimisation succeeds for every rotation. -/
theorem clayton_fits (X : List (ℝ × ℝ)) (hX : X ≠ []) (hu : ∀ x ∈ X, Unit x.1 ∧ Unit x.2) :
    Succeeds claytonScore claytonLo claytonHi exactMinimize X ∧ ∃ f, fitClaytonMle exactMinimize X = .ok f := by
  have hs : Succeeds claytonScore claytonLo claytonHi exactMinimize X := by
    intro r
    apply exactMinimize_continuous (by norm_num [claytonLo, claytonHi])
    have hsum : ∀ Y : List (ℝ × ℝ), (∀ x ∈ Y, Unit x.1 ∧ Unit x.2) →
        ContinuousOn (fun θ => (Y.map (claytonScore θ)).sum) (Set.Icc claytonLo claytonHi) := by
      intro Y hY
      induction Y with
      | nil => simpa using continuousOn_const
      | cons y Y ih =>
        simp only [List.map_cons, List.sum_cons]
        exact (claytonScore_continuous (hY y List.mem_cons_self)).add (ih fun x hx => hY x (List.mem_cons_of_mem _ hx))
    refine (hsum _ ?_).neg
    intro x hx
    obtain ⟨y, hy, rfl⟩ := List.mem_map.1 hx
    obtain ⟨z, _, rfl⟩ := List.mem_map.1 hy
    have hc : ∀ t : ℝ, 0 ≤ clipMarginal t ∧ clipMarginal t ≤ 1 := by
      intro t
      unfold clipMarginal
      have : (0 : ℝ) < marginalEpsilon ∧ marginalEpsilon < 1 := by norm_num [marginalEpsilon]
      constructor
      · exact le_min ((le_of_lt this.1).trans (le_max_right _ _)) (by linarith)
      · exact (min_le_right _ _).trans (by linarith)
    have h1 := hc z.1
    have h2 := hc z.2
    cases r <;> simp only [applyRotation] <;> refine ⟨⟨?_, ?_⟩, ?_, ?_⟩ <;> linarith
  exact ⟨hs, (C130_error _ _ _ _ _ hX hu).2 ⟨.r0, hs .r0⟩⟩

example : ∃ f, fitClaytonMle exactMinimize [(1 / 4, 1 / 3), (1 / 2, 2 / 3)] = .ok f :=
  (clayton_fits _ (by simp) (by intro x hx; simp at hx; rcases hx with rfl | rfl <;> norm_num [Unit])).2

end Skfolio.Copula
