import Verif.Copula.RotationModel
import Verif.Copula.Spec
import Mathlib.Analysis.Calculus.Deriv.Comp
import Mathlib.Analysis.Calculus.Deriv.Add
import Mathlib.Analysis.Calculus.Deriv.Mul
import Mathlib.Tactic.Linarith
import Mathlib.Tactic.Ring
import Mathlib.Tactic.NormNum

/-! C39. -/
set_option autoImplicit false

namespace Skfolio.Copula

theorem inside_one_sub {t : ℝ} (h : Inside t) : Inside (1 - t) := ⟨by linarith [h.2], by linarith [h.1]⟩
theorem unit_one_sub {t : ℝ} (h : Unit t) : Unit (1 - t) := ⟨by linarith [h.2], by linarith [h.1]⟩

/-- The rotation by 90 degrees, undone by 270; and so on. -/
def Rotation.inverse : Rotation → Rotation
  | .r0 => .r0
  | .r90 => .r270
  | .r180 => .r180
  | .r270 => .r90

/-- **C39.** Rotating by a rotation and its inverse is the identity, and the rotations compose as rotations of the square do. -/
theorem C39_rotate_back {K : Type} [Ring K] (r : Rotation) (x : K × K) :
    applyRotation r.inverse (applyRotation r x) = x ∧ applyRotation r (applyRotation r.inverse x) = x ∧
    applyRotation .r90 (applyRotation .r90 x) = applyRotation .r180 x ∧ applyRotation .r90 (applyRotation .r180 x) = applyRotation .r270 x := by
  cases r <;> simp [applyRotation, Rotation.inverse]

/-- **C39.** The rotations keep the unit square, with and without its border. -/
theorem C39_rotate_square (r : Rotation) (x : ℝ × ℝ) :
    (Inside x.1 ∧ Inside x.2 ↔ Inside (applyRotation r x).1 ∧ Inside (applyRotation r x).2) ∧ (Unit x.1 ∧ Unit x.2 ↔ Unit (applyRotation r x).1 ∧ Unit (applyRotation r x).2) := by
  cases r <;> simp only [applyRotation, Inside, Unit] <;> constructor <;> constructor <;> (rintro ⟨⟨a, b⟩, c, d⟩; refine ⟨⟨?_, ?_⟩, ?_, ?_⟩ <;> linarith)

/-- **C39.** The rotated distribution function gives every rectangle the mass that the base gives to the rotated rectangle. -/
theorem C39_mass (C : ℝ × ℝ → ℝ) (a b c d : ℝ) :
    mass (rotationCdf C .r0) a b c d = mass C a b c d ∧ mass (rotationCdf C .r90) a b c d = mass C c d (1 - b) (1 - a) ∧
    mass (rotationCdf C .r180) a b c d = mass C (1 - b) (1 - a) (1 - d) (1 - c) ∧ mass (rotationCdf C .r270) a b c d = mass C (1 - d) (1 - c) a b := by
  refine ⟨rfl, ?_, ?_, ?_⟩ <;> simp only [mass, rotationCdf, applyRotation] <;> ring

/-- **C39.** Every rotation of a copula is a copula: grounded, with uniform margins, and giving every rectangle a non-negative mass. -/
theorem C39_copula (C : ℝ × ℝ → ℝ) (hC : IsCopula C) (r : Rotation) : IsCopula (rotationCdf C r) := by
  have u0 : Unit (0 : ℝ) := ⟨le_refl _, by norm_num⟩
  have u1 : Unit (1 : ℝ) := ⟨by norm_num, le_refl _⟩
  refine ⟨fun t ht => ?_, fun t ht => ?_, fun a b c d h1 h2 h3 h4 h5 h6 => ?_⟩
  · have g := hC.grounded _ ht
    have g' := hC.grounded _ (unit_one_sub ht)
    have m := hC.margins _ ht
    have m' := hC.margins _ (unit_one_sub ht)
    cases r
    · exact g
    · simp only [rotationCdf, applyRotation, sub_zero]
      exact ⟨by rw [m.2]; ring, by rw [g'.1]; ring⟩
    · simp only [rotationCdf, applyRotation, sub_zero]
      exact ⟨by rw [m'.1]; ring, by rw [m'.2]; ring⟩
    · simp only [rotationCdf, applyRotation, sub_zero]
      exact ⟨by rw [g'.2]; ring, by rw [m.1]; ring⟩
  · have g := hC.grounded _ ht
    have g' := hC.grounded _ (unit_one_sub ht)
    have m := hC.margins _ ht
    have m' := hC.margins _ (unit_one_sub ht)
    cases r
    · exact m
    · simp only [rotationCdf, applyRotation, sub_self]
      exact ⟨by rw [g.2]; ring, by rw [m'.1]; ring⟩
    · simp only [rotationCdf, applyRotation, sub_self]
      exact ⟨by rw [g'.1]; ring, by rw [g'.2]; ring⟩
    · simp only [rotationCdf, applyRotation, sub_self]
      exact ⟨by rw [m'.2]; ring, by rw [g.1]; ring⟩
  · obtain ⟨e0, e1, e2, e3⟩ := C39_mass C a b c d
    cases r
    · exact hC.mass_nonneg a b c d h1 h2 h3 h4 h5 h6
    · rw [e1]
      exact hC.mass_nonneg _ _ _ _ h4 h5 h6 (by linarith) (by linarith) (by linarith)
    · rw [e2]
      exact hC.mass_nonneg _ _ _ _ (by linarith) (by linarith) (by linarith) (by linarith) (by linarith) (by linarith)
    · rw [e3]
      exact hC.mass_nonneg _ _ _ _ (by linarith) (by linarith) (by linarith) h1 h2 h3

theorem deriv_congr {f g : ℝ → ℝ} {f' g' x : ℝ} (h : HasDerivAt f f' x) (e : ∀ t, g t = f t) (e' : g' = f') : HasDerivAt g g' x := by
  rw [show g = f from funext e, e']
  exact h

theorem comp_one_sub {f : ℝ → ℝ} {f' t : ℝ} (h : HasDerivAt f f' (1 - t)) : HasDerivAt (fun s => f (1 - s)) (-f') t :=
  deriv_congr (h.comp t ((hasDerivAt_id t).const_sub 1)) (fun _ => rfl) (by ring)

/-- **C39.** The rotated conditional distribution functions are the partial derivatives of the rotated distribution function, for both margins. -/
theorem C39_partial (C : ℝ × ℝ → ℝ) (h : Bool → ℝ × ℝ → ℝ) (hh : IsPartial C h) (r : Rotation) : IsPartial (rotationCdf C r) (rotationPartial h r) := by
  intro u v hu hv
  cases r
  · exact hh u v hu hv
  · obtain ⟨d1, d2⟩ := hh v (1 - u) hv (inside_one_sub hu)
    exact ⟨deriv_congr ((comp_one_sub d2).const_sub v) (fun _ => rfl) (by simp [rotationPartial, applyRotation]),
      deriv_congr ((hasDerivAt_id v).sub d1) (fun _ => rfl) (by simp [rotationPartial, applyRotation])⟩
  · obtain ⟨d1, d2⟩ := hh (1 - u) (1 - v) (inside_one_sub hu) (inside_one_sub hv)
    exact ⟨deriv_congr ((((hasDerivAt_id u).add_const v).sub_const 1).add (comp_one_sub (f := fun s => C (s, 1 - v)) d1)) (fun _ => rfl) (by simp [rotationPartial, applyRotation, sub_eq_add_neg]),
      deriv_congr ((((hasDerivAt_id v).const_add u).sub_const 1).add (comp_one_sub (f := fun s => C (1 - u, s)) d2)) (fun _ => rfl) (by simp [rotationPartial, applyRotation, sub_eq_add_neg])⟩
  · obtain ⟨d1, d2⟩ := hh (1 - v) u (inside_one_sub hv) hu
    exact ⟨deriv_congr ((hasDerivAt_id u).sub d2) (fun _ => rfl) (by simp [rotationPartial, applyRotation]),
      deriv_congr ((comp_one_sub (f := fun s => C (s, u)) d1).const_sub u) (fun _ => rfl) (by simp [rotationPartial, applyRotation])⟩

/-- **C39.** The rotated inverse inverts the rotated conditional distribution function, for both margins. -/
theorem C39_inverse (h g : Bool → ℝ × ℝ → ℝ) (hg : IsInverse h g) (r : Rotation) : IsInverse (rotationPartial h r) (rotationPartial g r) := by
  obtain ⟨h1, h2, h3, h4⟩ := hg
  cases r
  · exact ⟨h1, h2, h3, h4⟩
  · refine ⟨fun p v hp hv => ?_, fun u p hu hp => ?_, fun u v hu hv => ?_, fun u v hu hv => ?_⟩ <;> simp only [rotationPartial, applyRotation, if_true, Bool.false_eq_true, if_false, Bool.not_true, Bool.not_false]
    · obtain ⟨a, b⟩ := h2 v (1 - p) hv (inside_one_sub hp)
      refine ⟨inside_one_sub a, ?_⟩
      rw [sub_sub_cancel, b, sub_sub_cancel]
    · exact h1 p (1 - u) hp (inside_one_sub hu)
    · obtain ⟨a, b⟩ := h4 v (1 - u) hv (inside_one_sub hu)
      refine ⟨inside_one_sub a, ?_⟩
      rw [sub_sub_cancel, b, sub_sub_cancel]
    · exact h3 v (1 - u) hv (inside_one_sub hu)
  · refine ⟨fun p v hp hv => ?_, fun u p hu hp => ?_, fun u v hu hv => ?_, fun u v hu hv => ?_⟩ <;> simp only [rotationPartial, applyRotation]
    · obtain ⟨a, b⟩ := h1 (1 - p) (1 - v) (inside_one_sub hp) (inside_one_sub hv)
      refine ⟨inside_one_sub a, ?_⟩
      rw [sub_sub_cancel, b, sub_sub_cancel]
    · obtain ⟨a, b⟩ := h2 (1 - u) (1 - p) (inside_one_sub hu) (inside_one_sub hp)
      refine ⟨inside_one_sub a, ?_⟩
      rw [sub_sub_cancel, b, sub_sub_cancel]
    · obtain ⟨a, b⟩ := h3 (1 - u) (1 - v) (inside_one_sub hu) (inside_one_sub hv)
      refine ⟨inside_one_sub a, ?_⟩
      rw [sub_sub_cancel, b, sub_sub_cancel]
    · obtain ⟨a, b⟩ := h4 (1 - u) (1 - v) (inside_one_sub hu) (inside_one_sub hv)
      refine ⟨inside_one_sub a, ?_⟩
      rw [sub_sub_cancel, b, sub_sub_cancel]
  · refine ⟨fun p v hp hv => ?_, fun u p hu hp => ?_, fun u v hu hv => ?_, fun u v hu hv => ?_⟩ <;> simp only [rotationPartial, applyRotation, if_true, Bool.false_eq_true, if_false, Bool.not_true, Bool.not_false]
    · exact h2 (1 - v) p (inside_one_sub hv) hp
    · obtain ⟨a, b⟩ := h1 (1 - p) u (inside_one_sub hp) hu
      refine ⟨inside_one_sub a, ?_⟩
      rw [sub_sub_cancel, b, sub_sub_cancel]
    · exact h4 (1 - v) u (inside_one_sub hv) hu
    · obtain ⟨a, b⟩ := h3 (1 - v) u (inside_one_sub hv) hu
      refine ⟨inside_one_sub a, ?_⟩
      rw [sub_sub_cancel, b, sub_sub_cancel]

/-- **C39.** The density of the rotated copula at a point is the base density at the rotated point, which is what `score_samples` evaluates. -/
theorem C39_density (h : Bool → ℝ × ℝ → ℝ) (c : ℝ × ℝ → ℝ) (hc : IsDensity h c) (r : Rotation) : IsDensity (rotationPartial h r) (fun x => c (applyRotation r x)) := by
  intro u v hu hv
  cases r
  · exact hc u v hu hv
  · obtain ⟨d1, d2⟩ := hc v (1 - u) hv (inside_one_sub hu)
    constructor
    · have := (comp_one_sub (f := fun s => h true (v, s)) d2).const_sub 1
      simpa [rotationPartial, applyRotation] using this
    · simpa [rotationPartial, applyRotation] using d1
  · obtain ⟨d1, d2⟩ := hc (1 - u) (1 - v) (inside_one_sub hu) (inside_one_sub hv)
    constructor
    · have := (comp_one_sub (f := fun s => h false (s, 1 - v)) d1).const_sub 1
      simpa [rotationPartial, applyRotation] using this
    · have := (comp_one_sub (f := fun s => h true (1 - u, s)) d2).const_sub 1
      simpa [rotationPartial, applyRotation] using this
  · obtain ⟨d1, d2⟩ := hc (1 - v) u (inside_one_sub hv) hu
    constructor
    · simpa [rotationPartial, applyRotation] using d2
    · have := (comp_one_sub (f := fun s => h false (s, u)) d1).const_sub 1
      simpa [rotationPartial, applyRotation] using this

/-- **C39.** The selected rotation minimises the criterion. -/
theorem C39_select_rotation {X : Type} (func : X → ℝ) (rotate : Rotation → X) (r : Rotation) : func (rotate (selectRotationItau func rotate)) ≤ func (rotate r) := by
  have step : ∀ (l : List Rotation) (b : Rotation), func (rotate (l.foldl (fun best r => if func (rotate r) < func (rotate best) then r else best) b)) ≤ func (rotate b) ∧
      ∀ r ∈ l, func (rotate (l.foldl (fun best r => if func (rotate r) < func (rotate best) then r else best) b)) ≤ func (rotate r) := by
    intro l
    induction l with
    | nil => exact fun b => ⟨le_refl _, fun r hr => absurd hr (by simp)⟩
    | cons a l ih =>
      intro b
      simp only [List.foldl_cons]
      by_cases hab : func (rotate a) < func (rotate b)
      · rw [if_pos hab]
        obtain ⟨i1, i2⟩ := ih a
        refine ⟨i1.trans hab.le, fun r hr => ?_⟩
        rcases List.mem_cons.1 hr with rfl | hr
        · exact i1
        · exact i2 r hr
      · rw [if_neg hab]
        obtain ⟨i1, i2⟩ := ih b
        refine ⟨i1, fun r hr => ?_⟩
        rcases List.mem_cons.1 hr with rfl | hr
        · exact i1.trans (not_lt.1 hab)
        · exact i2 r hr
  obtain ⟨s1, s2⟩ := step [.r90, .r180, .r270] .r0
  cases r
  · exact s1
  all_goals exact s2 _ (by simp)

/-- The independence copula meets the hypotheses of all the theorems above. -/
theorem independent_copula : IsCopula (fun x => x.1 * x.2) ∧ IsPartial (fun x => x.1 * x.2) (fun b x => if b then x.2 else x.1) ∧
    IsInverse (fun b x => if b then x.2 else x.1) (fun b x => if b then x.2 else x.1) ∧ IsDensity (fun b x => if b then x.2 else x.1) (fun _ => 1) := by
  refine ⟨⟨fun t _ => by simp, fun t _ => by simp, fun a b c d h1 h2 h3 h4 h5 h6 => ?_⟩, fun u v _ _ => ?_, ⟨fun p v hp _ => ⟨hp, rfl⟩, fun u p _ hp => ⟨hp, rfl⟩, fun u v hu _ => ⟨hu, rfl⟩, fun u v _ hv => ⟨hv, rfl⟩⟩, fun u v _ _ => ?_⟩
  · have : mass (fun x => x.1 * x.2) a b c d = (b - a) * (d - c) := by
      unfold mass
      ring
    rw [this]
    exact mul_nonneg (by linarith) (by linarith)
  · constructor
    · simpa using (hasDerivAt_id u).mul_const v
    · simpa using (hasDerivAt_id v).const_mul u
  · exact ⟨hasDerivAt_id u, hasDerivAt_id v⟩

example (r : Rotation) : IsCopula (rotationCdf (fun x => x.1 * x.2) r) := C39_copula _ independent_copula.1 r

end Skfolio.Copula
