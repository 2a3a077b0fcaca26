import Verif.Vine.Spec
import Mathlib.Tactic.Linarith
import Mathlib.Data.Fintype.Card

/-! Lemmas about well formed nodes. -/
set_option autoImplicit false

namespace Skfolio.Vine

/-- The variable on the left or right side of a node, followed down the sides. -/
def own : Node → Bool → ℕ
  | .root i, _ => i
  | .edge l r, b => match sides l r with
    | some d => if b then own l (!d.1) else own r (!d.2)
    | none => 0

/-- Nodes of a regular vine: the two ends differ by one variable on each side, the one that the sides point to. -/
inductive Good : Node → Prop where
  | root (i : ℕ) : Good (.root i)
  | edge (l r : Node) (d : Bool × Bool) : Good l → Good r → sides l r = some d →
      own l (!d.1) ∉ vars r → vars l \ {own l (!d.1)} ⊆ vars r →
      own r (!d.2) ∉ vars l → vars r \ {own r (!d.2)} ⊆ vars l → Good (.edge l r)

theorem own_mem {n : Node} (h : Good n) (b : Bool) : own n b ∈ vars n := by
  induction h generalizing b with
  | root i => simp [own, vars]
  | edge l r d hl hr hd _ _ _ _ ihl ihr =>
    cases b <;> simp [own, hd, vars, ihl, ihr]

theorem own_left {l r : Node} {d : Bool × Bool} (hd : sides l r = some d) : own (.edge l r) true = own l (!d.1) := by simp [own, hd]
theorem own_right {l r : Node} {d : Bool × Bool} (hd : sides l r = some d) : own (.edge l r) false = own r (!d.2) := by simp [own, hd]

theorem only_singleton (a : ℕ) : only {a} = a := by simp [only]

theorem sdiff_own {l r : Node} {a : ℕ} (ha : a ∈ vars l) (h1 : a ∉ vars r) (h2 : vars l \ {a} ⊆ vars r) : vars l \ vars r = {a} := by
  ext b
  simp only [Finset.mem_sdiff, Finset.mem_singleton]
  constructor
  · rintro ⟨hb, hb'⟩
    by_contra hne
    exact hb' (h2 (by simp [hb, hne]))
  · rintro rfl
    exact ⟨ha, h1⟩

/-- The facts about an edge of a regular vine. -/
theorem good_edge {l r : Node} (h : Good (.edge l r)) : ∃ d, sides l r = some d ∧ Good l ∧ Good r ∧ vars l \ vars r = {own l (!d.1)} ∧ vars r \ vars l = {own r (!d.2)} := by
  cases h with
  | edge _ _ d hl hr hd a1 a2 b1 b2 =>
    exact ⟨d, hd, hl, hr, sdiff_own (own_mem hl _) a1 a2, sdiff_own (own_mem hr _) b1 b2⟩

theorem good_ownVar {l r : Node} {d : Bool × Bool} (h : Good (.edge l r)) (hd : sides l r = some d) : ownVar l r = own l (!d.1) ∧ ownVar r l = own r (!d.2) := by
  obtain ⟨d', hd', _, _, h1, h2⟩ := good_edge h
  rw [hd] at hd'
  cases hd'
  exact ⟨by rw [ownVar, h1, only_singleton], by rw [ownVar, h2, only_singleton]⟩

theorem own_ne {l r : Node} (h : Good (.edge l r)) : own (.edge l r) true ≠ own (.edge l r) false := by
  obtain ⟨d, hd, hl, hr, h1, h2⟩ := good_edge h
  rw [own_left hd, own_right hd]
  intro e
  have a : own l (!d.1) ∈ vars l \ vars r := by rw [h1]; simp
  have := own_mem hr (!d.2)
  rw [← e] at this
  exact (Finset.mem_sdiff.1 a).2 this

theorem good_toSet {a b : Node} (g : Good (.edge a b)) : CondSets.toSet ⟨(own (.edge a b) true, own (.edge a b) false), vars a ∩ vars b⟩ = vars (.edge a b) := by
  obtain ⟨f, hf, _, _, k1, k2⟩ := good_edge g
  simp only [CondSets.toSet, own_left hf, own_right hf, vars]
  ext x
  have m1 := Finset.ext_iff.1 k1 x
  have m2 := Finset.ext_iff.1 k2 x
  simp only [Finset.mem_sdiff, Finset.mem_singleton] at m1 m2
  simp only [Finset.mem_union, Finset.mem_insert, Finset.mem_singleton, Finset.mem_inter, ← m1, ← m2]
  by_cases h1 : x ∈ vars a <;> by_cases h2 : x ∈ vars b <;> simp [h1, h2]

/-- The sets of an edge of a regular vine, as the code computes them. -/
theorem good_condSets (listing : Finset ℕ → List ℕ) (hl : ∀ s, (listing s).Nodup ∧ ∀ a, a ∈ listing s ↔ a ∈ s) {n : Node} (h : Good n) :
    ∀ l r, n = .edge l r → condSets listing n = some ⟨(own n true, own n false), vars l ∩ vars r⟩ := by
  induction h with
  | root i => intro l r e; cases e
  | edge l r d gl gr hd a1 a2 b1 b2 ihl ihr =>
    intro l' r' e
    cases e
    have g : Good (.edge l r) := .edge l r d gl gr hd a1 a2 b1 b2
    match l, r with
    | .root i, .root j =>
      simp only [sides] at hd
      cases hd
      have : i ≠ j := by simpa [own, vars] using a1
      simp [condSets, own, sides, vars, this]
    | .root i, .edge c e => simp [sides] at hd
    | .edge a b, .root j => simp [sides] at hd
    | .edge a b, .edge c e =>
      have el := ihl a b rfl
      have er := ihr c e rfl
      obtain ⟨_, hd', _, _, h1, h2⟩ := good_edge g
      rw [hd] at hd'
      cases hd'
      have tl := good_toSet gl
      have tr := good_toSet gr
      have step : condSets listing (.edge (.edge a b) (.edge c e)) =
          CondSets.add listing ⟨(own (.edge a b) true, own (.edge a b) false), vars a ∩ vars b⟩ ⟨(own (.edge c e) true, own (.edge c e) false), vars c ∩ vars e⟩ := by
        show (condSets listing (.edge a b)).bind _ = _
        rw [el]
        show (condSets listing (.edge c e)).bind _ = _
        rw [er]
        rfl
      rw [step, CondSets.add, tl, tr]
      clear step tl tr el er ihl ihr
      generalize Node.edge a b = L at *
      generalize Node.edge c e = R at *
      have hs : symmDiff (vars L) (vars R) = {own L (!d.1), own R (!d.2)} := by
        rw [symmDiff_def, h1, h2]; rfl
      have hne : own L (!d.1) ≠ own R (!d.2) := by
        have := own_ne g
        rwa [own_left hd, own_right hd] at this
      have hm := hl (symmDiff (vars L) (vars R))
      obtain ⟨xs, hxs⟩ : ∃ xs, xs = listing (symmDiff (vars L) (vars R)) := ⟨_, rfl⟩
      rw [← hxs, hs] at hm
      rw [← hxs, own_left hd, own_right hd]
      have hin : own R (!d.2) = own R true ∨ own R (!d.2) = own R false := by cases d.2 <;> simp
      have hout : ¬ (own L (!d.1) = own R true ∨ own L (!d.1) = own R false) := by
        rintro (h | h)
        · exact a1 (h ▸ own_mem gr true)
        · exact a1 (h ▸ own_mem gr false)
      have hlen : xs.toFinset = {own L (!d.1), own R (!d.2)} := by
        ext x; rw [List.mem_toFinset]; exact hm.2 x
      have hcard : xs.length = 2 := by
        rw [← List.toFinset_card_of_nodup hm.1, hlen, Finset.card_pair hne]
      match xs, hcard with
      | [x, y], _ =>
        have hx : x = own L (!d.1) ∨ x = own R (!d.2) := by simpa using (hm.2 x).1 (by simp)
        have hy : y = own L (!d.1) ∨ y = own R (!d.2) := by simpa using (hm.2 y).1 (by simp)
        have hxy : x ≠ y := by simpa using hm.1
        rcases hx with rfl | rfl
        · have : y = own R (!d.2) := hy.resolve_left (fun h => hxy h.symm)
          subst this
          simp only [if_neg hout]
        · have : y = own L (!d.1) := hy.resolve_right (fun h => hxy h.symm)
          subst this
          simp only [if_pos hin]

theorem good_getVar (listing : Finset ℕ → List ℕ) (hl : ∀ s, (listing s).Nodup ∧ ∀ a, a ∈ listing s ↔ a ∈ s) {n : Node} (h : Good n) (b : Bool) : getVar listing n b = some (own n b) := by
  match n with
  | .root i => rfl
  | .edge l r =>
    simp only [getVar, good_condSets listing hl h l r rfl]
    cases b <;> rfl

end Skfolio.Vine
