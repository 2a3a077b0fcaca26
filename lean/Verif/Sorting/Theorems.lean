import Verif.Sorting.Lemmas
import Mathlib.Data.List.GetD
import Mathlib.Order.Nat
import Mathlib.Algebra.Order.Ring.Rat
import Mathlib.Data.List.Forall2

/-!
C01 (dominance) and C02 (non-dominated sorting), `src/skfolio/utils/sorting.py`.
-/
set_option autoImplicit false

namespace Skfolio.Sorting

variable {α : Type} [LinearOrder α]

/-! ### Specification -/

/-- Pareto dominance as documented: not worse on any objective, strictly better on at least one (greater is better). -/
def Dominates (f g : List α) : Prop :=
  (∀ i (hf : i < f.length) (hg : i < g.length), g[i] ≤ f[i]) ∧
    ∃ i, ∃ (hf : i < f.length) (hg : i < g.length), g[i] < f[i]

/-- `F` is the decomposition of the points `0, …, n-1` into Pareto layers for the relation `D j i` ("j dominates i"):
every point is in exactly one front, no front is empty, and a point is in front number `k` iff it is not in an earlier
front and every point dominating it is in an earlier front. -/
structure IsParetoLayers (n : Nat) (D : Nat → Nat → Prop) (F : List (List Nat)) : Prop where
  cover : F.flatten.Perm (List.range n)
  nonempty : ∀ f ∈ F, f ≠ []
  layer : ∀ k (hk : k < F.length) (i : Nat), i ∈ F[k] ↔
    (i < n ∧ i ∉ (F.take k).flatten ∧ ∀ j, j < n → D j i → j ∈ (F.take k).flatten)

/-- The rows of a two-dimensional array with `m` columns. -/
def Rectangular (m : Nat) (fits : List (List α)) : Prop := ∀ f ∈ fits, f.length = m

/-! ### C01 -/

theorem dominates_iff_zip (f g : List α) (h : f.length = g.length) :
    (List.Forall₂ (fun a b => b ≤ a) f g ∧ ∃ p ∈ f.zip g, p.2 < p.1) ↔ Dominates f g := by
  unfold Dominates
  rw [List.forall₂_iff_get]
  constructor
  · rintro ⟨⟨_, h1⟩, p, hp, h2⟩
    refine ⟨fun i hf hg => by simpa using h1 i hf hg, ?_⟩
    obtain ⟨i, hi, rfl⟩ := List.getElem_of_mem hp
    rw [List.length_zip] at hi
    exact ⟨i, by omega, by omega, by simpa using h2⟩
  · rintro ⟨h1, i, hf, hg, h2⟩
    refine ⟨⟨h, fun i hf hg => by simpa using h1 i hf hg⟩, (f[i], g[i]), ?_, h2⟩
    rw [List.mem_iff_getElem]
    exact ⟨i, by rw [List.length_zip]; omega, by simp⟩

/-- **C01.** On arrays of equal length `dominate` never raises and answers exactly Pareto dominance. -/
theorem C01_dominate_iff (f g : List α) (h : f.length = g.length) :
    (dominate f g = .ok true ↔ Dominates f g) ∧ (dominate f g = .ok false ↔ ¬ Dominates f g) := by
  classical
  rw [← dominates_iff_zip f g h]
  unfold dominate
  rw [dominateLoop_ok false f g h]
  by_cases h1 : List.Forall₂ (fun a b => b ≤ a) f g <;> by_cases h2 : ∃ p ∈ f.zip g, p.2 < p.1 <;>
    simp [h1, h2, -Prod.exists]

example : dominate [3, 2, 5] [3, 1, 5] = .ok true ∧ dominate [3, 2, 5] [3, 1, 6] = .ok false := by decide

/-- **C01.** `dominate` raises exactly when the lengths differ and no objective in the common part is strictly worse
for the first argument. -/
theorem C01_dominate_error_iff (f g : List α) :
    dominate f g = .error .valueError ↔
      (f.length ≠ g.length ∧ ∀ i (hf : i < f.length) (hg : i < g.length), g[i] ≤ f[i]) := by
  unfold dominate
  generalize false = ne
  induction f generalizing g ne with
  | nil => cases g <;> simp [dominateLoop]
  | cons a as ih =>
    cases g with
    | nil => simp [dominateLoop]
    | cons b bs =>
      have key : (∀ i (hf : i < (a :: as).length) (hg : i < (b :: bs).length), (b :: bs)[i] ≤ (a :: as)[i]) ↔
          (b ≤ a ∧ ∀ i (hf : i < as.length) (hg : i < bs.length), bs[i] ≤ as[i]) := by
        constructor
        · intro h
          refine ⟨h 0 (by simp) (by simp), fun i hf hg => ?_⟩
          have := h (i + 1) (by simpa using hf) (by simpa using hg)
          simpa using this
        · rintro ⟨h0, h⟩ i hf hg
          cases i with
          | zero => simpa using h0
          | succ i => simpa using h i (by simpa using hf) (by simpa using hg)
      rw [key]
      rcases lt_trichotomy a b with hab | hab | hab
      · simp [dominateLoop, hab, not_lt_of_gt hab]
      · subst hab; simp [dominateLoop, ih]
      · simp [dominateLoop, hab, ih, hab.le]

example : dominate [3, 2] [3] = .error .valueError ∧ dominate [3] [4, 2] = .ok false := by decide

/-- **C01.** No array dominates itself. -/
theorem C01_irrefl (f : List α) : dominate f f = .ok false := by
  rw [(C01_dominate_iff f f rfl).2]
  rintro ⟨_, i, _, _, h⟩
  exact lt_irrefl _ h

theorem length_of_dominate {f g : List α} (h : dominate f g = .ok true) : f.length = g.length := by
  by_contra hne
  have key : ∀ (ne : Bool) (f g : List α), f.length ≠ g.length → dominateLoop ne f g ≠ .ok true := by
    intro ne f
    induction f generalizing ne with
    | nil => intro g hg; cases g <;> simp_all [dominateLoop]
    | cons a as ih =>
      intro g hg
      cases g with
      | nil => simp [dominateLoop]
      | cons b bs =>
        have hg' : as.length ≠ bs.length := by simpa using hg
        unfold dominateLoop
        split
        · exact ih _ _ hg'
        · split
          · simp
          · exact ih _ _ hg'
  exact key _ _ _ hne h

/-- **C01.** Dominance is asymmetric: if the first array dominates the second, the second does not dominate
the first (and that call does not raise). -/
theorem C01_asymm (f g : List α) (h : dominate f g = .ok true) : dominate g f = .ok false := by
  have hlen := length_of_dominate h
  rw [(C01_dominate_iff f g hlen).1] at h
  rw [(C01_dominate_iff g f hlen.symm).2]
  rintro ⟨h1, _⟩
  obtain ⟨_, i, hf, hg, h2⟩ := h
  exact absurd (h1 i hg hf) (not_le_of_gt h2)

/-- **C01.** Dominance is transitive. -/
theorem C01_trans (f g k : List α) (h1 : dominate f g = .ok true) (h2 : dominate g k = .ok true) :
    dominate f k = .ok true := by
  have l1 := length_of_dominate h1
  have l2 := length_of_dominate h2
  rw [(C01_dominate_iff f g l1).1] at h1
  rw [(C01_dominate_iff g k l2).1] at h2
  rw [(C01_dominate_iff f k (l1.trans l2)).1]
  obtain ⟨a1, i, hf, hg, hi⟩ := h1
  obtain ⟨a2, _⟩ := h2
  refine ⟨fun j hj hj' => (a2 j (by omega) hj').trans (a1 j hj (by omega)), i, hf, by omega, ?_⟩
  exact lt_of_le_of_lt (a2 i hg (by omega)) hi

example : dominate [3, 2] [2, 2] = .ok true ∧ dominate [2, 2] [2, 1] = .ok true := by decide

/-! ### C02 -/

theorem domAt_iff {fits : List (List α)} (i j : Nat) :
    domAt fits i j = true ↔ dominate (fits.getD i []) (fits.getD j []) = .ok true := by
  unfold domAt
  split
  · rename_i b hb; rw [hb]; simp
  · rename_i e he; rw [he]; simp

theorem domAt_asymm (fits : List (List α)) (i j : Nat) (h : domAt fits i j = true) : domAt fits j i = false := by
  unfold domAt at h ⊢
  split at h
  · rename_i b hb
    subst h
    rw [C01_asymm _ _ hb]
  · exact absurd h (by simp)

theorem domAt_trans (fits : List (List α)) (i j k : Nat) (h1 : domAt fits i j = true) (h2 : domAt fits j k = true) :
    domAt fits i k = true := by
  unfold domAt at h1 h2 ⊢
  split at h1
  · rename_i b hb
    subst h1
    split at h2
    · rename_i b' hb'
      subst h2
      rw [C01_trans _ _ _ hb hb']
    · exact absurd h2 (by simp)
  · exact absurd h1 (by simp)

theorem domAt_iff_dominates {m : Nat} {fits : List (List α)} (hr : Rectangular m fits) {i j : Nat}
    (hi : i < fits.length) (hj : j < fits.length) : domAt fits i j = true ↔ Dominates fits[i] fits[j] := by
  rw [domAt_iff, List.getD_eq_getElem _ _ hi, List.getD_eq_getElem _ _ hj]
  refine (C01_dominate_iff _ _ ?_).1
  rw [hr _ (List.getElem_mem hi), hr _ (List.getElem_mem hj)]

/-- "row `i` dominates row `j`" for indices of a table of fitnesses. -/
def RowDominates (fits : List (List α)) (i j : Nat) : Prop :=
  ∃ (hi : i < fits.length) (hj : j < fits.length), Dominates fits[i] fits[j]

theorem layersFrom_spec {dom : Nat → Nat → Bool} {n : Nat} (F : List (List Nat)) (R : List Nat) (hR : R.Nodup)
    (hRn : ∀ x ∈ R, x < n) (h : LayersFrom dom n R F) :
    (R ++ F.flatten).Nodup ∧ (∀ x, x ∈ R ++ F.flatten ↔ x < n) ∧ (∀ f ∈ F, f ≠ []) ∧
    ∀ k (hk : k < F.length) (i : Nat), i ∈ F[k] ↔
      (i < n ∧ i ∉ R ++ (F.take k).flatten ∧ ∀ j, j < n → dom j i = true → j ∈ R ++ (F.take k).flatten) := by
  induction F generalizing R with
  | nil =>
    unfold LayersFrom at h
    exact ⟨by simpa using hR, fun x => ⟨fun hx => hRn x (by simpa using hx), fun hx => by simpa using h x hx⟩,
      by simp, fun k hk => absurd hk (by simp)⟩
  | cons f F ih =>
    obtain ⟨h1, h2, h3, h4⟩ := h
    have hnd : (R ++ f).Nodup := by
      rw [List.nodup_append]
      refine ⟨hR, h2, ?_⟩
      rintro a ha b hb rfl
      exact ((h3 _).1 hb).2.1 ha
    have hlt : ∀ x ∈ R ++ f, x < n := by
      intro x hx
      rcases List.mem_append.1 hx with hx | hx
      · exact hRn x hx
      · exact ((h3 x).1 hx).1
    obtain ⟨i1, i2, i3, i4⟩ := ih (R ++ f) hnd hlt h4
    refine ⟨by simpa [List.append_assoc] using i1, fun x => by simpa [List.append_assoc] using i2 x, ?_, ?_⟩
    · intro g hg
      rcases List.mem_cons.1 hg with rfl | hg
      · exact h1
      · exact i3 g hg
    · intro k hk i
      cases k with
      | zero => simpa using h3 i
      | succ k =>
        have := i4 k (by simpa using hk) i
        simpa [List.append_assoc] using this

/-- **C02.** For every table of fitnesses, `non_denominated_sort` terminates (its `while` loop runs at most `n` times) and
returns exactly the Pareto layers. -/
theorem C02_fronts_are_pareto_layers {m : Nat} (fits : List (List α)) (hr : Rectangular m fits)
    (fuel : Nat) (hfuel : fits.length ≤ fuel) :
    ∃ F, nonDominatedSort fits false fuel = some F ∧ IsParetoLayers fits.length (RowDominates fits) F := by
  obtain ⟨F, h1, h2, _⟩ := sortDom_spec (domAt_asymm fits) (domAt_trans fits) fuel hfuel
  refine ⟨F, h1, ?_⟩
  obtain ⟨a, b, c, d⟩ := layersFrom_spec F [] (by simp) (by simp) h2
  refine ⟨?_, c, ?_⟩
  · rw [List.perm_ext_iff_of_nodup (by simpa using a) List.nodup_range]
    intro x
    have := b x
    simpa using this
  · intro k hk i
    rw [d k hk i]
    simp only [List.nil_append]
    constructor
    · rintro ⟨x, y, z⟩
      refine ⟨x, y, fun j hj hd => z j hj ?_⟩
      obtain ⟨p, q, hd⟩ := hd
      exact (domAt_iff_dominates hr p q).2 hd
    · rintro ⟨x, y, z⟩
      exact ⟨x, y, fun j hj hd => z j hj ⟨hj, x, (domAt_iff_dominates hr hj x).1 hd⟩⟩

/-- A table with ties, three layers and an input order that is not the layer order. -/
example : Rectangular 2 [[1, 1], [3, 2], [2, 3], [2, 2], [3, 2]] ∧
    nonDominatedSort [[1, 1], [3, 2], [2, 3], [2, 2], [3, 2]] false 5 = some [[1, 2, 4], [3], [0]] := by
  refine ⟨?_, by decide⟩
  intro f hf
  simp only [List.mem_cons, List.not_mem_nil, or_false] at hf
  rcases hf with rfl | rfl | rfl | rfl | rfl <;> rfl

/-- **C02.** The fuel of the model is irrelevant once it is at least the number of points: the loop stops by itself. -/
theorem C02_terminates (fits : List (List α)) (firstOnly : Bool) (fuel : Nat) (hfuel : fits.length ≤ fuel) :
    nonDominatedSort fits firstOnly fuel = nonDominatedSort fits firstOnly fits.length ∧
      (nonDominatedSort fits firstOnly fuel).isSome := by
  have mono : ∀ (D : Nat → List Nat) (n fuel : Nat) nd cur fronts r F, peelLoop D n fuel nd cur fronts r = some F →
      ∀ fuel', fuel ≤ fuel' → peelLoop D n fuel' nd cur fronts r = some F := by
    intro D n fuel
    induction fuel with
    | zero =>
      intro nd cur fronts r F h fuel' _
      unfold peelLoop at h ⊢
      split at h
      · simp at h
      · rename_i hr; rw [if_neg hr]; exact h
    | succ fuel ih =>
      intro nd cur fronts r F h fuel' hle
      obtain ⟨fuel', rfl⟩ : ∃ k, fuel' = k + 1 := ⟨fuel' - 1, by omega⟩
      unfold peelLoop at h ⊢
      split at h
      · rename_i hr; rw [if_pos hr]; exact ih _ _ _ _ _ h _ (by omega)
      · rename_i hr; rw [if_neg hr]; exact h
  obtain ⟨F, h1, _, h2⟩ := sortDom_spec (domAt_asymm fits) (domAt_trans fits) fits.length (le_refl _)
  obtain ⟨F', h1', _, h2'⟩ := sortDom_spec (domAt_asymm fits) (domAt_trans fits) fuel hfuel
  have hFF : F' = F := by
    have : sortDom (domAt fits) fits.length false fuel = some F := by
      unfold sortDom at h1 ⊢
      split at h1
      · rename_i hn; rw [if_pos hn]; exact h1
      · rename_i hn
        rw [if_neg hn]
        simp only [Bool.false_eq_true, if_false] at h1 ⊢
        exact mono _ _ _ _ _ _ _ _ h1 _ hfuel
    rw [h1'] at this; simpa using this
  subst hFF
  cases firstOnly
  · unfold nonDominatedSort; rw [h1, h1']; simp
  · unfold nonDominatedSort; rw [h2, h2']; simp

/-- **C02.** With `first_front_only` exactly the first of the fronts is returned; it consists of the points dominated by
no other point. -/
theorem C02_first_front {m : Nat} (fits : List (List α)) (hr : Rectangular m fits) (hne : fits ≠ []) (fuel : Nat)
    (hfuel : fits.length ≤ fuel) :
    ∃ f rest, nonDominatedSort fits true fuel = some [f] ∧ nonDominatedSort fits false fuel = some (f :: rest) ∧
      ∀ i, i ∈ f ↔ (i < fits.length ∧ ¬ ∃ j, RowDominates fits j i) := by
  obtain ⟨F, h1, h2, h3⟩ := sortDom_spec (domAt_asymm fits) (domAt_trans fits) fuel hfuel
  cases F with
  | nil =>
    exfalso
    have hpos : 0 < fits.length := List.length_pos_iff.2 hne
    exact absurd (h2 0 hpos) (by simp)
  | cons f rest =>
    refine ⟨f, rest, h3, h1, fun i => ?_⟩
    obtain ⟨_, _, hl, _⟩ := h2
    rw [hl]
    constructor
    · rintro ⟨a, _, c⟩
      refine ⟨a, ?_⟩
      rintro ⟨j, hj, hi, hd⟩
      exact absurd (c j hj ((domAt_iff_dominates hr hj hi).2 hd)) (by simp)
    · rintro ⟨a, c⟩
      refine ⟨a, by simp, fun j hj hd => ?_⟩
      exact absurd ⟨j, hj, a, (domAt_iff_dominates hr hj a).1 hd⟩ c

example : nonDominatedSort [[1, 1], [3, 2], [2, 3], [2, 2], [3, 2]] true 5 = some [[1, 2, 4]] := by decide

/-- **C02.** Members of the same front never dominate one another, and every member of a later front is dominated by
a member of the front just before it. -/
theorem C02_front_structure {m : Nat} (fits : List (List α)) (hr : Rectangular m fits) (fuel : Nat)
    (hfuel : fits.length ≤ fuel) (F : List (List Nat)) (hF : nonDominatedSort fits false fuel = some F) :
    (∀ k (hk : k < F.length), ∀ i ∈ F[k], ∀ j ∈ F[k], ¬ RowDominates fits i j) ∧
    (∀ k (hk : k + 1 < F.length), ∀ i ∈ F[k + 1], ∃ j ∈ F[k], RowDominates fits j i) := by
  obtain ⟨F', h1, h2⟩ := C02_fronts_are_pareto_layers fits hr fuel hfuel
  rw [h1] at hF
  obtain rfl : F' = F := by simpa using hF
  refine ⟨?_, ?_⟩
  · intro k hk i hi j hj hd
    have a := ((h2.layer k hk j).1 hj).2.2 i ((h2.layer k hk i).1 hi).1 hd
    exact ((h2.layer k hk i).1 hi).2.1 a
  · intro k hk i hi
    obtain ⟨a, b, c⟩ := (h2.layer (k + 1) hk i).1 hi
    by_contra hno
    push Not at hno
    apply b
    have ht : (F'.take (k + 1)).flatten = (F'.take k).flatten ++ F'[k] := by
      rw [List.take_add_one, List.getElem?_eq_getElem (by omega : k < F'.length)]
      simp only [Option.toList_some, List.flatten_append, List.flatten_cons, List.flatten_nil, List.append_nil]
    rw [ht]
    apply List.mem_append.2
    by_cases hik : i ∈ (F'.take k).flatten
    · exact Or.inl hik
    · right
      rw [h2.layer k (by omega)]
      refine ⟨a, hik, fun j hj hd => ?_⟩
      have := c j hj hd
      rw [ht] at this
      rcases List.mem_append.1 this with h | h
      · exact h
      · exact absurd hd (hno j h)

end Skfolio.Sorting
