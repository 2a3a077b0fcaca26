import Verif.Hierarchical.Spec
import Mathlib.Data.List.Nodup
import Mathlib.Data.List.Pairwise
import Mathlib.Tactic.Linarith
import Mathlib.Tactic.FieldSimp
import Mathlib.Tactic.Ring

set_option autoImplicit false

namespace Skfolio.Hierarchical

variable {K : Type*} [Field K] [LinearOrder K]

theorem bisectOne_some {e l r : List ℕ} (h : bisectOne e = some (l, r)) :
    e = l ++ r ∧ l ≠ [] ∧ r ≠ [] ∧ l.length = (l.length + r.length) / 2 ∧
      l.length < e.length ∧ r.length < e.length := by
  unfold bisectOne at h
  split_ifs at h with hlen
  simp only [Option.some.injEq, Prod.mk.injEq] at h
  obtain ⟨rfl, rfl⟩ := h
  refine ⟨(List.take_append_drop _ _).symm, ?_, ?_, ?_, ?_, ?_⟩
  · intro hc
    have := congrArg List.length hc
    rw [List.length_take, List.length_nil] at this
    omega
  · intro hc
    have := congrArg List.length hc
    simp at this
    omega
  · simp; omega
  · simp; omega
  · simp; omega

theorem bisectOne_none {e : List ℕ} (h : bisectOne e = none) : e.length ≤ 1 := by
  unfold bisectOne at h
  split_ifs at h with hlen
  omega

theorem div?_ok {a b c : K} (h : div? a b = .ok c) : b ≠ 0 ∧ c = a / b := by
  unfold div? at h
  split_ifs at h with hb
  exact ⟨hb, by cases h; rfl⟩

theorem div?_of_ne {a b : K} (h : b ≠ 0) : div? a b = .ok (a / b) := by
  unfold div?; rw [if_neg h]

theorem div?_error {a b : K} {e : Error} (h : div? a b = .error e) : e = .notFinite := by
  unfold div? at h
  split_ifs at h
  cases h; rfl

/-- The weights after a split. -/
def scaled (w : ℕ → K) (l r : List ℕ) (a : K) : ℕ → K := fun i =>
  if i ∈ l then w i * a else if i ∈ r then w i * (1 - a) else w i

omit [LinearOrder K] in
theorem headD_mem {l : List ℕ} (h : l ≠ []) : l.headD 0 ∈ l := by
  cases l with
  | nil => exact absurd rfl h
  | cons a t => simp

theorem splitStep_ok {risk : (ℕ → K) → K} {maxW minW w w' : ℕ → K} {l r : List ℕ} {W : K}
    (hl : l ≠ []) (hr : r ≠ []) (hwl : ∀ i ∈ l, w i = W) (hwr : ∀ i ∈ r, w i = W)
    (h : splitStep risk (unitaryRisks risk) maxW minW w (l, r) = .ok w') :
    ∃ a, IsShare risk maxW minW l r W a ∧ w' = scaled w l r a := by
  have h1 := hwl _ (headD_mem hl)
  have h2 := hwr _ (headD_mem hr)
  unfold splitStep at h
  simp only [bind, Except.bind] at h
  split at h
  · exact absurd h (by simp)
  next lr hlr =>
  split at h
  · exact absurd h (by simp)
  next rr hrr =>
  split at h
  · exact absurd h (by simp)
  next q hq =>
  split at h
  · exact absurd h (by simp)
  next a ha =>
  obtain ⟨hs, rfl⟩ := div?_ok hq
  have hw' : w' = scaled w l r a := by
    simp only [pure, Except.pure, Except.ok.injEq] at h
    exact h.symm
  unfold splitFactor at ha
  simp only [h1, h2, bind, Except.bind] at ha
  split at ha
  · exact absurd ha (by simp)
  next hiL hhiL =>
  split at ha
  · exact absurd ha (by simp)
  next loL hloL =>
  split at ha
  · exact absurd ha (by simp)
  next hiR hhiR =>
  split at ha
  · exact absurd ha (by simp)
  next loR hloR =>
  obtain ⟨hW, rfl⟩ := div?_ok hhiL
  obtain ⟨-, rfl⟩ := div?_ok hloL
  obtain ⟨-, rfl⟩ := div?_ok hhiR
  obtain ⟨-, rfl⟩ := div?_ok hloR
  simp only [pure, Except.pure, Except.ok.injEq] at ha
  refine ⟨a, ⟨lr, rr, hlr, hrr, hs, hW, ?_⟩, hw'⟩
  have : (1 : K) - lr / (lr + rr) = rr / (lr + rr) := by
    field_simp
    ring
  rw [← ha, this]
  unfold clamp
  ring

theorem splitStep_of {risk : (ℕ → K) → K} {maxW minW w : ℕ → K} {l r : List ℕ} {W x y : K}
    (hl : l ≠ []) (hr : r ≠ []) (hwl : ∀ i ∈ l, w i = W) (hwr : ∀ i ∈ r, w i = W)
    (hx : clusterRisk risk (unitaryRisks risk) l = .ok x)
    (hy : clusterRisk risk (unitaryRisks risk) r = .ok y) (hxy : x + y ≠ 0) (hW : W ≠ 0) :
    ∃ w', splitStep risk (unitaryRisks risk) maxW minW w (l, r) = .ok w' := by
  have h1 := hwl _ (headD_mem hl)
  have h2 := hwr _ (headD_mem hr)
  unfold splitStep splitFactor
  simp only [hx, hy, bind, Except.bind, div?_of_ne hxy, h1, h2, div?_of_ne hW]
  exact ⟨_, rfl⟩

theorem clusterRisk_error {risk : (ℕ → K) → K} {ar : ℕ → K} {l : List ℕ} {e : Error}
    (h : clusterRisk risk ar l = .error e) : e = .notFinite := by
  unfold clusterRisk invRiskWeights at h
  simp only [bind, Except.bind] at h
  split_ifs at h
  · cases h; rfl
  · cases h; rfl
  · simp [pure, Except.pure] at h

theorem splitStep_error {risk : (ℕ → K) → K} {ar maxW minW w : ℕ → K} {c : List ℕ × List ℕ}
    {e : Error} (h : splitStep risk ar maxW minW w c = .error e) : e = .notFinite := by
  unfold splitStep at h
  simp only [bind, Except.bind] at h
  split at h
  next e1 h1 => cases h; exact clusterRisk_error h1
  split at h
  next e1 h1 => cases h; exact clusterRisk_error h1
  split at h
  next e1 h1 => cases h; exact div?_error h1
  split at h
  next e1 h1 =>
    cases h
    unfold splitFactor at h1
    simp only [bind, Except.bind] at h1
    split at h1
    next e1 h2 => cases h1; exact div?_error h2
    split at h1
    next e1 h2 => cases h1; exact div?_error h2
    split at h1
    next e1 h2 => cases h1; exact div?_error h2
    split at h1
    next e1 h2 => cases h1; exact div?_error h2
    simp [pure, Except.pure] at h1
  simp [pure, Except.pure] at h

theorem foldlM_error {risk : (ℕ → K) → K} {ar maxW minW : ℕ → K} {e : Error}
    (cs : List (List ℕ × List ℕ)) (w : ℕ → K)
    (h : cs.foldlM (splitStep risk ar maxW minW) w = .error e) : e = .notFinite := by
  induction cs generalizing w with
  | nil => simp [pure, Except.pure] at h
  | cons c cs ih =>
    rw [List.foldlM_cons] at h
    simp only [bind, Except.bind] at h
    split at h
    next e1 h1 => cases h; exact splitStep_error h1
    exact ih _ h

/-- The clusters of the next round. -/
def halves (items : List (List ℕ)) : List (List ℕ) :=
  (bisection items).flatMap fun p => [p.1, p.2]

theorem mem_halves {items : List (List ℕ)} {d : List ℕ} :
    d ∈ halves items ↔ ∃ c ∈ items, ∃ l r, bisectOne c = some (l, r) ∧ (d = l ∨ d = r) := by
  unfold halves bisection
  simp only [List.mem_flatMap, List.mem_filterMap, List.mem_cons, List.not_mem_nil, or_false]
  constructor
  · rintro ⟨⟨l, r⟩, ⟨c, hc, h⟩, hd⟩
    exact ⟨c, hc, l, r, h, hd⟩
  · rintro ⟨c, hc, l, r, h, hd⟩
    exact ⟨(l, r), ⟨c, hc, h⟩, hd⟩

theorem hrpLoop_fuel {risk : (ℕ → K) → K} {ar maxW minW : ℕ → K} (f : ℕ)
    (items : List (List ℕ)) (w : ℕ → K) (hlen : ∀ c ∈ items, c.length ≤ f) {e : Error}
    (h : hrpLoop risk ar maxW minW (f + 1) items w = .error e) : e = .notFinite := by
  induction f generalizing items w with
  | zero =>
    cases items with
    | nil => simp [hrpLoop] at h
    | cons c items =>
      rw [hrpLoop] at h
      simp only [bind, Except.bind] at h
      split at h
      next e1 h1 => cases h; exact foldlM_error _ _ h1
      have hnil : halves (c :: items) = [] := by
        rw [List.eq_nil_iff_forall_not_mem]
        intro d hd
        obtain ⟨c', hc', l, r, hb, -⟩ := mem_halves.mp hd
        have h1 := bisectOne_some hb
        have h2 := hlen c' hc'
        omega
      change hrpLoop _ _ _ _ 0 (halves (c :: items)) _ = _ at h
      rw [hnil, hrpLoop] at h
      simp at h
  | succ f ih =>
    cases items with
    | nil => simp [hrpLoop] at h
    | cons c items =>
      rw [hrpLoop] at h
      simp only [bind, Except.bind] at h
      split at h
      next e1 h1 => cases h; exact foldlM_error _ _ h1
      refine ih (halves (c :: items)) _ ?_ h
      intro d hd
      obtain ⟨c', hc', l, r, hb, hd⟩ := mem_halves.mp hd
      have h1 := bisectOne_some hb
      have h2 := hlen c' hc'
      rcases hd with rfl | rfl <;> omega

omit [LinearOrder K] in
theorem scaled_notin (w : ℕ → K) {l r : List ℕ} {a : K} {i : ℕ} (h : i ∉ l ++ r) :
    scaled w l r a i = w i := by
  simp only [List.mem_append, not_or] at h
  simp [scaled, h.1, h.2]

/-- One round of the loop. -/
theorem pass_ok {risk : (ℕ → K) → K} {maxW minW : ℕ → K} (items : List (List ℕ))
    (w w' : ℕ → K) (hd : items.flatten.Nodup)
    (hconst : ∀ c ∈ items, ∀ i ∈ c, w i = w (c.headD 0))
    (h : (bisection items).foldlM (splitStep risk (unitaryRisks risk) maxW minW) w = .ok w') :
    (∀ c ∈ items, ∀ l r, bisectOne c = some (l, r) →
      ∃ a, IsShare risk maxW minW l r (w (c.headD 0)) a ∧
        (∀ i ∈ l, w' i = w (c.headD 0) * a) ∧ (∀ i ∈ r, w' i = w (c.headD 0) * (1 - a))) ∧
    (∀ c ∈ items, bisectOne c = none → ∀ i ∈ c, w' i = w i) ∧
    (∀ i, i ∉ items.flatten → w' i = w i) := by
  induction items generalizing w with
  | nil =>
    simp only [bisection, List.filterMap_nil, List.foldlM_nil, pure, Except.pure,
      Except.ok.injEq] at h
    subst h
    simp
  | cons c items ih =>
    rw [List.flatten_cons] at hd
    have hd' := (List.nodup_append.mp hd)
    have hdisj : ∀ i ∈ c, i ∉ items.flatten := fun i hi hi' => hd'.2.2 i hi i hi' rfl
    cases hb : bisectOne c with
    | none =>
      have : bisection (c :: items) = bisection items := by simp [bisection, hb]
      rw [this] at h
      obtain ⟨h1, h2, h3⟩ := ih w hd'.2.1 (fun c hc => hconst c (by simp [hc])) h
      refine ⟨?_, ?_, ?_⟩
      · intro c' hc' l r hlr
        rcases List.mem_cons.mp hc' with rfl | hc'
        · rw [hb] at hlr; simp at hlr
        · exact h1 c' hc' l r hlr
      · intro c' hc' hn i hi
        rcases List.mem_cons.mp hc' with rfl | hc'
        · exact h3 i (hdisj i hi)
        · exact h2 c' hc' hn i hi
      · intro i hi
        apply h3
        intro hc
        exact hi (by simp only [List.flatten_cons, List.mem_append]; exact Or.inr hc)
    | some p =>
      obtain ⟨l, r⟩ := p
      obtain ⟨rfl, hl, hr, -, -, -⟩ := bisectOne_some hb
      have : bisection ((l ++ r) :: items) = (l, r) :: bisection items := by
        simp [bisection, hb]
      rw [this, List.foldlM_cons] at h
      simp only [bind, Except.bind] at h
      split at h
      · exact absurd h (by simp)
      next w1 hw1 =>
      set W := w ((l ++ r).headD 0) with hW
      have hcl : ∀ i ∈ l, w i = W := fun i hi => hconst (l ++ r) (by simp) i (by simp [hi])
      have hcr : ∀ i ∈ r, w i = W := fun i hi => hconst (l ++ r) (by simp) i (by simp [hi])
      obtain ⟨a, ha, rfl⟩ := splitStep_ok hl hr hcl hcr hw1
      have hkeep : ∀ c' ∈ items, ∀ i ∈ c', scaled w l r a i = w i := by
        intro c' hc' i hi
        apply scaled_notin
        intro hi'
        exact hdisj i hi' (List.mem_flatten.mpr ⟨c', hc', hi⟩)
      have hhead : ∀ c' ∈ items, scaled w l r a (c'.headD 0) = w (c'.headD 0) ∨ c' = [] := by
        intro c' hc'
        by_cases hn : c' = []
        · exact Or.inr hn
        · exact Or.inl (hkeep c' hc' _ (headD_mem hn))
      obtain ⟨h1, h2, h3⟩ := ih (scaled w l r a) hd'.2.1 (by
        intro c' hc' i hi
        rcases hhead c' hc' with hh | rfl
        · rw [hkeep c' hc' i hi, hh]; exact hconst c' (by simp [hc']) i hi
        · simp at hi) h
      have hlr : ∀ i ∈ l, i ∉ r := by
        intro i hi hi'
        exact (List.nodup_append.mp hd'.1).2.2 i hi i hi' rfl
      refine ⟨?_, ?_, ?_⟩
      · intro c' hc' l' r' hlr'
        rcases List.mem_cons.mp hc' with rfl | hc'
        · rw [hb] at hlr'
          simp only [Option.some.injEq, Prod.mk.injEq] at hlr'
          obtain ⟨rfl, rfl⟩ := hlr'
          refine ⟨a, ha, ?_, ?_⟩
          · intro i hi
            rw [h3 i (hdisj i (by simp [hi]))]
            show scaled w l r a i = W * a
            unfold scaled
            rw [if_pos hi, hcl i hi]
          · intro i hi
            rw [h3 i (hdisj i (by simp [hi]))]
            have : i ∉ l := fun h => hlr i h hi
            show scaled w l r a i = W * (1 - a)
            unfold scaled
            rw [if_neg this, if_pos hi, hcr i hi]
        · obtain ⟨a', hs, hl', hr'⟩ := h1 c' hc' l' r' hlr'
          have hne : c' ≠ [] := by
            rintro rfl
            simp [bisectOne] at hlr'
          rcases hhead c' hc' with hh | hh
          · rw [hh] at hs hl' hr'
            exact ⟨a', hs, hl', hr'⟩
          · exact absurd hh hne
      · intro c' hc' hn i hi
        rcases List.mem_cons.mp hc' with rfl | hc'
        · rw [hb] at hn; simp at hn
        · rw [h2 c' hc' hn i hi, hkeep c' hc' i hi]
      · intro i hi
        simp only [List.flatten_cons, List.mem_append, not_or] at hi
        rw [h3 i hi.2]
        apply scaled_notin
        simp only [List.mem_append, not_or]
        exact hi.1

omit [Field K] [LinearOrder K] in
theorem halves_cons (c : List ℕ) (items : List (List ℕ)) :
    halves (c :: items) =
      (match bisectOne c with | none => [] | some p => [p.1, p.2]) ++ halves items := by
  unfold halves bisection
  rw [List.filterMap_cons]
  cases bisectOne c with
  | none => simp
  | some p => simp

theorem halves_sublist (items : List (List ℕ)) :
    (halves items).flatten.Sublist items.flatten := by
  induction items with
  | nil => simp [halves, bisection]
  | cons c items ih =>
    rw [halves_cons, List.flatten_cons, List.flatten_append]
    apply List.Sublist.append _ ih
    cases hb : bisectOne c with
    | none => simp
    | some p =>
      obtain ⟨l, r⟩ := p
      obtain ⟨rfl, -⟩ := bisectOne_some hb
      simp

/-- The loop refines the recursive specification. -/
theorem hrpLoop_alloc {risk : (ℕ → K) → K} {maxW minW : ℕ → K} (f : ℕ)
    (items : List (List ℕ)) (w w' : ℕ → K) (hne : ∀ c ∈ items, c ≠ [])
    (hd : items.flatten.Nodup) (hconst : ∀ c ∈ items, ∀ i ∈ c, w i = w (c.headD 0))
    (h : hrpLoop risk (unitaryRisks risk) maxW minW f items w = .ok w') :
    (∀ c ∈ items, Alloc risk maxW minW c (w (c.headD 0)) w') ∧
      ∀ i, i ∉ items.flatten → w' i = w i := by
  induction f generalizing items w with
  | zero =>
    cases items with
    | nil =>
      rw [hrpLoop] at h
      cases h
      simp
    | cons c items => simp [hrpLoop] at h
  | succ f ih =>
    cases items with
    | nil =>
      rw [hrpLoop] at h
      cases h
      simp
    | cons c0 items0 =>
      rw [hrpLoop] at h
      simp only [bind, Except.bind] at h
      split at h
      · exact absurd h (by simp)
      next w1 hw1 =>
      generalize hit : c0 :: items0 = items at *
      change hrpLoop _ _ _ _ f (halves items) w1 = _ at h
      obtain ⟨p1, p2, p3⟩ := pass_ok items w w1 hd hconst hw1
      have hsub := halves_sublist items
      have key : ∀ d ∈ halves items, ∃ v, ∀ i ∈ d, w1 i = v := by
        intro d hdm
        obtain ⟨c, hc, l, r, hb, hd'⟩ := mem_halves.mp hdm
        obtain ⟨a, -, hl, hr⟩ := p1 c hc l r hb
        rcases hd' with rfl | rfl
        · exact ⟨_, hl⟩
        · exact ⟨_, hr⟩
      have hne' : ∀ d ∈ halves items, d ≠ [] := by
        intro d hdm
        obtain ⟨c, hc, l, r, hb, hd'⟩ := mem_halves.mp hdm
        obtain ⟨-, hl, hr, -⟩ := bisectOne_some hb
        rcases hd' with rfl | rfl
        · exact hl
        · exact hr
      obtain ⟨q1, q2⟩ := ih (halves items) w1 hne' (hsub.nodup hd) (by
        intro d hdm i hi
        obtain ⟨v, hv⟩ := key d hdm
        rw [hv i hi, hv _ (headD_mem (hne' d hdm))]) h
      refine ⟨?_, ?_⟩
      · intro c hc
        cases hb : bisectOne c with
        | none =>
          have hlen := bisectOne_none hb
          obtain ⟨i, rfl⟩ : ∃ i, c = [i] := by
            cases c with
            | nil => exact absurd rfl (hne [] hc)
            | cons i t =>
              cases t with
              | nil => exact ⟨i, rfl⟩
              | cons j t => simp at hlen
          have hi : w' i = w i := by
            rw [q2 i, p2 [i] hc hb i (by simp)]
            intro hmem
            obtain ⟨d, hdm, hid⟩ := List.mem_flatten.mp hmem
            obtain ⟨c', hc', l, r, hb', hd'⟩ := mem_halves.mp hdm
            have hic' : i ∈ c' := by
              obtain ⟨rfl, -⟩ := bisectOne_some hb'
              rcases hd' with rfl | rfl
              · simp [hid]
              · simp [hid]
            have : c' = [i] := by
              by_contra hcne
              have hpw := (List.nodup_flatten.mp hd).2
              have : Std.Symm (α := List ℕ) List.Disjoint := ⟨fun _ _ h _ ha hb => h hb ha⟩
              have := List.Pairwise.forall hpw hc' hc hcne
              exact this hic' (by simp)
            rw [this] at hb'
            rw [hb] at hb'
            simp at hb'
          have : w ([i].headD 0) = w' i := by simp [hi]
          rw [this]
          exact Alloc.single i w'
        | some p =>
          obtain ⟨l, r⟩ := p
          obtain ⟨hc', hl, hr, hhalf, -, -⟩ := bisectOne_some hb
          obtain ⟨a, hs, hwl, hwr⟩ := p1 c hc l r hb
          have al := q1 l (mem_halves.mpr ⟨c, hc, l, r, hb, Or.inl rfl⟩)
          have ar := q1 r (mem_halves.mpr ⟨c, hc, l, r, hb, Or.inr rfl⟩)
          rw [hwl _ (headD_mem hl)] at al
          rw [hwr _ (headD_mem hr)] at ar
          generalize w (c.headD 0) = W at *
          subst hc'
          exact Alloc.split l r W a w' hl hr hhalf hs al ar
      · intro i hi
        rw [q2 i, p3 i hi]
        intro hmem
        exact hi (hsub.mem hmem)

/-- Success of the loop: `B c W` says that the cluster `c` may hold the budget `W`. -/
theorem hrpLoop_succeeds {risk : (ℕ → K) → K} {maxW minW : ℕ → K} (B : List ℕ → K → Prop)
    (hstep : ∀ l r W, l ≠ [] → r ≠ [] → B (l ++ r) W →
      ∃ x y, clusterRisk risk (unitaryRisks risk) l = .ok x ∧
        clusterRisk risk (unitaryRisks risk) r = .ok y ∧ x + y ≠ 0 ∧ W ≠ 0)
    (hB : ∀ l r W a, l ≠ [] → r ≠ [] → B (l ++ r) W → IsShare risk maxW minW l r W a →
      B l (W * a) ∧ B r (W * (1 - a)))
    (f : ℕ) (items : List (List ℕ)) (w : ℕ → K) (hlen : ∀ c ∈ items, c.length ≤ f)
    (hne : ∀ c ∈ items, c ≠ []) (hd : items.flatten.Nodup)
    (hconst : ∀ c ∈ items, ∀ i ∈ c, w i = w (c.headD 0))
    (hBi : ∀ c ∈ items, B c (w (c.headD 0))) :
    ∃ w', hrpLoop risk (unitaryRisks risk) maxW minW (f + 1) items w = .ok w' := by
  have fold : ∀ (items : List (List ℕ)) (w : ℕ → K), items.flatten.Nodup →
      (∀ c ∈ items, c ≠ []) →
      (∀ c ∈ items, ∀ i ∈ c, w i = w (c.headD 0)) → (∀ c ∈ items, B c (w (c.headD 0))) →
      ∃ w', (bisection items).foldlM (splitStep risk (unitaryRisks risk) maxW minW) w
        = .ok w' := by
    intro items
    induction items with
    | nil => intro w _ _ _ _; exact ⟨w, by simp [bisection, pure, Except.pure]⟩
    | cons c items ih =>
      intro w hd hne hconst hBi
      rw [List.flatten_cons] at hd
      have hd' := (List.nodup_append.mp hd)
      have hdisj : ∀ i ∈ c, i ∉ items.flatten := fun i hi hi' => hd'.2.2 i hi i hi' rfl
      cases hb : bisectOne c with
      | none =>
        have : bisection (c :: items) = bisection items := by simp [bisection, hb]
        rw [this]
        exact ih w hd'.2.1 (fun c hc => hne c (by simp [hc]))
          (fun c hc => hconst c (by simp [hc])) (fun c hc => hBi c (by simp [hc]))
      | some p =>
        obtain ⟨l, r⟩ := p
        obtain ⟨rfl, hl, hr, -, -, -⟩ := bisectOne_some hb
        have : bisection ((l ++ r) :: items) = (l, r) :: bisection items := by
          simp [bisection, hb]
        rw [this, List.foldlM_cons]
        set W := w ((l ++ r).headD 0) with hW
        have hcl : ∀ i ∈ l, w i = W := fun i hi => hconst (l ++ r) (by simp) i (by simp [hi])
        have hcr : ∀ i ∈ r, w i = W := fun i hi => hconst (l ++ r) (by simp) i (by simp [hi])
        obtain ⟨x, y, hx, hy, hxy, hW0⟩ := hstep l r W hl hr (hBi _ (by simp))
        obtain ⟨w1, hw1⟩ := splitStep_of (maxW := maxW) (minW := minW) hl hr hcl hcr hx hy hxy hW0
        obtain ⟨a, -, rfl⟩ := splitStep_ok hl hr hcl hcr hw1
        simp only [bind, Except.bind, hw1]
        have hkeep : ∀ c' ∈ items, ∀ i ∈ c', scaled w l r a i = w i := by
          intro c' hc' i hi
          apply scaled_notin
          intro hi'
          exact hdisj i hi' (List.mem_flatten.mpr ⟨c', hc', hi⟩)
        have hhead : ∀ c' ∈ items, scaled w l r a (c'.headD 0) = w (c'.headD 0) :=
          fun c' hc' => hkeep c' hc' _ (headD_mem (hne c' (by simp [hc'])))
        refine ih (scaled w l r a) hd'.2.1 (fun c hc => hne c (by simp [hc])) ?_ ?_
        · intro c' hc' i hi
          rw [hkeep c' hc' i hi, hhead c' hc']
          exact hconst c' (by simp [hc']) i hi
        · intro c' hc'
          rw [hhead c' hc']
          exact hBi c' (by simp [hc'])
  induction f generalizing items w with
  | zero =>
    cases items with
    | nil => exact ⟨w, by rw [hrpLoop]⟩
    | cons c items =>
      have h1 := hlen c (by simp)
      have h2 := hne c (by simp)
      exact absurd (List.length_eq_zero_iff.mp (by omega)) h2
  | succ f ih =>
    cases items with
    | nil => exact ⟨w, by rw [hrpLoop]⟩
    | cons c0 items0 =>
      rw [hrpLoop]
      generalize hit : c0 :: items0 = items at *
      obtain ⟨w1, hw1⟩ := fold items w hd hne hconst hBi
      simp only [bind, Except.bind, hw1]
      change ∃ w', hrpLoop _ _ _ _ (f + 1) (halves items) w1 = _
      obtain ⟨p1, p2, p3⟩ := pass_ok items w w1 hd hconst hw1
      have hne' : ∀ d ∈ halves items, d ≠ [] := by
        intro d hdm
        obtain ⟨c, hc, l, r, hb, hd'⟩ := mem_halves.mp hdm
        obtain ⟨-, hl, hr, -⟩ := bisectOne_some hb
        rcases hd' with rfl | rfl
        · exact hl
        · exact hr
      have key : ∀ d ∈ halves items, ∃ v, (∀ i ∈ d, w1 i = v) ∧ B d v := by
        intro d hdm
        obtain ⟨c, hc, l, r, hb, hd'⟩ := mem_halves.mp hdm
        obtain ⟨a, hs, hl, hr⟩ := p1 c hc l r hb
        obtain ⟨hcc, hln, hrn, -⟩ := bisectOne_some hb
        have hBc := hBi c hc
        generalize w (c.headD 0) = W at *
        subst hcc
        have := hB l r W a hln hrn hBc hs
        rcases hd' with rfl | rfl
        · exact ⟨_, hl, this.1⟩
        · exact ⟨_, hr, this.2⟩
      refine ih (halves items) w1 ?_ hne' ((halves_sublist items).nodup hd) ?_ ?_
      · intro d hdm
        obtain ⟨c, hc, l, r, hb, hd'⟩ := mem_halves.mp hdm
        have h1 := bisectOne_some hb
        have h2 := hlen c hc
        rcases hd' with rfl | rfl <;> omega
      · intro d hdm i hi
        obtain ⟨v, hv, -⟩ := key d hdm
        rw [hv i hi, hv _ (headD_mem (hne' d hdm))]
      · intro d hdm
        obtain ⟨v, hv, hBv⟩ := key d hdm
        rw [hv _ (headD_mem (hne' d hdm))]
        exact hBv

end Skfolio.Hierarchical
