import Verif.Convex.WeightTheorems

/-! C20: the mixed-integer constraints are the cardinality and threshold limits. -/
set_option autoImplicit false

namespace Skfolio.Convex

section
variable {K : Type} [Field K] [LinearOrder K] [IsStrictOrderedRing K] {n : Nat}

theorem ind_true : (ind true : K) = 1 := rfl
theorem ind_false : (ind false : K) = 0 := rfl

theorem ind_nonneg (b : Bool) : (0 : K) ≤ ind b := by cases b <;> simp [ind]

/-- The linearised product is the product. -/
theorem linearised_eq (fv : Bool) (k : K) (b : Fin n → Bool) (x : Fin n → K) (h : linearised fv k b x) (hk1 : fv = false → k = 1) (i : Fin n) :
    x i = ind (b i) * k := by
  unfold linearised at h
  cases fv with
  | false =>
    rw [hk1 rfl, mul_one]
    simpa using h i
  | true =>
    simp only [if_true] at h
    obtain ⟨h0, h1, h2, h3⟩ := h
    cases hb : b i with
    | false =>
      have := h2 i
      rw [hb, ind_false, mul_zero] at this
      rw [ind_false, zero_mul]
      exact le_antisymm this (h0 i)
    | true =>
      have := h3 i
      rw [hb, ind_true, sub_self, mul_zero, sub_zero] at this
      rw [ind_true, one_mul]
      exact le_antisymm (h1 i) this

/-- The linearisation limits the scale to the big M. -/
theorem linearised_le (k : K) (b : Fin n → Bool) (x : Fin n → K) (h : linearised true k b x) (i : Fin n) : k ≤ 1000 := by
  unfold linearised at h
  simp only [if_true] at h
  obtain ⟨h0, h1, h2, h3⟩ := h
  have a1 := h3 i
  have a2 := h2 i
  have hM : (bigM : K) = 1000 := rfl
  cases hb : b i with
  | false =>
    rw [hb, ind_false] at a1 a2
    rw [hM] at a1 a2
    linarith
  | true =>
    rw [hb, ind_true] at a1 a2
    rw [hM] at a1 a2
    linarith

theorem linearised_mk (fv : Bool) (k : K) (b : Fin n → Bool) (hk : 0 < k) (hk1 : fv = false → k = 1) (hM : fv = true → k ≤ 1000) :
    linearised fv k b fun i => ind (b i) * k := by
  unfold linearised
  cases fv with
  | false =>
    rw [hk1 rfl]
    simp
  | true =>
    have h := hM rfl
    have hB : (bigM : K) = 1000 := rfl
    simp only [if_true]
    rw [hB]
    refine ⟨fun i => mul_nonneg (ind_nonneg _) hk.le, fun i => ?_, fun i => ?_, fun i => ?_⟩ <;> cases b i <;>
      simp only [ind_true, ind_false] <;> linarith

theorem invested_cast (w : Fin n → K) (g : Fin n → Bool) : (invested w g : K) = ∑ i, ind (g i) * ind (decide (w i ≠ 0)) := by
  unfold invested
  rw [Finset.card_filter, Nat.cast_sum]
  refine Finset.sum_congr rfl fun i _ => ?_
  by_cases h1 : g i = true <;> by_cases h2 : w i = 0 <;> simp [ind, h1, h2]

theorem invested_scale (w : Fin n → K) (k : K) (hk : 0 < k) (g : Fin n → Bool) : invested (fun i => w i / k) g = invested w g := by
  unfold invested
  congr 1
  ext i
  simp [hk.ne']

theorem invested_le (w : Fin n → K) (g : Fin n → Bool) : invested w g ≤ n := by
  unfold invested
  exact (Finset.card_le_univ _).trans (by simp)

theorem cardinality_sound (p : Params K n) (w b : Fin n → K) (hb0 : ∀ i, 0 ≤ b i) (hb : ∀ i, w i ≠ 0 → 1 ≤ b i) (h : cardinalityConstraints p b) :
    (∀ c, p.cardinality = some c → invested w (fun _ => true) ≤ c) ∧
      ∀ rows, p.groupCardinalities = some rows → ∀ row ∈ rows, invested w row.1 ≤ row.2 := by
  have hle : ∀ g : Fin n → Bool, (invested w g : K) ≤ ∑ i, ind (g i) * b i := by
    intro g
    rw [invested_cast]
    refine Finset.sum_le_sum fun i _ => mul_le_mul_of_nonneg_left ?_ (ind_nonneg _)
    by_cases hw : w i = 0
    · simp [hw, ind, hb0 i]
    · simpa [hw, ind] using hb i hw
  refine ⟨fun c hc => ?_, fun rows hr row hrow => ?_⟩
  · by_cases hcn : c < n
    · have h1 := h.1 c hc hcn
      have h2 := hle fun _ => true
      simp only [ind_true, one_mul] at h2
      exact_mod_cast h2.trans h1
    · exact (invested_le w _).trans (by omega)
  · have h1 := h.2 rows hr row hrow
    have h2 := hle row.1
    have : (invested w row.1 : K) ≤ (row.2 : K) := by linarith
    exact_mod_cast this

theorem cardinality_complete (p : Params K n) (w b : Fin n → K) (hb : ∀ i, b i = ind (decide (w i ≠ 0)))
    (h1 : ∀ c, p.cardinality = some c → invested w (fun _ => true) ≤ c)
    (h2 : ∀ rows, p.groupCardinalities = some rows → ∀ row ∈ rows, invested w row.1 ≤ row.2) : cardinalityConstraints p b := by
  have hb' : b = fun i => ind (decide (w i ≠ 0)) := funext hb
  subst hb'
  refine ⟨fun c hc _ => ?_, fun rows hr row hrow => ?_⟩
  · have h := h1 c hc
    have h' : (invested w (fun _ => true) : K) ≤ (c : K) := by exact_mod_cast h
    rw [invested_cast] at h'
    simpa [ind_true] using h'
  · have h := h2 rows hr row hrow
    have h' : (invested w row.1 : K) ≤ (row.2 : K) := by exact_mod_cast h
    rw [invested_cast] at h'
    linarith

omit [IsStrictOrderedRing K] in
theorem effective_none (th t : Option (Fin n → K)) (ht : effective th = t) (hn : t = none) (f : Fin n → K) (hf : th = some f) (i : Fin n) : f i = 0 := by
  subst hf hn
  unfold effective at ht
  simp only at ht
  split_ifs at ht with h
  exact h i

omit [IsStrictOrderedRing K] in
theorem effective_some (th : Option (Fin n → K)) (t : Fin n → K) (ht : effective th = some t) : th = some t := by
  unfold effective at ht
  cases th with
  | none => simp at ht
  | some f =>
    simp only at ht
    split_ifs at ht
    exact ht

omit [IsStrictOrderedRing K] in
/-- Which formulation is used. -/
theorem mip_cases (p : Params K n) (fv : Bool) (s : K) (m : List (Constraint K n)) (h : mipPart p fv s = .ok m) :
    (isMip p = false ∧ m = []) ∨
    ∃ minW maxW, p.minWeights = some minW ∧ p.maxWeights = some maxW ∧
      ((∃ tl ts, p.thresholdLong = some tl ∧ p.thresholdShort = some ts ∧ m = [mipShort p minW maxW tl ts fv s]) ∨
       ((p.thresholdLong.isSome = true → ∀ i, 0 ≤ minW i) ∧ (p.thresholdShort.isSome = true → ∀ i, 0 ≤ minW i) ∧
          m = [mipNoShort p minW maxW (effective p.thresholdLong) fv s])) := by
  unfold mipPart at h
  split_ifs at h with hm
  · right
    unfold mipConstraint at h
    split at h
    · cases h
    · cases h
    · rename_i minW maxW h1 h2
      refine ⟨minW, maxW, h1, h2, ?_⟩
      split_ifs at h with g1 g2 g3 g4
      · split at h
        · rename_i tl ts e1 e2
          cases h
          exact Or.inl ⟨tl, ts, effective_some _ _ e1, effective_some _ _ e2, rfl⟩
        · cases h
      · cases h
        refine Or.inr ⟨fun hl i => ?_, fun hsh i => ?_, rfl⟩
        · by_contra hneg
          rw [not_le] at hneg
          have hex : ∃ i, minW i < 0 := ⟨i, hneg⟩
          simp [hl, hex] at g2 g4
          simp [g2] at g4
        · by_contra hneg
          rw [not_le] at hneg
          have hex : ∃ i, minW i < 0 := ⟨i, hneg⟩
          simp [hsh, hex] at g4
  · left
    cases h
    exact ⟨by simpa using hm, rfl⟩

theorem isMip_false (p : Params K n) (h : isMip p = false) :
    (∀ c, p.cardinality = some c → n ≤ c) ∧ p.groupCardinalities = none ∧ p.thresholdLong = none ∧ p.thresholdShort = none := by
  unfold isMip at h
  simp only [Bool.or_eq_false_iff, Option.isSome_eq_false_iff, Option.isNone_iff_eq_none] at h
  obtain ⟨⟨⟨h1, h2⟩, h3⟩, h4⟩ := h
  refine ⟨fun c hc => ?_, h2, h3, h4⟩
  rw [hc] at h1
  simpa using h1

/-- **C20.** Every feasible point of the optimisation respects the cardinalities and the thresholds. -/
theorem C20_sound (p : Params K n) (fv al : Bool) (s k : K) (hs : 0 < s) (hk : 0 < k) (hk1 : fv = false → k = 1) (w : Fin n → K)
    (cs : List (Constraint K n)) (h : getWeightConstraints p fv al s = .ok cs) (hw : Holds cs w k) : RespectsCardinality p fun i => w i / k := by
  have hlim := C19_weight_limits_mip p fv al s k hs hk w cs h hw
  obtain ⟨a, m, ha, hm, rfl, -⟩ := constraints_split p fv al s cs h
  rw [holds_append, holds_append] at hw
  have hwm := hw.1.2
  have hpos : ∀ i, 0 < w i / k ↔ 0 < w i := fun i => div_pos_iff_of_pos_right hk
  have hneg : ∀ i, w i / k < 0 ↔ w i < 0 := fun i => by rw [div_lt_iff₀ hk, zero_mul]
  rcases mip_cases p fv s m hm with ⟨hmip, rfl⟩ | ⟨minW, maxW, hmin, hmax, ⟨tl, ts, htl, hts, rfl⟩ | ⟨hl, hsh, rfl⟩⟩
  · obtain ⟨h1, h2, h3, h4⟩ := isMip_false p hmip
    refine ⟨fun c hc => (invested_le _ _).trans (h1 c hc), ?_, ?_, ?_⟩
    · rw [h2]; simp
    · rw [h3]; simp
    · rw [h4]; simp
  · rw [holds_single] at hwm
    obtain ⟨bs, bl, xs, xl, hc, hls, hll, hone, hle, hge, htL, htS⟩ := hwm
    have exs := linearised_eq fv k bs xs hls hk1
    have exl := linearised_eq fv k bl xl hll hk1
    have hL : ∀ i, 0 < w i → bl i = true := by
      intro i hi
      by_contra hb
      have hbf : bl i = false := by simpa using hb
      have := hle i
      rw [exl, hbf, ind_false, zero_mul, zero_mul, zero_mul] at this
      have := mul_pos hi hs
      linarith
    have hS : ∀ i, w i < 0 → bs i = true := by
      intro i hi
      by_contra hb
      have hbf : bs i = false := by simpa using hb
      have := hge i
      rw [exs, hbf, ind_false, zero_mul, zero_mul, zero_mul] at this
      have := mul_neg_of_neg_of_pos hi hs
      linarith
    obtain ⟨c1, c2⟩ := cardinality_sound p w _ (fun i => add_nonneg (ind_nonneg _) (ind_nonneg _)) (fun i hi => by
      rcases lt_or_gt_of_ne hi with h' | h'
      · rw [hS i h', ind_true]
        linarith [ind_nonneg (K := K) (bl i)]
      · rw [hL i h', ind_true]
        linarith [ind_nonneg (K := K) (bs i)]) hc
    refine ⟨?_, ?_, ?_, ?_⟩
    · simpa only [invested_scale w k hk] using c1
    · simpa only [invested_scale w k hk] using c2
    · intro th hth i hi
      rw [htl, Option.some.injEq] at hth
      subst hth
      have := htL i
      rw [exl, hL i ((hpos i).1 hi), ind_true] at this
      rw [one_mul, sub_self, mul_zero, zero_mul, sub_zero, mul_comm k] at this
      exact (ge_scaled hs hk).1 this
    · intro th hth i hi
      rw [hts, Option.some.injEq] at hth
      subst hth
      have := htS i
      rw [exs, hS i ((hneg i).1 hi), ind_true] at this
      rw [one_mul, sub_self, mul_zero, zero_mul, add_zero, mul_comm k] at this
      exact (le_scaled hs hk).1 this
  · rw [holds_single] at hwm
    obtain ⟨b, x, hc, hlin, hth, hle, hge⟩ := hwm
    have ex := linearised_eq fv k b x hlin hk1
    have hmn := hlim.atLeast minW hmin
    have hB : ∀ i, w i ≠ 0 → b i = true := by
      intro i hi
      by_contra hb
      have hbf : b i = false := by simpa using hb
      have h1 := hle i
      rw [ex, hbf, ind_false, zero_mul, zero_mul, zero_mul] at h1
      have hw0 : w i ≤ 0 := by
        by_contra hcon
        have := mul_pos (not_le.1 hcon) hs
        linarith
      by_cases hneg' : ∃ j, minW j < 0
      · have h2 := hge hneg' i
        rw [ex, hbf, ind_false, zero_mul, zero_mul, zero_mul] at h2
        have hw1 : 0 ≤ w i := by
          by_contra hcon
          have := mul_neg_of_neg_of_pos (not_le.1 hcon) hs
          linarith
        exact hi (le_antisymm hw0 hw1)
      · have h3 : 0 ≤ minW i := by
          by_contra hcon
          exact hneg' ⟨i, not_le.1 hcon⟩
        have h4 := h3.trans (hmn i)
        have : 0 ≤ w i := by
          by_contra hcon
          have := (hneg i).2 (not_le.1 hcon)
          linarith
        exact hi (le_antisymm hw0 this)
    obtain ⟨c1, c2⟩ := cardinality_sound p w _ (fun i => ind_nonneg _) (fun i hi => by rw [hB i hi, ind_true]) hc
    refine ⟨?_, ?_, ?_, ?_⟩
    · simpa only [invested_scale w k hk] using c1
    · simpa only [invested_scale w k hk] using c2
    · intro th hth' i hi
      cases he : effective p.thresholdLong with
      | none =>
        rw [effective_none _ _ he rfl th hth' i]
        exact hi.le
      | some t =>
        have := effective_some _ _ he
        rw [hth', Option.some.injEq] at this
        subst this
        have h1 := hth th he i
        rw [ex, hB i ((hpos i).1 hi).ne', ind_true, one_mul, mul_comm k] at h1
        exact (ge_scaled hs hk).1 h1
    · intro th hth' i hi
      have := hsh (by rw [hth']; rfl) i
      have h4 := this.trans (hmn i)
      linarith

/-- **C20.** Conversely every portfolio that respects the limits is feasible, provided the scale and the weights do not exceed the big M. -/
theorem C20_complete (p : Params K n) (fv al : Bool) (s k : K) (hs : 0 < s) (hk : 0 < k) (hk1 : fv = false → k = 1) (hkM : fv = true → k ≤ 1000)
    (w : Fin n → K) (hwM : ∀ i, |w i| ≤ 1000) (cs : List (Constraint K n)) (h : getWeightConstraints p fv al s = .ok cs)
    (hlim : RespectsLimits p fun i => w i / k) (hcard : RespectsCardinality p fun i => w i / k) : Holds cs w k := by
  obtain ⟨a, m, ha, hm, rfl, -⟩ := constraints_split p fv al s cs h
  obtain ⟨h1, h2⟩ := (limits_iff p al s k hs hk w a ha).2 hlim
  rw [holds_append, holds_append]
  refine ⟨⟨h1, ?_⟩, h2⟩
  have hpos : ∀ i, 0 < w i / k ↔ 0 < w i := fun i => div_pos_iff_of_pos_right hk
  have hneg : ∀ i, w i / k < 0 ↔ w i < 0 := fun i => by rw [div_lt_iff₀ hk, zero_mul]
  have c1 := hcard.cardinality
  have c2 := hcard.groups
  simp only [invested_scale w k hk] at c1 c2
  rcases mip_cases p fv s m hm with ⟨hmip, rfl⟩ | ⟨minW, maxW, hmin, hmax, ⟨tl, ts, htl, hts, rfl⟩ | ⟨hl, hsh, rfl⟩⟩
  · exact holds_nil _ _
  · rw [holds_single]
    have hlo := hlim.atLeast minW hmin
    have hhi := hlim.atMost maxW hmax
    have hB : (bigM : K) = 1000 := rfl
    refine ⟨fun i => decide (w i < 0), fun i => decide (0 < w i), _, _, cardinality_complete p w _ ?_ c1 c2, linearised_mk fv k _ hk hk1 hkM,
      linearised_mk fv k _ hk hk1 hkM, ?_, ?_, ?_, ?_, ?_⟩
    · intro i
      rcases lt_trichotomy (w i) 0 with h' | h' | h'
      · simp [ind, h', h'.ne, h'.not_gt]
      · simp [ind, h']
      · simp [ind, h', h'.ne', h'.not_gt]
    · intro i
      rcases lt_trichotomy (w i) 0 with h' | h' | h'
      · simp [ind, h', h'.not_gt]
      · simp [ind, h']
      · simp [ind, h', h'.not_gt]
    · intro i
      by_cases h' : 0 < w i
      · simp only [h', decide_true, ind_true, one_mul]
        rw [mul_comm k]
        exact (le_scaled hs hk).2 (hhi i)
      · simp only [h', decide_false, ind_false, zero_mul]
        exact mul_nonpos_of_nonpos_of_nonneg (not_lt.1 h') hs.le
    · intro i
      by_cases h' : w i < 0
      · simp only [h', decide_true, ind_true, one_mul]
        rw [mul_comm k]
        exact (ge_scaled hs hk).2 (hlo i)
      · simp only [h', decide_false, ind_false, zero_mul]
        exact mul_nonneg (not_lt.1 h') hs.le
    · intro i
      by_cases h' : 0 < w i
      · simp only [h', decide_true, ind_true, one_mul, sub_self, mul_zero, zero_mul, sub_zero]
        rw [mul_comm k]
        exact (ge_scaled hs hk).2 (hcard.long tl htl i ((hpos i).2 h'))
      · simp only [h', decide_false, ind_false, zero_mul, sub_zero, mul_one, zero_sub]
        rw [hB, ← neg_mul, ge_iff_le, mul_le_mul_iff_left₀ hs]
        exact neg_le_of_abs_le (hwM i)
    · intro i
      by_cases h' : w i < 0
      · simp only [h', decide_true, ind_true, one_mul, sub_self, mul_zero, zero_mul, add_zero]
        rw [mul_comm k]
        exact (le_scaled hs hk).2 (hcard.short ts hts i ((hneg i).2 h'))
      · simp only [h', decide_false, ind_false, zero_mul, sub_zero, mul_one, zero_add]
        rw [hB, mul_le_mul_iff_left₀ hs]
        exact le_of_abs_le (hwM i)
  · rw [holds_single]
    have hlo := hlim.atLeast minW hmin
    have hhi := hlim.atMost maxW hmax
    refine ⟨fun i => decide (w i ≠ 0), _, cardinality_complete p w _ (fun i => rfl) c1 c2, linearised_mk fv k _ hk hk1 hkM, ?_, ?_, ?_⟩
    · intro th hth i
      have hraw := effective_some _ _ hth
      have h0 := hl (by rw [hraw]; rfl) i
      by_cases h' : w i = 0
      · simp [h', ind]
      · have hp : 0 < w i := by
          have h4 := h0.trans (hlo i)
          rcases lt_or_gt_of_ne h' with hc | hc
          · have := (hneg i).2 hc
            linarith
          · exact hc
        simp only [ne_eq, h', not_false_eq_true, decide_true, ind_true, one_mul]
        rw [mul_comm k]
        exact (ge_scaled hs hk).2 (hcard.long th hraw i ((hpos i).2 hp))
    · intro i
      by_cases h' : w i = 0
      · simp [h', ind]
      · simp only [ne_eq, h', not_false_eq_true, decide_true, ind_true, one_mul]
        rw [mul_comm k]
        exact (le_scaled hs hk).2 (hhi i)
    · intro _ i
      by_cases h' : w i = 0
      · simp [h', ind]
      · simp only [ne_eq, h', not_false_eq_true, decide_true, ind_true, one_mul]
        rw [mul_comm k]
        exact (ge_scaled hs hk).2 (hlo i)

/-- Finding: with a variable scale (ratio maximisation) the mixed-integer constraints admit only scales up to 1000. -/
theorem C20_scale_limited (p : Params K n) (hn : 0 < n) (al : Bool) (s k : K) (w : Fin n → K) (cs : List (Constraint K n))
    (h : getWeightConstraints p true al s = .ok cs) (hm : isMip p = true) (hw : Holds cs w k) : k ≤ 1000 := by
  obtain ⟨a, m, ha, hm', rfl, -⟩ := constraints_split p true al s cs h
  rw [holds_append, holds_append] at hw
  have hwm := hw.1.2
  rcases mip_cases p true s m hm' with ⟨hmip, rfl⟩ | ⟨minW, maxW, hmin, hmax, ⟨tl, ts, htl, hts, rfl⟩ | ⟨hl, hsh, rfl⟩⟩
  · rw [hm] at hmip
    cases hmip
  · rw [holds_single] at hwm
    obtain ⟨bs, bl, xs, xl, hc, hls, -⟩ := hwm
    exact linearised_le k bs xs hls ⟨0, hn⟩
  · rw [holds_single] at hwm
    obtain ⟨b, x, hc, hlin, -⟩ := hwm
    exact linearised_le k b x hlin ⟨0, hn⟩

/-! A non-trivial case: three assets, at most two invested, at most one of the first two, long positions of at least 20%, short positions of at least 10%. -/
def sampleParams : Params ℚ 3 :=
  ⟨some fun _ => -1, some fun _ => 1, some (3 / 2), some 1, none, none, some 1, some 2, some [(fun i => decide (i.val < 2), 1)],
   some fun _ => 1 / 5, some fun _ => -1 / 10, [], [(fun i => if i = 0 then 1 else 0, 1)], none, true⟩

def sampleWeights : Fin 3 → ℚ := fun i => if i = 0 then 1 / 5 else if i = 1 then 0 else 4 / 5

theorem sampleParams_ok (fv : Bool) (s : ℚ) : ∃ cs, getWeightConstraints sampleParams fv true s = .ok cs := by
  have a1 : minConstraint sampleParams true s = .ok [fun w k => ∀ i, w i * s ≥ (-1) * k * s] := by
    simp [minConstraint, sampleParams]
  have a2 : longConstraint sampleParams s = .ok [fun w k => (∑ i, max (w i) 0) * s ≤ (3 / 2) * k * s] := by
    simp only [longConstraint, sampleParams]
    rw [if_neg (by norm_num)]
  have a3 : shortConstraint sampleParams s = .ok [fun w k => (∑ i, max (-w i) 0) * s ≤ 1 * k * s] := by
    simp only [shortConstraint, sampleParams]
    rw [if_neg (by norm_num)]
  have a4 : budgetConstraint sampleParams s = .ok [fun w k => (∑ i, w i) * s = 1 * k * s] := by
    simp [budgetConstraint, sampleParams]
  obtain ⟨a, ha⟩ : ∃ a, simpleConstraints sampleParams true s = .ok a := by
    unfold simpleConstraints
    rw [a1, a2, a3, a4]
    exact ⟨_, rfl⟩
  have e1 : effective sampleParams.thresholdLong = some fun _ => 1 / 5 := by
    simp [effective, sampleParams]
  have e2 : effective sampleParams.thresholdShort = some fun _ => -1 / 10 := by
    simp [effective, sampleParams]
  have hm : mipConstraint sampleParams fv s = .ok [mipShort sampleParams (fun _ => -1) (fun _ => 1) (fun _ => 1 / 5) (fun _ => -1 / 10) fv s] := by
    have hmin : sampleParams.minWeights = some fun _ => -1 := rfl
    have hmax : sampleParams.maxWeights = some fun _ => 1 := rfl
    unfold mipConstraint
    rw [hmin, hmax]
    simp only [e1, e2]
    simp [sampleParams]
  have h1 : isMip sampleParams = true := by decide +kernel
  have hp : mipPart sampleParams fv s = mipConstraint sampleParams fv s := by
    unfold mipPart
    rw [if_pos h1]
  unfold getWeightConstraints
  rw [if_neg (by simp [sampleParams]), hp, ha, hm]
  exact ⟨_, rfl⟩

example : RespectsLimits sampleParams sampleWeights ∧ RespectsCardinality sampleParams sampleWeights := by
  constructor
  · constructor <;> simp [sampleParams, sampleWeights] <;> decide +kernel
  · constructor <;> simp [sampleParams] <;> decide +kernel

/-- The sample point is feasible, also scaled by 7, as `C20_complete` says. -/
example : ∃ cs, getWeightConstraints sampleParams true true 1 = .ok cs ∧ Holds cs (fun i => sampleWeights i * 7) 7 := by
  obtain ⟨cs, h⟩ := sampleParams_ok true 1
  refine ⟨cs, h, C20_complete sampleParams true true 1 7 one_pos (by norm_num) (by simp) (by norm_num) _ ?_ cs h ?_ ?_⟩
  · decide +kernel
  · have : (fun i => sampleWeights i * 7 / 7) = sampleWeights := by
      funext i
      ring
    rw [this]
    constructor <;> simp [sampleParams, sampleWeights] <;> decide +kernel
  · have : (fun i => sampleWeights i * 7 / 7) = sampleWeights := by
      funext i
      ring
    rw [this]
    constructor <;> simp [sampleParams] <;> decide +kernel

/-- Finding: cardinality constraints without lower bounds on the weights raise a `TypeError`, not the intended message. -/
theorem C20_no_bounds_type_error (p : Params K n) (fv : Bool) (s : K) (h : p.minWeights = none) (hm : isMip p = true) :
    mipPart p fv s = .error .noneComparison := by
  unfold mipPart mipConstraint
  rw [if_pos hm, h]

end

end Skfolio.Convex
