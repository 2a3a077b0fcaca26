import Verif.Vine.DependenceModel
import Verif.Vine.CentralTheorems
import Verif.Distance.SampleTheorems
import Verif.Copula.PseudoTheorems
import Mathlib.Data.List.FinRange
import Mathlib.Data.Fin.Tuple.Sort

/-!
C98: the dependence by which the first tree of a vine is chosen.
-/
set_option autoImplicit false

namespace Skfolio.Vine

open Skfolio.Distance (kendall Varies Aligned corrVal)

variable {T n : Nat}

/-! ### the Wasserstein distance -/

theorem sorted_all (u : List ℝ) : (u.mergeSort fun a b => open Classical in decide (a ≤ b)).Pairwise (· ≤ ·) := by
  classical
  have := List.pairwise_mergeSort (le := fun a b : ℝ => decide (a ≤ b)) (fun a b c h1 h2 => by simp only [decide_eq_true_eq] at *; exact h1.trans h2) (fun a b => by simp only [Bool.or_eq_true, decide_eq_true_eq]; exact le_total a b) u
  simpa using this

theorem mergeSort_perm {u v : List ℝ} (h : u.Perm v) : (u.mergeSort fun a b => open Classical in decide (a ≤ b)) = v.mergeSort fun a b => open Classical in decide (a ≤ b) := by
  refine List.Perm.eq_of_pairwise (le := (· ≤ ·)) (fun a b _ _ h1 h2 => le_antisymm h1 h2) (sorted_all u) (sorted_all v) ?_
  exact (List.mergeSort_perm u _).trans (h.trans (List.mergeSort_perm v _).symm)

theorem shareBelow_perm {u v : List ℝ} (h : u.Perm v) : shareBelow u = shareBelow v := by
  funext a
  unfold shareBelow
  rw [h.countP_eq, h.length_eq]

theorem wasserstein_perm {u u' v v' : List ℝ} (hu : u.Perm u') (hv : v.Perm v') : wasserstein u v = wasserstein u' v' := by
  unfold wasserstein
  rw [mergeSort_perm (hu.append hv), shareBelow_perm hu, shareBelow_perm hv]

theorem wasserstein_self (u : List ℝ) : wasserstein u u = 0 := by
  unfold wasserstein
  simp

theorem gap_nonneg {L : List ℝ} (h : L.Pairwise (· ≤ ·)) : ∀ p ∈ L.zip L.tail, p.1 ≤ p.2 := by
  induction L with
  | nil => simp
  | cons a L ih =>
    cases L with
    | nil => simp
    | cons b L =>
      intro p hp
      simp only [List.tail_cons, List.zip_cons_cons, List.mem_cons] at hp
      rcases hp with rfl | hp
      · exact (List.pairwise_cons.1 h).1 b (by simp)
      · exact ih (List.pairwise_cons.1 h).2 p hp

theorem gaps_zero {L : List ℝ} (H : ℝ → ℝ) (hl : ∀ m ∈ L, (∀ x ∈ L, x ≤ m) → H m = 0) (hs : L.Pairwise (· ≤ ·)) (h : ∀ p ∈ L.zip L.tail, |H p.1| * (p.2 - p.1) = 0) : ∀ x ∈ L, H x = 0 := by
  induction L with
  | nil => simp
  | cons a L ih =>
    cases L with
    | nil =>
      intro x hx
      rw [List.mem_singleton] at hx
      subst hx
      exact hl _ (by simp) (by simp)
    | cons b L =>
      have hab : a ≤ b := (List.pairwise_cons.1 hs).1 b (by simp)
      have ih' := ih (fun m hm hmax => hl m (List.mem_cons_of_mem _ hm) fun x hx => by
        rcases List.mem_cons.1 hx with rfl | hx
        · exact hab.trans (hmax b (by simp))
        · exact hmax x hx) (List.pairwise_cons.1 hs).2 fun p hp => h p (by simp only [List.tail_cons, List.zip_cons_cons, List.mem_cons]; exact Or.inr hp)
      intro x hx
      rcases List.mem_cons.1 hx with rfl | hx
      · have := h (x, b) (by simp)
        rcases mul_eq_zero.1 this with h1 | h1
        · exact abs_eq_zero.1 h1
        · have : x = b := by simp only at h1; linarith
          rw [this]
          exact ih' b (by simp)
      · exact ih' x hx

theorem wasserstein_nonneg (u v : List ℝ) : 0 ≤ wasserstein u v := by
  unfold wasserstein
  refine List.sum_nonneg fun x hx => ?_
  obtain ⟨p, hp, rfl⟩ := List.mem_map.1 hx
  exact mul_nonneg (abs_nonneg _) (sub_nonneg.2 (gap_nonneg (sorted_all _) p hp))

open Classical in
theorem wasserstein_zero {u v : List ℝ} (hl : u.length = v.length) : wasserstein u v = 0 ↔ u.Perm v := by
  constructor
  · intro h
    rcases Nat.eq_zero_or_pos u.length with h0 | hpos
    · have hv : v.length = 0 := hl ▸ h0
      rw [List.length_eq_zero_iff.1 h0, List.length_eq_zero_iff.1 hv]
    have hu : (u.length : ℝ) ≠ 0 := by exact_mod_cast hpos.ne'
    set L := (u ++ v).mergeSort fun a b => decide (a ≤ b) with hL
    have mem : ∀ x, x ∈ L ↔ x ∈ u ∨ x ∈ v := fun x => by rw [hL, List.mem_mergeSort, List.mem_append]
    have each : ∀ p ∈ L.zip L.tail, |shareBelow u p.1 - shareBelow v p.1| * (p.2 - p.1) = 0 := by
      intro p hp
      have nn : ∀ x ∈ (L.zip L.tail).map fun p => |shareBelow u p.1 - shareBelow v p.1| * (p.2 - p.1), 0 ≤ x := by
        intro x hx
        obtain ⟨q, hq, rfl⟩ := List.mem_map.1 hx
        exact mul_nonneg (abs_nonneg _) (sub_nonneg.2 (gap_nonneg (sorted_all _) q hq))
      have hle := List.single_le_sum nn _ (List.mem_map_of_mem hp)
      have hz : ((L.zip L.tail).map fun p => |shareBelow u p.1 - shareBelow v p.1| * (p.2 - p.1)).sum = 0 := h
      rw [hz] at hle
      exact le_antisymm hle (nn _ (List.mem_map_of_mem hp))
    have full : ∀ (w : List ℝ) m, w.length ≠ 0 → (∀ x ∈ w, x ≤ m) → shareBelow w m = 1 := by
      intro w m hw h
      unfold shareBelow
      rw [List.countP_eq_length.2 (by simpa using h), div_self (by exact_mod_cast hw)]
    have eq := gaps_zero (fun x => shareBelow u x - shareBelow v x) (fun m _ hmax => by
      rw [full u m hpos.ne' fun x hx => hmax x ((mem x).2 (Or.inl hx)), full v m (hl ▸ hpos.ne') fun x hx => hmax x ((mem x).2 (Or.inr hx)), sub_self]) (sorted_all _) each
    have cnt : ∀ m ∈ L, (u.countP fun x => decide (x ≤ m)) = v.countP fun x => decide (x ≤ m) := by
      intro m hm
      have := sub_eq_zero.1 (eq m hm)
      unfold shareBelow at this
      rw [← hl, div_left_inj' hu] at this
      exact_mod_cast this
    have down : ∀ P : ℝ → Prop, (∀ x y, x ≤ y → P y → P x) → (u.countP fun x => decide (P x)) = v.countP fun x => decide (P x) := by
      intro P hP
      by_cases hne : (L.toFinset.filter P).Nonempty
      · obtain ⟨m, hm, hmax⟩ := Finset.exists_max_image _ id hne
        rw [Finset.mem_filter, List.mem_toFinset] at hm
        have iff : ∀ x ∈ L, P x ↔ x ≤ m := fun x hx => ⟨fun h => hmax x (by rw [Finset.mem_filter, List.mem_toFinset]; exact ⟨hx, h⟩), fun h => hP x m h hm.2⟩
        have e1 : (u.countP fun x => decide (P x)) = u.countP fun x => decide (x ≤ m) := List.countP_congr fun x hx => by simp [iff x ((mem x).2 (Or.inl hx))]
        have e2 : (v.countP fun x => decide (P x)) = v.countP fun x => decide (x ≤ m) := List.countP_congr fun x hx => by simp [iff x ((mem x).2 (Or.inr hx))]
        rw [e1, e2, cnt m hm.1]
      · rw [Finset.not_nonempty_iff_eq_empty, Finset.filter_eq_empty_iff] at hne
        rw [List.countP_eq_zero.2 fun x hx => by simpa using hne (by rw [List.mem_toFinset]; exact (mem x).2 (Or.inl hx)),
          List.countP_eq_zero.2 fun x hx => by simpa using hne (by rw [List.mem_toFinset]; exact (mem x).2 (Or.inr hx))]
    rw [List.perm_iff_count]
    intro a
    have split : ∀ w : List ℝ, (w.countP fun x => decide (x ≤ a)) = (w.countP fun x => decide (x < a)) + w.count a := by
      intro w
      induction w with
      | nil => rfl
      | cons b w ih =>
        simp only [List.countP_cons, List.count_cons, ih]
        rcases lt_trichotomy b a with h | h | h
        · simp [h, h.le, h.ne]; omega
        · simp [h]; omega
        · simp [not_le.2 h, not_lt.2 h.le, h.ne']
    have h1 := down (fun x => x ≤ a) fun x y h h' => h.trans h'
    have h2 := down (fun x => x < a) fun x y h h' => lt_of_le_of_lt h h'
    have h3 := split u
    have h4 := split v
    omega
  · intro h
    rw [wasserstein_perm h (List.Perm.refl v), wasserstein_self]

/-! ### the first tree -/

/-- The nodes of the first tree. -/
def roots (n : Nat) : List Node := (List.range n).map Node.root

variable {mi : (Fin T → ℝ) → (Fin T → ℝ) → ℝ}

theorem root_weight (dep : ℕ × ℕ → ℝ) (M : ℝ) {p : ℕ × ℕ} (h1 : p.1 < n) (h2 : p.2 < n) : weight ∅ (roots n) dep M p = dep p := by
  unfold weight roots
  simp [h1, h2, central]

theorem forest_range {pairs : List (ℕ × ℕ)} (h : IsSpanningForest 0 (roots n) pairs) {p : ℕ × ℕ} (hp : p ∈ pairs) : p.1 < p.2 ∧ p.2 < n := by
  have := h.eligible p hp
  simp only [roots, List.length_map, List.length_range] at this
  exact ⟨this.1, this.2.1⟩

theorem weights_sum {pairs : List (ℕ × ℕ)} (h : IsSpanningForest 0 (roots n) pairs) (dep : ℕ × ℕ → ℝ) (M : ℝ) : (pairs.map (weight ∅ (roots n) dep M)).sum = (pairs.map dep).sum := by
  congr 1
  refine List.map_congr_left fun p hp => ?_
  have := forest_range h hp
  exact root_weight dep M (this.1.trans this.2) this.2

theorem dependence_pos {m : DependenceMethod} {U : Fin n → Fin T → ℝ} {dep : ℕ × ℕ → ℝ} (h : rootDependences mi m U = .ok dep) (p : ℕ × ℕ) : 0 < dep p := by
  unfold rootDependences dependenceMatrix at h
  split_ifs at h
  injection h with h
  rw [← h]
  dsimp only
  split_ifs
  · positivity
  · norm_num

theorem chosen_iff {m : DependenceMethod} {U : Fin n → Fin T → ℝ} {dep : ℕ × ℕ → ℝ} (h : rootDependences mi m U = .ok dep) (pairs : List (ℕ × ℕ)) :
    Chosen ∅ 0 (roots n) dep pairs ↔ IsSpanningForest 0 (roots n) pairs ∧ ∀ other, IsSpanningForest 0 (roots n) other → (other.map dep).sum ≤ (pairs.map dep).sum := by
  constructor
  · rintro ⟨_, hf, hm⟩
    refine ⟨hf, fun other ho => ?_⟩
    have := hm other ho
    rwa [weights_sum ho, weights_sum hf] at this
  · rintro ⟨hf, hm⟩
    refine ⟨dependence_pos h, hf, fun other ho => ?_⟩
    rw [weights_sum ho, weights_sum hf]
    exact hm other ho

theorem forest_length {pairs : List (ℕ × ℕ)} (hn : 0 < n) (h : IsSpanningForest 0 (roots n) pairs) : pairs.length = n - 1 := by
  have := (C53_number_of_edges (Built.roots (n := n)) hn).2.2.2 pairs h
  simpa using this.1

theorem sum_shift (t : ℕ × ℕ → ℝ) (c : ℝ) (pairs : List (ℕ × ℕ)) : (pairs.map fun p => t p + c).sum = (pairs.map t).sum + pairs.length * c := by
  induction pairs with
  | nil => simp
  | cons p l ih =>
    simp only [List.map_cons, List.sum_cons, ih, List.length_cons]
    push_cast
    ring

/-- `t` has Kendall's tau of every pair of variables. -/
def AreTaus (U : Fin n → Fin T → ℝ) (t : ℕ × ℕ → ℝ) : Prop := ∀ i j : Fin n, i < j → Copula.IsSampleTau (List.ofFn fun k => (U i k, U j k)) (t (i, j))

theorem kendall_tau {u v : Fin T → ℝ} {r : ℝ} : kendall u v = some r ↔ Copula.IsSampleTau (List.ofFn fun k => (u k, v k)) r := by
  rw [← (Copula.C90_sample_tau _).2.1]
  unfold kendall
  split <;> simp_all

theorem kendall_none {u v : Fin T → ℝ} : kendall u v = none ↔ ¬Varies u ∨ ¬Varies v := by
  rw [Distance.kendall_eq, Distance.varies_iff, Distance.varies_iff, not_not, not_not, ← Distance.signs_zero, ← Distance.signs_zero]
  split_ifs with h <;> simp [h]

/-- **C98.** With Kendall's tau the first tree is chosen whenever no variable is constant, and only then (for two variables or more); it is a spanning tree with the largest sum of the absolute taus. -/
theorem C98_kendall (U : Fin n → Fin T → ℝ) :
    (rootDependences mi .kendallTau U = .error .nan ↔ 2 ≤ n ∧ ∃ i, ¬Varies (U i)) ∧
    ∀ dep, rootDependences mi .kendallTau U = .ok dep → ∀ pairs, Chosen ∅ 0 (roots n) dep pairs ↔
      IsSpanningForest 0 (roots n) pairs ∧ ∀ t, AreTaus U t → ∀ other, IsSpanningForest 0 (roots n) other → (other.map fun p => |t p|).sum ≤ (pairs.map fun p => |t p|).sum := by
  constructor
  · unfold rootDependences dependenceMatrix
    split_ifs with h
    · simp only [true_iff]
      obtain ⟨i, j, hij, h⟩ := h
      refine ⟨by have := j.2; have : i.val < j.val := hij; omega, ?_⟩
      rcases kendall_none.1 h with h | h
      · exact ⟨i, h⟩
      · exact ⟨j, h⟩
    · simp only [reduceCtorEq, false_iff, not_and, not_exists, not_not]
      intro hn i
      by_contra hi
      apply h
      by_cases h0 : i.val = 0
      · exact ⟨i, ⟨1, by omega⟩, by rw [Fin.lt_def]; simp [h0], kendall_none.2 (Or.inl hi)⟩
      · exact ⟨⟨0, by omega⟩, i, by rw [Fin.lt_def]; simp only; omega, kendall_none.2 (Or.inr hi)⟩
  · intro dep h pairs
    rw [chosen_iff h]
    refine and_congr_right fun hf => ?_
    unfold rootDependences dependenceMatrix at h
    split_ifs at h with hno
    injection h with h
    have val : ∀ t, AreTaus U t → ∀ l, IsSpanningForest 0 (roots n) l → (l.map dep).sum = (l.map fun p => |t p|).sum + l.length * (1 / 100000) := by
      intro t ht l hl
      rw [← sum_shift]
      congr 1
      refine List.map_congr_left fun p hp => ?_
      have hr := forest_range hl hp
      have := kendall_tau.2 (ht ⟨p.1, hr.1.trans hr.2⟩ ⟨p.2, hr.2⟩ hr.1)
      rw [← h]
      beta_reduce
      rw [dif_pos ⟨hr.1.trans hr.2, hr.2⟩]
      simp only [dependence, this, Option.getD_some]
    have len : ∀ l l', IsSpanningForest 0 (roots n) l → IsSpanningForest 0 (roots n) l' → l.length = l'.length := by
      intro l l' hl hl'
      rcases Nat.eq_zero_or_pos n with rfl | hn
      · have e : ∀ k : List (ℕ × ℕ), IsSpanningForest 0 (roots 0) k → k = [] := fun k hk => List.eq_nil_iff_forall_not_mem.2 fun p hp => by have := (forest_range hk hp).2; omega
        rw [e l hl, e l' hl']
      · rw [forest_length hn hl, forest_length hn hl']
    constructor
    · intro hm t ht other ho
      have := hm other ho
      rw [val t ht other ho, val t ht pairs hf, len other pairs ho hf] at this
      linarith
    · intro hm other ho
      have ht : AreTaus U fun p => if h : p.1 < n ∧ p.2 < n then (kendall (U ⟨p.1, h.1⟩) (U ⟨p.2, h.2⟩)).getD 0 else 0 := by
        intro i j hij
        rw [← kendall_tau]
        beta_reduce
        rw [dif_pos ⟨i.2, j.2⟩]
        cases hk : kendall (U i) (U j) with
        | none => exact absurd ⟨i, j, hij, hk⟩ hno
        | some r => simp [hk]
      rw [val _ ht other ho, val _ ht pairs hf, len other pairs ho hf]
      linarith [hm _ ht other ho]

/-- **C98.** Increasing transformations of the variables change nothing: the tree depends on the copula alone. -/
theorem C98_kendall_ranks (U V : Fin n → Fin T → ℝ) (h : ∀ i, ∃ g : ℝ → ℝ, StrictMono g ∧ ∀ k, V i k = g (U i k)) : rootDependences mi .kendallTau V = rootDependences mi .kendallTau U := by
  have e : ∀ i j, kendall (V i) (V j) = kendall (U i) (U j) := by
    have ord : ∀ i, Distance.SameOrder (V i) (U i) := by
      intro i s t
      obtain ⟨g, hg, e⟩ := h i
      rw [e, e]
      exact hg.lt_iff_lt
    exact fun i j => Distance.kendall_order (ord i) (ord j)
  unfold rootDependences
  simp only [dependence, e]

/-- **C98.** The absolute tau of a pair is 1, its largest value, exactly if the variables have the same order or opposite orders. -/
theorem C98_kendall_extreme (u v : Fin T → ℝ) (hu : Varies u) (hv : Varies v) (t : ℝ) (ht : Copula.IsSampleTau (List.ofFn fun k => (u k, v k)) t) :
    |t| ≤ 1 ∧ (|t| = 1 ↔ (∀ k l, u k < u l ↔ v k < v l) ∨ ∀ k l, u k < u l ↔ v l < v k) := by
  have e : t = corrVal .kendall u v := by
    have := kendall_tau.2 ht
    rw [Distance.kendall_val u v hu hv] at this
    injection this with this
    exact this.symm
  refine ⟨(Copula.C90_sample_tau _).2.2.1 t ht, ?_⟩
  rw [abs_eq zero_le_one, e, Distance.corrVal_extreme .kendall hu hv (Or.inl rfl), Distance.corrVal_extreme .kendall hu hv (Or.inr rfl)]
  refine or_congr (forall₂_congr fun k l => ?_) (forall₂_congr fun k l => ?_)
  · rw [one_mul, sub_pos]
  · rw [show (0 < -1 * (v l - v k)) ↔ v l < v k by constructor <;> intro h <;> linarith]

/-! ### with the Wasserstein distance -/

theorem ofFn_perm (u : Fin T → ℝ) (σ : Equiv.Perm (Fin T)) : (List.ofFn fun k => u (σ k)).Perm (List.ofFn u) := Equiv.Perm.ofFn_comp_perm σ u

/-- **C98, false of the Wasserstein distance**: the dependences stay the same if the observations of every variable are reordered, each in its own way. They do not see which observations belong together. -/
theorem C98_wasserstein_pairing (U : Fin n → Fin T → ℝ) (σ : Fin n → Equiv.Perm (Fin T)) :
    rootDependences mi .wassersteinDistance (fun i k => U i (σ i k)) = rootDependences mi .wassersteinDistance U := by
  unfold rootDependences
  simp only [dependence, wasserstein_perm (ofFn_perm (U _) (σ _)) (ofFn_perm (U _) (σ _))]

/-- **C98.** The dependence of two variables by the Wasserstein distance is 0 exactly if they have the same values, in whatever order. -/
theorem C98_wasserstein_zero (u v : Fin T → ℝ) : dependence mi .wassersteinDistance u v = some 0 ↔ ∃ σ : Equiv.Perm (Fin T), ∀ k, u k = v (σ k) := by
  simp only [dependence, Option.some.injEq]
  rw [wasserstein_zero (by simp)]
  constructor
  · intro h
    have sorted : ∀ w : Fin T → ℝ, (List.ofFn (w ∘ Tuple.sort w)).Pairwise (· ≤ ·) := fun w => List.pairwise_ofFn.2 fun i j hij => Tuple.monotone_sort w hij.le
    have e : List.ofFn (u ∘ Tuple.sort u) = List.ofFn (v ∘ Tuple.sort v) :=
      List.Perm.eq_of_pairwise (le := (· ≤ ·)) (fun a b _ _ h1 h2 => le_antisymm h1 h2) (sorted u) (sorted v) ((ofFn_perm u _).trans (h.trans (ofFn_perm v _).symm))
    have e' := List.ofFn_injective e
    refine ⟨(Tuple.sort u).symm.trans (Tuple.sort v), fun k => ?_⟩
    have := congrFun e' ((Tuple.sort u).symm k)
    simpa using this
  · rintro ⟨σ, h⟩
    have : u = fun k => v (σ k) := funext h
    rw [this]
    exact ofFn_perm v σ

/-- The pseudo-observations of a column without ties are the numbers `1 / (T + 1), …, T / (T + 1)`. -/
theorem pseudo_perm (x : Fin T → ℝ) (hx : Function.Injective x) : ∃ σ : Equiv.Perm (Fin T), ∀ k, Copula.pseudo x k = ((σ k).val + 1) / ((T : ℚ) + 1) := by
  classical
  let f : Fin T → Fin T := fun k => ⟨(Finset.univ.filter fun j => x j < x k).card, by
    have : (Finset.univ.filter fun j => x j < x k) ⊂ (Finset.univ : Finset (Fin T)) := Finset.filter_ssubset.2 ⟨k, by simp⟩
    simpa using Finset.card_lt_card this⟩
  have rk : ∀ k, Copula.rank x k = (f k).val + 1 := by
    intro k
    unfold Copula.rank
    have : (Finset.univ.filter fun j => x j = x k) = {k} := by
      ext j
      simp [hx.eq_iff]
    have e1 : (Finset.univ.filter fun j => x j = x k).card = 1 := by rw [this, Finset.card_singleton]
    simp only [f]
    rw [show ((Finset.univ.filter fun j => x j = x k).card : ℚ) = 1 by exact_mod_cast (by convert e1)]
    norm_num
  have hf : Function.Injective f := by
    intro a b h
    have h1 : Copula.pseudo x a = Copula.pseudo x b := by
      unfold Copula.pseudo
      rw [rk, rk, h]
    exact hx ((Copula.C40_order x a b).2.1 h1)
  refine ⟨Equiv.ofBijective f (Finite.injective_iff_bijective.1 hf), fun k => ?_⟩
  unfold Copula.pseudo
  rw [rk]
  rfl

/-- **C98, false of the Wasserstein distance**: for the pseudo-observations of any data without ties every spanning tree is a possible choice; the choice does not depend on the data. -/
theorem C98_wasserstein_any_tree (X : Fin n → Fin T → ℝ) (hX : ∀ i, Function.Injective (X i)) :
    ∃ dep, rootDependences mi .wassersteinDistance (fun i k => (Copula.pseudo (X i) k : ℝ)) = .ok dep ∧ ∀ pairs, Chosen ∅ 0 (roots n) dep pairs ↔ IsSpanningForest 0 (roots n) pairs := by
  have zero : ∀ i j : Fin n, dependence mi .wassersteinDistance (fun k => (Copula.pseudo (X i) k : ℝ)) (fun k => (Copula.pseudo (X j) k : ℝ)) = some 0 := by
    intro i j
    obtain ⟨σ, hσ⟩ := pseudo_perm (X i) (hX i)
    obtain ⟨τ, hτ⟩ := pseudo_perm (X j) (hX j)
    refine (C98_wasserstein_zero _ _).2 ⟨σ.trans τ.symm, fun k => ?_⟩
    rw [hσ, hτ]
    simp
  have hok : rootDependences mi .wassersteinDistance (fun i k => (Copula.pseudo (X i) k : ℝ)) = .ok fun p => 1 / 100000 := by
    unfold rootDependences dependenceMatrix
    simp only [zero, reduceCtorEq, and_false, exists_false, if_false, Option.getD_some, abs_zero, zero_add, dite_eq_ite, ite_self]
  refine ⟨_, hok, fun pairs => ?_⟩
  rw [chosen_iff hok]
  refine ⟨fun h => h.1, fun h => ⟨h, fun other ho => ?_⟩⟩
  simp only [List.map_const', List.sum_replicate]
  rcases Nat.eq_zero_or_pos n with rfl | hn
  · have e : ∀ k : List (ℕ × ℕ), IsSpanningForest 0 (roots 0) k → k = [] := fun k hk => List.eq_nil_iff_forall_not_mem.2 fun p hp => by have := (forest_range hk hp).2; omega
    rw [e other ho, e pairs h]
  · rw [forest_length hn ho, forest_length hn h]

/-! ### the hypotheses can be met -/

/-- Three variables of four observations: the first two have the same order, the third neither this nor the opposite. -/
def threeVars : Fin 3 → Fin 4 → ℝ := ![![1, 2, 3, 4], ![1, 4, 9, 16], ![2, 1, 4, 3]]

theorem threeVars_injective (i : Fin 3) : Function.Injective (threeVars i) := by
  intro a b h
  fin_cases i <;> fin_cases a <;> fin_cases b <;> simp [threeVars] at h ⊢

/-- No variable is constant, there are dependences, a tree of them is chosen, and there are no ties. -/
example : (∀ i, Varies (threeVars i)) ∧ (∀ i, Function.Injective (threeVars i)) ∧
    ∃ dep, rootDependences (fun _ _ => 0) .kendallTau threeVars = .ok dep ∧ ∃ pairs, Chosen ∅ 0 (roots 3) dep pairs := by
  have hv : ∀ i, Varies (threeVars i) := fun i => ⟨0, 1, fun h => by simpa using threeVars_injective i h⟩
  refine ⟨hv, threeVars_injective, ?_⟩
  cases hd : rootDependences (fun _ _ => 0) .kendallTau threeVars with
  | error e =>
    cases e
    obtain ⟨_, i, hi⟩ := (C98_kendall threeVars).1.1 hd
    exact absurd (hv i) hi
  | ok dep =>
    obtain ⟨nodes, edges, pairs, h1, h2⟩ := C56_exists (K := ℝ) 3 ∅ (fun _ => dep) (fun _ => dependence_pos hd) 0
    cases h1
    exact ⟨dep, rfl, pairs, h2⟩

/-- The same order, and a constant variable. -/
example : (∀ k l, threeVars 0 k < threeVars 0 l ↔ threeVars 1 k < threeVars 1 l) ∧ ¬Varies (fun _ : Fin 4 => (1 : ℝ)) := by
  constructor
  · intro k l
    fin_cases k <;> fin_cases l <;> simp [threeVars] <;> norm_num
  · rintro ⟨s, t, h⟩
    exact h rfl

end Skfolio.Vine
