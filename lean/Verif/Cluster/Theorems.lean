import Verif.Cluster.Model
import Mathlib.Algebra.BigOperators.Field
import Mathlib.Algebra.BigOperators.Fin
import Mathlib.Algebra.BigOperators.Ring.Finset
import Mathlib.Algebra.Order.Ring.Rat
import Mathlib.Data.List.GetD
import Mathlib.Data.List.Range
import Mathlib.Tactic.FieldSimp
import Mathlib.Tactic.Linarith
import Mathlib.Tactic.Ring
import Mathlib.Tactic.NormNum

/-!
Claim C83: the number of clusters and the labels of `HierarchicalClustering`.
-/
set_option autoImplicit false

namespace Skfolio.Cluster

open Finset

variable {K : Type} [Field K] [LinearOrder K] [IsStrictOrderedRing K]

/-! ### specification -/

/-- The members of cluster `c`. -/
def members (level : List Nat) (c : Nat) : Finset Nat := (range level.length).filter fun a => level.getD a 0 = c

/-- `D_c = Σ_{u, v ∈ C_c} d(u, v)`, as documented. -/
def total (d : Nat → Nat → K) (level : List Nat) (c : Nat) : K := ∑ u ∈ members level c, ∑ v ∈ members level c, d u v

/-- The dispersion that the code computes: the sum over the clusters of the mean distance of two different members, `D_c / (|C_c| (|C_c| - 1))`. -/
def meanDispersion (d : Nat → Nat → K) (level : List Nat) : K :=
  ∑ c ∈ range level.length, total d level c / ((members level c).card * ((members level c).card - 1))

/-- The dispersion that is documented: `W = Σ_c D_c / (2 |C_c|)`. -/
def docDispersion (d : Nat → Nat → K) (level : List Nat) : K :=
  ∑ c ∈ range level.length, total d level c / (2 * (members level c).card)

/-- The second difference of a dispersion at `k` clusters, given by the partitions `cut (k - 1)` into `k` clusters. -/
def curvature (W : List Nat → K) (cut : Nat → List Nat) (k : Nat) : K := W (cut k) + W (cut (k - 2)) - 2 * W (cut (k - 1))

/-- `k` is the first of the numbers of clusters in `2 .. kmax` with the largest second difference. -/
def IsElbow (W : List Nat → K) (cut : Nat → List Nat) (kmax k : Nat) : Prop :=
  2 ≤ k ∧ k ≤ kmax ∧ (∀ j, 2 ≤ j → j ≤ kmax → curvature W cut j ≤ curvature W cut k) ∧ ∀ j, 2 ≤ j → j < k → curvature W cut j < curvature W cut k

/-- The contract of `cut_tree`: column `k` divides the `n` assets into `k + 1` clusters, numbered from 0. -/
def IsCutTree (n : Nat) (cut : Nat → List Nat) : Prop :=
  ∀ k < n, (cut k).length = n ∧ (∀ c ∈ cut k, c ≤ k) ∧ ∀ c ≤ k, c ∈ cut k

/-- The contract of `fcluster` with `criterion="maxclust"`: a positive number of clusters that is at most `t`, numbered from 1. -/
def IsFcluster (n : Nat) (fcluster : Nat → List Nat) : Prop :=
  ∀ t, 1 ≤ t → (fcluster t).length = n ∧ ∃ m, 1 ≤ m ∧ m ≤ t ∧ (∀ c ∈ fcluster t, 1 ≤ c ∧ c ≤ m) ∧ ∀ c, 1 ≤ c → c ≤ m → c ∈ fcluster t

/-! ### rounding -/

/-- **C83.** `round(np.sqrt(n))` is the natural number nearest to the square root: `r - 1/2 < √n < r + 1/2`. -/
theorem C83_round_sqrt (n : Nat) : n < roundSqrt n ^ 2 + roundSqrt n + 1 ∧ (0 < roundSqrt n → roundSqrt n ^ 2 < n + roundSqrt n) := by
  have h1 : Nat.sqrt n * Nat.sqrt n ≤ n := Nat.sqrt_le n
  have h2 : n < (Nat.sqrt n + 1) * (Nat.sqrt n + 1) := Nat.lt_succ_sqrt n
  unfold roundSqrt
  generalize Nat.sqrt n = s at *
  by_cases h : s ^ 2 + s < n
  · rw [if_pos h]
    constructor <;> intros <;> nlinarith
  · rw [if_neg h]
    constructor
    · nlinarith
    · intro hs; nlinarith

/-! ### the mean distance within a cluster -/

omit [LinearOrder K] [IsStrictOrderedRing K] in
theorem condensed_length (d : Nat → Nat → K) (l : List Nat) : (condensed d l).length * 2 = l.length * (l.length - 1) := by
  induction l with
  | nil => rfl
  | cons a l ih =>
    rw [condensed, List.length_append, List.length_map, Nat.add_mul, ih]
    simp only [List.length_cons, Nat.add_sub_cancel]
    cases l.length with
    | zero => rfl
    | succ m => simp only [Nat.add_sub_cancel]; ring

omit [LinearOrder K] [IsStrictOrderedRing K] in
theorem condensed_sum (d : Nat → Nat → K) (hs : ∀ i j, d i j = d j i) (h0 : ∀ i, d i i = 0) (l : List Nat) :
    2 * (condensed d l).sum = (l.map fun u => (l.map (d u)).sum).sum := by
  induction l with
  | nil => simp [condensed]
  | cons a l ih =>
    rw [condensed, List.sum_append, mul_add, ih]
    simp only [List.map_cons, List.sum_cons, h0, zero_add]
    rw [show (fun u => d u a + (l.map (d u)).sum) = fun u => d u a + (l.map (d u)).sum from rfl, List.sum_map_add]
    have : (l.map fun u => d u a) = l.map (d a) := List.map_congr_left fun u _ => hs u a
    rw [this]
    ring

theorem clusterIdx_finset (level : List Nat) (c : Nat) : (clusterIdx level c).Nodup ∧ (clusterIdx level c).toFinset = members level c := by
  unfold clusterIdx members
  refine ⟨List.Nodup.filter _ List.nodup_range, ?_⟩
  ext a
  simp

omit [LinearOrder K] [IsStrictOrderedRing K] in
theorem clusterIdx_sum (level : List Nat) (c : Nat) (f : Nat → K) : ((clusterIdx level c).map f).sum = ∑ u ∈ members level c, f u := by
  obtain ⟨h1, h2⟩ := clusterIdx_finset level c
  rw [← h2, List.sum_toFinset f h1]

theorem clusterIdx_length (level : List Nat) (c : Nat) : (clusterIdx level c).length = (members level c).card := by
  obtain ⟨h1, h2⟩ := clusterIdx_finset level c
  rw [← h2, List.toFinset_card_of_nodup h1]

omit [LinearOrder K] in
theorem density_spec [CharZero K] (d : Nat → Nat → K) (hs : ∀ i j, d i j = d j i) (h0 : ∀ i, d i i = 0) (level : List Nat) (c : Nat) :
    (density d (clusterIdx level c)).getD 0 = total d level c / ((members level c).card * ((members level c).card - 1)) := by
  have hl := condensed_length d (clusterIdx level c)
  have hsum := condensed_sum d hs h0 (clusterIdx level c)
  have ht : ((clusterIdx level c).map fun u => ((clusterIdx level c).map (d u)).sum).sum = total d level c := by
    rw [clusterIdx_sum]
    unfold total
    exact sum_congr rfl fun u _ => clusterIdx_sum level c (d u)
  rw [ht] at hsum
  rw [clusterIdx_length] at hl
  unfold density
  by_cases hz : (condensed d (clusterIdx level c)).length = 0
  · rw [if_neg (not_not.2 hz)]
    rw [hz, zero_mul] at hl
    have hlist := List.eq_nil_of_length_eq_zero hz
    rw [hlist] at hsum
    simp only [List.sum_nil, mul_zero] at hsum
    rw [← hsum]
    simp
  · rw [if_pos hz]
    simp only [Option.getD_some]
    have hz' : ((condensed d (clusterIdx level c)).length : K) ≠ 0 := Nat.cast_ne_zero.2 hz
    have hcard : 1 ≤ (members level c).card := by
      rcases Nat.eq_zero_or_pos (members level c).card with h | h
      · rw [h] at hl; omega
      · exact h
    have hlK : ((condensed d (clusterIdx level c)).length : K) * 2 = (members level c).card * ((members level c).card - 1) := by
      have := congrArg (Nat.cast (R := K)) hl
      push_cast [Nat.cast_sub hcard] at this
      exact this
    rw [← hlK, ← hsum]
    field_simp

theorem foldl_max (l : List Nat) (m : Nat) : ∀ a, a ≤ m → (∀ x ∈ l, x ≤ m) → (m = a ∨ m ∈ l) → l.foldl max a = m := by
  induction l with
  | nil => intro a _ _ h; rcases h with h | h
           · exact h.symm
           · cases h
  | cons x l ih =>
    intro a ha hx h
    rw [List.foldl_cons]
    refine ih (max a x) (max_le ha (hx x (by simp))) (fun y hy => hx y (by simp [hy])) ?_
    rcases h with rfl | h
    · left; exact (max_eq_left (hx x (by simp))).symm
    · rcases List.mem_cons.1 h with rfl | h
      · left; exact (max_eq_right ha).symm
      · right; exact h

omit [LinearOrder K] [IsStrictOrderedRing K] in
theorem filterMap_sum {A : Type} (f : A → Option K) (l : List A) : (l.filterMap f).sum = (l.map fun a => (f a).getD 0).sum := by
  induction l with
  | nil => rfl
  | cons a l ih =>
    rw [List.map_cons, List.sum_cons, ← ih, List.filterMap_cons]
    cases f a with
    | none => simp
    | some b => simp

omit [LinearOrder K] in
/-- The dispersion of a partition of `n` assets into `k + 1` clusters is the sum of the mean distances within the clusters. -/
theorem dispersion_spec [CharZero K] (d : Nat → Nat → K) (hs : ∀ i j, d i j = d j i) (h0 : ∀ i, d i i = 0) (n k : Nat) (hk : k < n) (level : List Nat)
    (hlen : level.length = n) (hle : ∀ c ∈ level, c ≤ k) (hall : ∀ c ≤ k, c ∈ level) : dispersion d level = meanDispersion d level := by
  unfold dispersion
  rw [foldl_max level k 0 (by omega) hle (by right; exact hall k le_rfl), filterMap_sum]
  have e : ((List.range (k + 1)).map fun a => (density d (clusterIdx level a)).getD 0).sum =
      ∑ c ∈ range (k + 1), total d level c / ((members level c).card * ((members level c).card - 1)) := by
    rw [← List.toFinset_range, List.sum_toFinset _ List.nodup_range]
    congr 1
    exact List.map_congr_left fun c _ => density_spec d hs h0 level c
  rw [e]
  unfold meanDispersion
  rw [hlen]
  refine sum_subset (fun c hc => by simp only [mem_range] at hc ⊢; omega) fun c hc hc' => ?_
  have : members level c = ∅ := by
    unfold members
    rw [filter_eq_empty_iff]
    intro a ha hac
    simp only [mem_range] at ha hc'
    rw [List.getD_eq_getElem _ _ ha] at hac
    have := hle _ (List.getElem_mem ha)
    omega
  unfold total
  rw [this]
  simp

/-! ### the largest second difference -/

omit [Field K] [IsStrictOrderedRing K] in
theorem argmaxFrom_spec (l : List K) : ∀ (pre : List K) (best : Nat) (v : K), pre[best]? = some v → (∀ (j : Nat) y, pre[j]? = some y → y ≤ v) →
    (∀ (j : Nat) y, j < best → pre[j]? = some y → y < v) →
    ∃ w, (pre ++ l)[argmaxFrom pre.length best v l]? = some w ∧ (∀ (j : Nat) y, (pre ++ l)[j]? = some y → y ≤ w) ∧
      ∀ (j : Nat) y, j < argmaxFrom pre.length best v l → (pre ++ l)[j]? = some y → y < w := by
  induction l with
  | nil =>
    intro pre best v h1 h2 h3
    refine ⟨v, ?_⟩
    simp only [argmaxFrom, List.append_nil]
    exact ⟨h1, h2, h3⟩
  | cons x l ih =>
    intro pre best v h1 h2 h3
    have hb : best < pre.length := by
      by_contra hc
      rw [List.getElem?_eq_none (by omega)] at h1
      cases h1
    have hassoc : pre ++ x :: l = (pre ++ [x]) ++ l := by simp
    have hlen : pre.length + 1 = (pre ++ [x]).length := by simp
    have hget : ∀ (j : Nat) y, (pre ++ [x])[j]? = some y → (j < pre.length ∧ pre[j]? = some y) ∨ (j = pre.length ∧ y = x) := by
      intro j y h
      rcases Nat.lt_trichotomy j pre.length with h' | h' | h'
      · left; rw [List.getElem?_append_left h'] at h; exact ⟨h', h⟩
      · right; subst h'; simp at h; exact ⟨rfl, h.symm⟩
      · rw [List.getElem?_eq_none (by simp; omega)] at h; cases h
    rw [hassoc]
    unfold argmaxFrom
    rw [hlen]
    by_cases hv : v < x
    · rw [if_pos hv]
      refine ih (pre ++ [x]) pre.length x (by simp) ?_ ?_
      · intro j y h
        rcases hget j y h with ⟨_, h⟩ | ⟨_, rfl⟩
        · exact (lt_of_le_of_lt (h2 j y h) hv).le
        · exact le_rfl
      · intro j y hj h
        rcases hget j y h with ⟨_, h⟩ | ⟨rfl, _⟩
        · exact lt_of_le_of_lt (h2 j y h) hv
        · omega
    · rw [if_neg hv]
      refine ih (pre ++ [x]) best v (by rw [List.getElem?_append_left hb]; exact h1) ?_ ?_
      · intro j y h
        rcases hget j y h with ⟨_, h⟩ | ⟨_, rfl⟩
        · exact h2 j y h
        · exact not_lt.1 hv
      · intro j y hj h
        rcases hget j y h with ⟨_, h⟩ | ⟨rfl, _⟩
        · exact h3 j y hj h
        · omega

omit [Field K] [IsStrictOrderedRing K] in
theorem argmax_spec (l : List K) (h : l ≠ []) : ∃ i w, argmax l = some i ∧ l[i]? = some w ∧ (∀ (j : Nat) y, l[j]? = some y → y ≤ w) ∧
    ∀ (j : Nat) y, j < i → l[j]? = some y → y < w := by
  obtain ⟨x, xs, rfl⟩ := List.exists_cons_of_ne_nil h
  obtain ⟨w, h1, h2, h3⟩ := argmaxFrom_spec xs [x] 0 x rfl (by
    intro j y hj
    match j with
    | 0 => simp at hj; exact hj ▸ le_rfl
    | j + 1 => simp at hj) (by intro j y hj; omega)
  exact ⟨_, w, rfl, h1, h2, h3⟩

theorem rollLeft_get {A : Type} (l : List A) (s j : Nat) (h : j + s < l.length) : (rollLeft l s)[j]? = l[j + s]? := by
  unfold rollLeft
  rw [Nat.mod_eq_of_lt (by omega), List.getElem?_append_left (by rw [List.length_drop]; omega), List.getElem?_drop, Nat.add_comm]

theorem rollLeft_length {A : Type} (l : List A) (s : Nat) : (rollLeft l s).length = l.length := by
  unfold rollLeft
  rcases Nat.eq_zero_or_pos l.length with h | h
  · simp [h]
  · have := Nat.mod_lt s h
    simp
    omega

omit [LinearOrder K] [IsStrictOrderedRing K] in
theorem gaps_length (w : List K) : (gaps w).length = w.length - 2 := by
  unfold gaps
  simp [rollLeft_length]

omit [LinearOrder K] [IsStrictOrderedRing K] in
theorem gaps_get (w : List K) (j : Nat) (h : j < w.length - 2) : (gaps w)[j]? = some (w.getD (j + 2) 0 + w.getD j 0 - 2 * w.getD (j + 1) 0) := by
  unfold gaps
  have hl : ∀ s, (rollLeft w s).length = w.length := rollLeft_length w
  simp only
  rw [List.getElem?_take_of_lt (by simp [hl]; omega)]
  rw [List.getElem?_zipWith, List.getElem?_zipWith, List.getElem?_map, rollLeft_get w 2 j (by omega), rollLeft_get w 1 j (by omega)]
  rw [List.getElem?_eq_getElem (by omega : j + 2 < w.length), List.getElem?_eq_getElem (by omega : j < w.length), List.getElem?_eq_getElem (by omega : j + 1 < w.length)]
  rw [List.getD_eq_getElem _ _ (by omega : j + 2 < w.length), List.getD_eq_getElem _ _ (by omega : j < w.length), List.getD_eq_getElem _ _ (by omega : j + 1 < w.length)]
  rfl

theorem three_le_maxClusters (n : Nat) (h : 3 ≤ n) : 3 ≤ maxClusters n := by
  unfold maxClusters
  omega

/-- **C83.** For at least three assets and the distances and clusters of the contracts, `compute_optimal_n_clusters` returns the number of clusters
between 2 and `min(n, max(8, round(√n))) - 1` with the largest second difference of the dispersion, the first among equals. -/
theorem C83_optimal (n : Nat) (hn : 3 ≤ n) (d : Nat → Nat → K) (hs : ∀ i j, d i j = d j i) (h0 : ∀ i, d i i = 0) (cut : Nat → List Nat) (hc : IsCutTree n cut) :
    ∃ k, optimalNClusters n d cut = .ok k ∧ IsElbow (meanDispersion d) cut (min n (max 8 (roundSqrt n)) - 1) k := by
  have hm := three_le_maxClusters n hn
  have hmn : maxClusters n ≤ n := by unfold maxClusters; omega
  have hdef : min n (max 8 (roundSqrt n)) = maxClusters n := rfl
  rw [hdef]
  set w := (List.range (maxClusters n)).map fun k => dispersion d (cut k) with hw
  have hwl : w.length = maxClusters n := by rw [hw]; simp
  have hwg : ∀ j < maxClusters n, w.getD j 0 = meanDispersion d (cut j) := by
    intro j hj
    rw [hw, List.getD_eq_getElem _ _ (by simpa using hj)]
    simp only [List.getElem_map, List.getElem_range]
    obtain ⟨a, b, c⟩ := hc j (by omega)
    exact dispersion_spec d hs h0 n j (by omega) (cut j) a b c
  have hg : ∀ j < maxClusters n - 2, (gaps w)[j]? = some (curvature (meanDispersion d) cut (j + 2)) := by
    intro j hj
    rw [gaps_get w j (by omega), hwg _ (by omega), hwg _ (by omega), hwg _ (by omega)]
    rfl
  have hne : gaps w ≠ [] := by
    intro h
    have := gaps_length w
    rw [h, hwl] at this
    simp at this
    omega
  obtain ⟨i, v, e1, e2, e3, e4⟩ := argmax_spec (gaps w) hne
  have hi : i < maxClusters n - 2 := by
    by_contra hcon
    rw [List.getElem?_eq_none (by rw [gaps_length, hwl]; omega)] at e2
    cases e2
  rw [hg i hi] at e2
  cases e2
  refine ⟨i + 2, ?_, by omega, by omega, ?_, ?_⟩
  · unfold optimalNClusters
    rw [← hw, e1]
  · intro j h2 hj
    have := e3 (j - 2) _ (hg (j - 2) (by omega))
    rwa [show j - 2 + 2 = j by omega] at this
  · intro j h2 hj
    have := e4 (j - 2) _ (by omega) (hg (j - 2) (by omega))
    rwa [show j - 2 + 2 = j by omega] at this

/-- **C83** (negated for two assets). The default number of clusters of two assets is an error: there is no second difference. -/
theorem C83_two_assets (n : Nat) (hn : n ≤ 2) (d : Nat → Nat → K) (cut : Nat → List Nat) : optimalNClusters n d cut = .error .emptyArgmax := by
  have hm : maxClusters n ≤ 2 := by unfold maxClusters; omega
  have : gaps ((List.range (maxClusters n)).map fun k => dispersion d (cut k)) = [] := by
    apply List.eq_nil_of_length_eq_zero
    rw [gaps_length]
    simp
    omega
  unfold optimalNClusters
  rw [this]
  rfl

theorem elbow_unique (W : List Nat → K) (cut : Nat → List Nat) (m k l : Nat) (hk : IsElbow W cut m k) (hl : IsElbow W cut m l) : k = l := by
  obtain ⟨a1, a2, a3, a4⟩ := hk
  obtain ⟨b1, b2, b3, b4⟩ := hl
  rcases Nat.lt_trichotomy k l with h | h | h
  · exact absurd (b4 k a1 h) (not_lt.2 (a3 l b1 b2))
  · exact h
  · exact absurd (a4 l b1 h) (not_lt.2 (b3 k a1 a2))

/-- **C83.** The number of clusters does not depend on the unit of the distances. -/
theorem C83_scale (n : Nat) (hn : 3 ≤ n) (d : Nat → Nat → K) (hs : ∀ i j, d i j = d j i) (h0 : ∀ i, d i i = 0) (cut : Nat → List Nat) (hc : IsCutTree n cut)
    (c : K) (hpos : 0 < c) : optimalNClusters n (fun i j => c * d i j) cut = optimalNClusters n d cut := by
  obtain ⟨k, h1, h2⟩ := C83_optimal n hn d hs h0 cut hc
  obtain ⟨l, h3, h4⟩ := C83_optimal n hn (fun i j => c * d i j) (fun i j => by rw [hs]) (fun i => by rw [h0, mul_zero]) cut hc
  have hW : ∀ level, meanDispersion (fun i j => c * d i j) level = c * meanDispersion d level := by
    intro level
    unfold meanDispersion total
    rw [mul_sum]
    refine sum_congr rfl fun x _ => ?_
    simp only [← mul_sum]
    ring
  have hcv : ∀ j, curvature (meanDispersion fun i j => c * d i j) cut j = c * curvature (meanDispersion d) cut j := by
    intro j
    unfold curvature
    rw [hW, hW, hW]
    ring
  have h5 : IsElbow (meanDispersion d) cut (min n (max 8 (roundSqrt n)) - 1) l := by
    obtain ⟨a1, a2, a3, a4⟩ := h4
    refine ⟨a1, a2, fun j hj hj' => ?_, fun j hj hj' => ?_⟩
    · have := a3 j hj hj'
      rw [hcv, hcv] at this
      exact le_of_mul_le_mul_left this hpos
    · have := a4 j hj hj'
      rw [hcv, hcv] at this
      exact lt_of_mul_lt_mul_left this hpos.le
  rw [h1, h3, elbow_unique _ _ _ _ _ h2 h5]

omit [IsStrictOrderedRing K] in
/-- A sum over clusters as a sum over assets. -/
theorem sum_clusters (n : Nat) (level : List Nat) (hlen : level.length = n) (hlt : ∀ c ∈ level, c < n) (f : Finset Nat → K) (hf : f ∅ = 0) [CharZero K] :
    ∑ c ∈ range n, f (members level c) = ∑ a ∈ range n, f (members level (level.getD a 0)) / (members level (level.getD a 0)).card := by
  have hmap : ∀ a ∈ range n, level.getD a 0 ∈ range n := by
    intro a ha
    have ha := mem_range.1 ha
    rw [List.getD_eq_getElem _ _ (by omega)]
    exact mem_range.2 (hlt _ (List.getElem_mem _))
  refine Eq.trans ?_ (sum_fiberwise_of_maps_to hmap _)
  refine sum_congr rfl fun c _ => ?_
  have : ∑ a ∈ (range n).filter (fun a => level.getD a 0 = c), f (members level (level.getD a 0)) / (members level (level.getD a 0)).card =
      ∑ a ∈ members level c, f (members level c) / (members level c).card := by
    unfold members
    rw [hlen]
    refine sum_congr rfl fun a ha => ?_
    rw [(mem_filter.1 ha).2]
  rw [this, sum_const, nsmul_eq_mul]
  by_cases hz : (members level c).card = 0
  · rw [card_eq_zero.1 hz, hf]; simp
  · have : ((members level c).card : K) ≠ 0 := Nat.cast_ne_zero.2 hz
    field_simp

/-- **C83.** The number of clusters depends on the partitions only, not on how `cut_tree` numbers the clusters. -/
theorem C83_relabel (n : Nat) (hn : 3 ≤ n) (d : Nat → Nat → K) (hs : ∀ i j, d i j = d j i) (h0 : ∀ i, d i i = 0) (cut cut' : Nat → List Nat)
    (hc : IsCutTree n cut) (hc' : IsCutTree n cut')
    (hsame : ∀ k < n, ∀ a < n, ∀ b < n, (cut k).getD a 0 = (cut k).getD b 0 ↔ (cut' k).getD a 0 = (cut' k).getD b 0) :
    optimalNClusters n d cut = optimalNClusters n d cut' := by
  have hW : ∀ k < n, meanDispersion d (cut k) = meanDispersion d (cut' k) := by
    intro k hk
    obtain ⟨a1, a2, _⟩ := hc k hk
    obtain ⟨b1, b2, _⟩ := hc' k hk
    let f : Finset Nat → K := fun s => (∑ u ∈ s, ∑ v ∈ s, d u v) / (s.card * (s.card - 1))
    have e : ∀ level : List Nat, meanDispersion d level = ∑ c ∈ range level.length, f (members level c) := fun _ => rfl
    have hf : f ∅ = 0 := by simp [f]
    rw [e, e, a1, b1, sum_clusters n (cut k) a1 (fun c hc => lt_of_le_of_lt (a2 c hc) hk) f hf,
      sum_clusters n (cut' k) b1 (fun c hc => lt_of_le_of_lt (b2 c hc) hk) f hf]
    refine sum_congr rfl fun a ha => ?_
    have : members (cut k) ((cut k).getD a 0) = members (cut' k) ((cut' k).getD a 0) := by
      unfold members
      rw [a1, b1]
      ext b
      simp only [mem_filter]
      exact and_congr_right fun hb => hsame k hk b (mem_range.1 hb) a (mem_range.1 ha)
    rw [this]
  obtain ⟨k, h1, h2⟩ := C83_optimal n hn d hs h0 cut hc
  obtain ⟨l, h3, h4⟩ := C83_optimal n hn d hs h0 cut' hc'
  have hcv : ∀ j, j < n → curvature (meanDispersion d) cut j = curvature (meanDispersion d) cut' j := by
    intro j hj
    unfold curvature
    rw [hW _ hj, hW _ (by omega), hW _ (by omega)]
  have h5 : IsElbow (meanDispersion d) cut (min n (max 8 (roundSqrt n)) - 1) l := by
    obtain ⟨c1, c2, c3, c4⟩ := h4
    refine ⟨c1, c2, fun j hj hj' => ?_, fun j hj hj' => ?_⟩
    · rw [hcv j (by omega), hcv l (by omega)]; exact c3 j hj hj'
    · rw [hcv j (by omega), hcv l (by omega)]; exact c4 j hj hj'
  rw [h1, h3, elbow_unique _ _ _ _ _ h2 h5]

/-! ### the documented criterion -/

/-- Two pairs of assets, at distances 1 and 2, and 3 between the pairs. -/
def exD : Nat → Nat → ℚ := fun i j =>
  if i = j then 0 else if (i = 0 ∧ j = 1) ∨ (i = 1 ∧ j = 0) then 1 else if (i = 2 ∧ j = 3) ∨ (i = 3 ∧ j = 2) then 2 else 3

def exCut : Nat → List Nat
  | 0 => [0, 0, 0, 0]
  | 1 => [0, 0, 1, 1]
  | 2 => [0, 0, 1, 2]
  | _ => [0, 1, 2, 3]

theorem exCut_cut : IsCutTree 4 exCut := by
  intro k hk
  match k, hk with
  | 0, _ => exact ⟨rfl, by decide, by decide⟩
  | 1, _ => exact ⟨rfl, by decide, by decide⟩
  | 2, _ => exact ⟨rfl, by decide, by decide⟩
  | 3, _ => exact ⟨rfl, by decide, by decide⟩

theorem exD_symm (i j : Nat) : exD i j = exD j i := by
  unfold exD
  by_cases h : i = j
  · rw [h]
  · rw [if_neg h, if_neg (Ne.symm h)]
    congr 1
    · apply propext; constructor <;> rintro (⟨a, b⟩ | ⟨a, b⟩) <;> simp [a, b]
    · congr 1
      apply propext; constructor <;> rintro (⟨a, b⟩ | ⟨a, b⟩) <;> simp [a, b]

/-- **C83** (negated). The dispersion is not the documented one, `Σ D_c / (2 |C_c|)`, and the choice differs: for two pairs of assets the documented
criterion has its elbow at two clusters, the code returns three. -/
theorem C83_documented_dispersion : ∃ (d : Nat → Nat → ℚ) (cut : Nat → List Nat), (∀ i j, d i j = d j i) ∧ (∀ i, d i i = 0) ∧ IsCutTree 4 cut ∧
    optimalNClusters 4 d cut = .ok 3 ∧ IsElbow (docDispersion d) cut 3 2 := by
  refine ⟨exD, exCut, exD_symm, fun i => by simp [exD], exCut_cut, by decide +kernel, le_rfl, by omega, ?_, ?_⟩
  · intro j h2 h3
    have : j = 2 ∨ j = 3 := by omega
    rcases this with rfl | rfl
    · exact le_rfl
    · decide +kernel
  · intro j h2 h3
    omega

/-- **C83** (negated). The number returned is not the `k` that maximises `W_{k+2} + W_k - 2 W_{k+1}` as documented but the one after it. -/
theorem C83_documented_index (n : Nat) (hn : 3 ≤ n) (d : Nat → Nat → K) (hs : ∀ i j, d i j = d j i) (h0 : ∀ i, d i i = 0) (cut : Nat → List Nat)
    (hc : IsCutTree n cut) (W : Nat → K) (hW : ∀ k, 1 ≤ k → W k = meanDispersion d (cut (k - 1))) :
    ∃ k, optimalNClusters n d cut = .ok (k + 1) ∧ 1 ≤ k ∧
      ∀ j, 1 ≤ j → j ≤ min n (max 8 (roundSqrt n)) - 2 → W (j + 2) + W j - 2 * W (j + 1) ≤ W (k + 2) + W k - 2 * W (k + 1) := by
  obtain ⟨k, h1, a1, a2, a3, a4⟩ := C83_optimal n hn d hs h0 cut hc
  refine ⟨k - 1, by rw [h1]; congr 1; omega, by omega, fun j hj hj' => ?_⟩
  have := a3 (j + 1) (by omega) (by omega)
  unfold curvature at this
  rw [hW _ (by omega), hW _ hj, hW _ (by omega), hW _ (by omega), hW _ (by omega), hW _ (by omega)]
  rw [show j + 2 - 1 = j + 1 by omega, show j + 1 - 1 = j by omega, show k - 1 + 2 - 1 = k by omega, show k - 1 - 1 = k - 2 by omega,
    show k - 1 + 1 - 1 = k - 1 by omega]
  rw [show j + 1 - 2 = j - 1 by omega, show j + 1 - 1 = j by omega] at this
  exact this

/-! ### fit -/

theorem assert_iff (n : Nat) (x : Nat → Nat → K) : assertIsDistance n x = .ok () ↔
    (∀ i < n, ∀ j < n, |x i j - x j i| ≤ 1 / 10 ^ 8 + 1 / 10 ^ 5 * |x j i|) ∧ ∀ i < n, |x i i| ≤ 1 / 10 ^ 5 := by
  unfold assertIsDistance
  have e : ∀ a : K, isClose (1 / 10 ^ 5) a 0 ↔ |a| ≤ 1 / 10 ^ 5 := by
    intro a
    unfold isClose
    rw [sub_zero, abs_zero, mul_zero, add_zero]
  by_cases h1 : ∀ i < n, ∀ j < n, isClose (1 / 10 ^ 8) (x i j) (x j i)
  · rw [if_neg (not_not.2 h1)]
    by_cases h2 : ∀ i < n, isClose (1 / 10 ^ 5) (x i i) 0
    · rw [if_neg (not_not.2 h2)]
      exact ⟨fun _ => ⟨h1, fun i hi => (e _).1 (h2 i hi)⟩, fun _ => rfl⟩
    · rw [if_pos h2]
      refine ⟨fun h => by (cases h), fun h => absurd (fun i hi => (e _).2 (h.2 i hi)) h2⟩
  · rw [if_pos h1]
    refine ⟨fun h => by (cases h), fun h => absurd h.1 h1⟩

/-- The labels of a fitted clustering of `n` assets into at most `k` clusters. -/
structure IsClustering (n k : Nat) (fcluster : List Nat) (f : Fitted) : Prop where
  length : f.labels.length = n
  pos : 1 ≤ f.nClusters
  le : f.nClusters ≤ k
  lt : ∀ c ∈ f.labels, c < f.nClusters
  all : ∀ c < f.nClusters, c ∈ f.labels
  partition : ∀ a < n, ∀ b < n, f.labels.getD a 0 = f.labels.getD b 0 ↔ fcluster.getD a 0 = fcluster.getD b 0

theorem labels_ok (n k : Nat) (hk : 1 ≤ k) (fcluster : Nat → List Nat) (hf : IsFcluster n fcluster) :
    let labels := (fcluster k).map (· - 1)
    (labels.dedup.length = labels.foldl max 0 + 1 ∧ labels.foldl max 0 + 1 ≤ k) ∧ IsClustering n k (fcluster k) ⟨labels.dedup.length, labels⟩ := by
  intro labels
  obtain ⟨hlen, m, m1, mk, ml, ma⟩ := hf k hk
  have hle : ∀ c ∈ labels, c < m := by
    intro c hc
    obtain ⟨b, hb, rfl⟩ := List.mem_map.1 hc
    have := ml b hb
    omega
  have hall : ∀ c < m, c ∈ labels := by
    intro c hc
    exact List.mem_map.2 ⟨c + 1, ma (c + 1) (by omega) (by omega), by omega⟩
  have hmax : labels.foldl max 0 = m - 1 :=
    foldl_max labels (m - 1) 0 (by omega) (fun c hc => by have := hle c hc; omega) (by right; exact hall (m - 1) (by omega))
  have hd : labels.dedup.length = m := by
    have : labels.toFinset = range m := by
      ext c
      simp only [List.mem_toFinset, mem_range]
      exact ⟨hle c, hall c⟩
    rw [← List.card_toFinset, this, card_range]
  have hll : labels.length = n := by rw [List.length_map, hlen]
  refine ⟨⟨by rw [hd, hmax]; omega, by rw [hmax]; omega⟩, ⟨hll, by rw [hd]; exact m1, by rw [hd]; exact mk, by rw [hd]; exact hle, by rw [hd]; exact hall, ?_⟩⟩
  intro a ha b hb
  show labels.getD a 0 = labels.getD b 0 ↔ _
  have ha' : a < (fcluster k).length := by omega
  have hb' : b < (fcluster k).length := by omega
  rw [List.getD_eq_getElem _ _ (by omega), List.getD_eq_getElem _ _ (by omega), List.getD_eq_getElem _ _ ha', List.getD_eq_getElem _ _ hb']
  have e1 : labels[a]'(by omega) = (fcluster k)[a] - 1 := List.getElem_map ..
  have e2 : labels[b]'(by omega) = (fcluster k)[b] - 1 := List.getElem_map ..
  rw [e1, e2]
  have := ml _ (List.getElem_mem ha')
  have := ml _ (List.getElem_mem hb')
  omega

/-- **C83.** With `max_clusters`, `fit` succeeds for every distance matrix of at least two assets: the labels are those of scipy, numbered from 0 without a gap;
`n_clusters_` is their number and at most `max_clusters`. -/
theorem C83_fit_max_clusters (n : Nat) (hn : 2 ≤ n) (x : Nat → Nat → K) (hx : assertIsDistance n x = .ok ()) (cut fcluster : Nat → List Nat)
    (hf : IsFcluster n fcluster) (k : Nat) (hk : 1 ≤ k) : ∃ f, fit n x cut fcluster (some k) = .ok f ∧ IsClustering n k (fcluster k) f := by
  obtain ⟨h1, h2⟩ := labels_ok n k hk fcluster hf
  refine ⟨_, ?_, h2⟩
  unfold fit
  rw [hx]
  simp only
  rw [if_neg (by omega), if_pos h1]

/-- **C83.** Without `max_clusters`, `fit` succeeds for at least three assets, with at least one and at most `n - 1` clusters. -/
theorem C83_fit (n : Nat) (hn : 3 ≤ n) (x : Nat → Nat → K) (hs : ∀ i j, x i j = x j i) (h0 : ∀ i, x i i = 0) (cut fcluster : Nat → List Nat)
    (hc : IsCutTree n cut) (hf : IsFcluster n fcluster) :
    ∃ k f, IsElbow (meanDispersion x) cut (min n (max 8 (roundSqrt n)) - 1) k ∧ fit n x cut fcluster none = .ok f ∧ IsClustering n k (fcluster k) f ∧ f.nClusters < n := by
  obtain ⟨k, h1, h2⟩ := C83_optimal n hn x hs h0 cut hc
  have hk2 := h2.1
  have hkn := h2.2.1
  obtain ⟨h3, h4⟩ := labels_ok n k (by omega) fcluster hf
  refine ⟨k, _, h2, ?_, h4, by have := h4.le; simp only at this ⊢; omega⟩
  have hx : assertIsDistance n x = .ok () := (assert_iff n x).2 ⟨fun i _ j _ => by rw [hs i j, sub_self, abs_zero]; positivity, fun i _ => by rw [h0, abs_zero]; positivity⟩
  unfold fit
  rw [hx]
  simp only
  rw [if_neg (by omega), h1]
  simp only
  rw [if_pos h3]

/-- **C83** (negated for two assets). `HierarchicalClustering()` cannot be fitted to the distances of two assets, whatever they are. -/
theorem C83_fit_two_assets (x : Nat → Nat → K) (hx : assertIsDistance 2 x = .ok ()) (cut fcluster : Nat → List Nat) :
    fit 2 x cut fcluster none = .error .emptyArgmax := by
  unfold fit
  rw [hx]
  simp only
  rw [if_neg (by omega), C83_two_assets 2 le_rfl]

/-- **C83.** A matrix that is not symmetric, or without zeros on its diagonal, beyond the tolerances of `np.allclose`, is refused. -/
theorem C83_refused (n : Nat) (x : Nat → Nat → K) (cut fcluster : Nat → List Nat) (mc : Option Nat)
    (h : (∃ i < n, ∃ j < n, 1 / 10 ^ 8 + 1 / 10 ^ 5 * |x j i| < |x i j - x j i|) ∨ ∃ i < n, 1 / 10 ^ 5 < |x i i|) :
    fit n x cut fcluster mc = .error .notSymmetric ∨ fit n x cut fcluster mc = .error .diagonal := by
  have hne : assertIsDistance n x ≠ .ok () := by
    rw [Ne, assert_iff]
    rintro ⟨h1, h2⟩
    rcases h with ⟨i, hi, j, hj, h⟩ | ⟨i, hi, h⟩
    · exact absurd (h1 i hi j hj) (not_le.2 h)
    · exact absurd (h2 i hi) (not_le.2 h)
  unfold fit
  unfold assertIsDistance at hne ⊢
  by_cases h1 : ∀ i < n, ∀ j < n, isClose (1 / 10 ^ 8) (x i j) (x j i)
  · rw [if_neg (not_not.2 h1)] at hne ⊢
    by_cases h2 : ∀ i < n, isClose (1 / 10 ^ 5) (x i i) 0
    · rw [if_neg (not_not.2 h2)] at hne
      exact absurd rfl hne
    · rw [if_pos h2]; right; rfl
  · rw [if_pos h1]; left; rfl

/-- **C83** (negated). "Distances" that are negative are accepted. -/
theorem C83_negative_distance : assertIsDistance 3 (fun i j => if i = j then (0 : ℚ) else -1) = .ok () := by
  rw [assert_iff]
  refine ⟨fun i _ j _ => ?_, fun i _ => by simp⟩
  have : (if i = j then (0 : ℚ) else -1) = if j = i then 0 else -1 := by
    by_cases h : i = j
    · simp [h]
    · rw [if_neg h, if_neg (Ne.symm h)]
  rw [this, sub_self, abs_zero]
  positivity

/-- The contract of `fcluster` can be met. -/
example : IsFcluster 3 fun t => if t = 1 then [1, 1, 1] else [1, 2, 1] := by
  intro t ht
  by_cases h : t = 1
  · simp only [if_pos h]
    refine ⟨rfl, 1, le_rfl, ht, by decide, fun c h1 h2 => ?_⟩
    have : c = 1 := by omega
    subst this
    decide
  · simp only [if_neg h]
    refine ⟨rfl, 2, by omega, by omega, by decide, fun c h1 h2 => ?_⟩
    have : c = 1 ∨ c = 2 := by omega
    rcases this with rfl | rfl <;> decide

/-- The claims are not vacuous: `fit` of the two pairs. -/
example : (fit 4 exD exCut (fun t => if t = 3 then [1, 1, 2, 3] else if t = 2 then [1, 1, 2, 2] else [1, 1, 1, 1]) none).toOption = some ⟨3, [0, 0, 1, 2]⟩ := by decide +kernel

end Skfolio.Cluster
