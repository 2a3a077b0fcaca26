import Verif.Measures.ScaleTheorems

/-!
C144: the measures of a multi-period portfolio and those of its portfolios. The returns of a `MultiPeriodPortfolio` (`src/skfolio/portfolio/_multi_period_portfolio.py` L376-388,
L505-530) are those of its portfolios one after the other (C26), and its measures are those of `src/skfolio/measures/_measures.py` of these returns.
-/
set_option autoImplicit false

namespace Skfolio.Measures

section
variable {K : Type} [Field K] [LinearOrder K]

/-! ### Specification -/

/-- The average of a measure over the periods, each counted with its number of observations. -/
def periodAverage (f : List K → K) (rs : List (List K)) : K := (rs.map fun r => (r.length : K) * f r).sum / (rs.flatten.length : K)

/-- The measure of all periods together is the average over the periods. -/
def Averages (f : List K → K) : Prop := ∀ rs : List (List K), (∀ r ∈ rs, r ≠ []) → f rs.flatten = periodAverage f rs

variable [IsStrictOrderedRing K]

/-! ### Averages -/

omit [LinearOrder K] [IsStrictOrderedRing K] in
theorem sum_map_flatten (g : K → K) (rs : List (List K)) : (rs.flatten.map g).sum = (rs.map fun r => (r.map g).sum).sum := by
  induction rs with
  | nil => simp
  | cons r rs ih => rw [List.flatten_cons, List.map_append, List.sum_append, ih, List.map_cons, List.sum_cons]

theorem averages_of_sum (f : List K → K) (g : K → K) (h : ∀ r : List K, f r = (r.map g).sum / (r.length : K)) : Averages f := by
  intro rs hne
  unfold periodAverage
  rw [h, sum_map_flatten]
  congr 2
  apply List.map_congr_left
  intro r hr
  have : (r.length : K) ≠ 0 := by exact_mod_cast (List.length_pos_iff.2 (hne r hr)).ne'
  rw [h, mul_div_cancel₀ _ this]

/-- **C144.** The mean of a multi-period portfolio is the average of the means of its portfolios, each counted with its number of observations; so are, for a given minimum acceptable return, the mean absolute deviation, the first and
the fourth lower partial moment. -/
theorem C144_averages (m : K) :
    Averages (mean (K := K)) ∧ Averages (fun r : List K => meanAbsoluteDeviation r (some m)) ∧ Averages (fun r : List K => firstLowerPartialMoment r (some m)) ∧
    Averages (fun r : List K => fourthLowerPartialMoment r (some m)) := by
  refine ⟨averages_of_sum _ (fun x => x) fun r => by simp [mean], averages_of_sum _ (fun x => |x - m|) fun r => ?_,
    averages_of_sum _ (fun x => -min 0 (x - m)) fun r => ?_, averages_of_sum _ (fun x => (min 0 (x - m)) ^ 4) fun r => ?_⟩
  · unfold meanAbsoluteDeviation mean mar
    rw [List.length_map]
  · unfold firstLowerPartialMoment mar
    congr 1
    induction r with
    | nil => simp
    | cons x r ih => simp only [List.map_cons, List.sum_cons, neg_add]; rw [ih]
  · rfl

theorem flatten_length_pos (rs : List (List K)) (hrs : rs ≠ []) (hne : ∀ r ∈ rs, r ≠ []) : (0 : K) < (rs.flatten.length : K) := by
  obtain ⟨r, hr⟩ := List.exists_mem_of_ne_nil rs hrs
  have : 0 < rs.flatten.length := by
    obtain ⟨x, hx⟩ := List.exists_mem_of_ne_nil r (hne r hr)
    exact List.length_pos_of_mem (List.mem_flatten.2 ⟨r, hr, hx⟩)
  exact_mod_cast this

omit [LinearOrder K] [IsStrictOrderedRing K] in
theorem flatten_length_sum (rs : List (List K)) : (rs.flatten.length : K) = (rs.map fun r => (r.length : K)).sum := by
  induction rs with
  | nil => simp
  | cons r rs ih => rw [List.flatten_cons, List.length_append, Nat.cast_add, ih, List.map_cons, List.sum_cons]

theorem sum_le_of_le (rs : List (List K)) (f g : List K → K) (h : ∀ r ∈ rs, f r ≤ g r) : (rs.map f).sum ≤ (rs.map g).sum := by
  induction rs with
  | nil => simp
  | cons r rs ih =>
    simp only [List.map_cons, List.sum_cons]
    exact add_le_add (h r (by simp)) (ih fun r' hr' => h r' (by simp [hr']))

omit [LinearOrder K] [IsStrictOrderedRing K] in
theorem sum_mul_right (rs : List (List K)) (c : K) : (rs.map fun r => (r.length : K) * c).sum = (rs.flatten.length : K) * c := by
  rw [flatten_length_sum]
  induction rs with
  | nil => simp
  | cons r rs ih => simp only [List.map_cons, List.sum_cons]; rw [ih]; ring

/-- **C144.** Such an average is between the smallest and the largest of the measures of the portfolios. -/
theorem C144_between (f : List K → K) (hf : Averages f) (rs : List (List K)) (hrs : rs ≠ []) (hne : ∀ r ∈ rs, r ≠ []) (lo hi : K)
    (hlo : ∀ r ∈ rs, lo ≤ f r) (hhi : ∀ r ∈ rs, f r ≤ hi) : lo ≤ f rs.flatten ∧ f rs.flatten ≤ hi := by
  have hn := flatten_length_pos rs hrs hne
  rw [hf rs hne]
  unfold periodAverage
  constructor
  · rw [le_div_iff₀ hn, mul_comm, ← sum_mul_right]
    exact sum_le_of_le rs _ _ fun r hr => mul_le_mul_of_nonneg_left (hlo r hr) (by positivity)
  · rw [div_le_iff₀ hn, mul_comm hi, ← sum_mul_right]
    exact sum_le_of_le rs _ _ fun r hr => mul_le_mul_of_nonneg_left (hhi r hr) (by positivity)

/-! ### Variance -/

/-- Sum of squares about a value. -/
def squaresAbout (r : List K) (a : K) : K := (r.map fun x => (x - a) ^ 2).sum

omit [LinearOrder K] [IsStrictOrderedRing K] in
theorem squaresAbout_expand (r : List K) (a : K) : squaresAbout r a = (r.map fun x => x ^ 2).sum - 2 * a * r.sum + (r.length : K) * a ^ 2 := by
  unfold squaresAbout
  induction r with
  | nil => simp
  | cons x r ih => simp only [List.map_cons, List.sum_cons, List.length_cons, Nat.cast_add, Nat.cast_one]; rw [ih]; ring

theorem squaresAbout_shift (r : List K) (hr : r ≠ []) (a : K) : squaresAbout r a = squaresAbout r (mean r) + (r.length : K) * (mean r - a) ^ 2 := by
  have hn : (r.length : K) ≠ 0 := by exact_mod_cast (List.length_pos_iff.2 hr).ne'
  have hs : r.sum = (r.length : K) * mean r := by unfold mean; rw [mul_div_cancel₀ _ hn]
  rw [squaresAbout_expand, squaresAbout_expand, hs]
  ring

theorem variance_squares (r : List K) (hr : 2 ≤ r.length) : ((r.length : K) - 1) * variance r = squaresAbout r (mean r) := by
  have : (r.length : K) - 1 ≠ 0 := by
    have h2 : (2 : K) ≤ (r.length : K) := by exact_mod_cast hr
    intro h; linarith
  unfold variance squaresAbout
  rw [mul_div_cancel₀ _ this]

/-- **C144.** The variance of a multi-period portfolio comes from the variances of its portfolios and from the differences of their means. -/
theorem C144_variance (rs : List (List K)) (hrs : rs ≠ []) (hne : ∀ r ∈ rs, 2 ≤ r.length) :
    ((rs.flatten.length : K) - 1) * variance rs.flatten =
      (rs.map fun r => ((r.length : K) - 1) * variance r).sum + (rs.map fun r => (r.length : K) * (mean r - mean rs.flatten) ^ 2).sum := by
  have hlen : 2 ≤ rs.flatten.length := by
    obtain ⟨r, hr⟩ := List.exists_mem_of_ne_nil rs hrs
    exact (hne r hr).trans (List.sublist_flatten_of_mem hr).length_le
  rw [variance_squares _ hlen]
  generalize mean rs.flatten = a
  unfold squaresAbout
  rw [sum_map_flatten, ← List.sum_map_add]
  congr 1
  apply List.map_congr_left
  intro r hr
  have h2 := hne r hr
  have := squaresAbout_shift r (List.length_pos_iff.1 (by omega)) a
  rw [variance_squares r h2, ← this]
  rfl

/-- **C144.** Hence it is never less than the variances of the portfolios account for, and no more exactly if they have the same mean. -/
theorem C144_variance_within (rs : List (List K)) (hrs : rs ≠ []) (hne : ∀ r ∈ rs, 2 ≤ r.length) :
    (rs.map fun r => ((r.length : K) - 1) * variance r).sum ≤ ((rs.flatten.length : K) - 1) * variance rs.flatten ∧
    ((rs.map fun r => ((r.length : K) - 1) * variance r).sum = ((rs.flatten.length : K) - 1) * variance rs.flatten ↔ ∀ r ∈ rs, ∀ r' ∈ rs, mean r = mean r') := by
  have hne' : ∀ r ∈ rs, r ≠ [] := fun r hr => List.length_pos_iff.1 (by have := hne r hr; omega)
  have hv := C144_variance rs hrs hne
  have hnn : ∀ x ∈ rs.map fun r => (r.length : K) * (mean r - mean rs.flatten) ^ 2, 0 ≤ x := by
    intro x hx
    obtain ⟨r, -, rfl⟩ := List.mem_map.1 hx
    positivity
  have h0 := List.sum_nonneg hnn
  refine ⟨by linarith, ?_, ?_⟩
  · intro h
    have hz : (rs.map fun r => (r.length : K) * (mean r - mean rs.flatten) ^ 2).sum = 0 := by linarith
    have hall : ∀ r ∈ rs, mean r = mean rs.flatten := by
      intro r hr
      have h1 := List.single_le_sum hnn _ (List.mem_map_of_mem (f := fun r => (r.length : K) * (mean r - mean rs.flatten) ^ 2) hr)
      rw [hz] at h1
      have hn : (0 : K) < (r.length : K) := by exact_mod_cast List.length_pos_iff.2 (hne' r hr)
      have h2 : (r.length : K) * (mean r - mean rs.flatten) ^ 2 = 0 := le_antisymm h1 (by positivity)
      rcases mul_eq_zero.1 h2 with h3 | h3
      · exact absurd h3 hn.ne'
      · exact sub_eq_zero.1 (pow_eq_zero_iff (by norm_num) |>.1 h3)
    intro r hr r' hr'
    rw [hall r hr, hall r' hr']
  · intro h
    have hall : ∀ r ∈ rs, mean r = mean rs.flatten := by
      intro r hr
      obtain ⟨h1, h2⟩ := C144_between mean (C144_averages 0).1 rs hrs hne' (mean r) (mean r) (fun r' hr' => (h r hr r' hr').le) (fun r' hr' => (h r' hr' r hr).le)
      exact le_antisymm h1 h2
    have hz : (rs.map fun r => (r.length : K) * (mean r - mean rs.flatten) ^ 2).sum = 0 := by
      apply List.sum_eq_zero
      intro x hx
      obtain ⟨r, hr, rfl⟩ := List.mem_map.1 hx
      rw [hall r hr]; ring
    linarith

/-! ### Tails -/

/-- **C144.** The worst realization of a multi-period portfolio is that of one of its portfolios, and the largest of them. -/
theorem C144_worst (rs : List (List K)) (hrs : rs ≠ []) (hne : ∀ r ∈ rs, r ≠ []) :
    ∃ w, worstRealization rs.flatten = some w ∧ (∃ r ∈ rs, worstRealization r = some w) ∧ ∀ r ∈ rs, ∀ w', worstRealization r = some w' → w' ≤ w := by
  have hdef : ∀ r : List K, r ≠ [] → ∃ w, worstRealization r = some w := by
    intro r hr
    unfold worstRealization
    cases h : r.min? with
    | none => rw [List.min?_eq_none_iff] at h; exact absurd h hr
    | some x => exact ⟨-x, rfl⟩
  have hfl : rs.flatten ≠ [] := by
    have := flatten_length_pos rs hrs hne
    intro h
    rw [h] at this
    simp at this
  obtain ⟨w, hw⟩ := hdef _ hfl
  obtain ⟨⟨x, hx, rfl⟩, hmax⟩ := C12_worst _ _ hw
  have hle : ∀ r ∈ rs, ∀ w', worstRealization r = some w' → w' ≤ -x := by
    intro r hr w' hw'
    obtain ⟨⟨y, hy, rfl⟩, -⟩ := C12_worst _ _ hw'
    exact hmax y (List.mem_flatten.2 ⟨r, hr, hy⟩)
  refine ⟨-x, hw, ?_, hle⟩
  obtain ⟨r, hr, hxr⟩ := List.mem_flatten.1 hx
  obtain ⟨w', hw'⟩ := hdef r (hne r hr)
  have h1 := hle r hr w' hw'
  have h2 := (C12_worst _ _ hw').2 x hxr
  exact ⟨r, hr, by rw [hw', le_antisymm h1 h2]⟩

variable [FloorSemiring K]

omit [LinearOrder K] [IsStrictOrderedRing K] [FloorSemiring K] in
theorem countP_flatten_cast (p : K → Bool) (rs : List (List K)) : ((rs.flatten.countP p : Nat) : K) = (rs.map fun r => ((r.countP p : Nat) : K)).sum := by
  induction rs with
  | nil => simp
  | cons r rs ih => rw [List.flatten_cons, List.countP_append, Nat.cast_add, ih, List.map_cons, List.sum_cons]

omit [FloorSemiring K] in
theorem sum_lt_of_lt (rs : List (List K)) (hrs : rs ≠ []) (f g : List K → K) (h : ∀ r ∈ rs, f r < g r) : (rs.map f).sum < (rs.map g).sum := by
  obtain ⟨r, rs', rfl⟩ := List.exists_cons_of_ne_nil hrs
  simp only [List.map_cons, List.sum_cons]
  exact add_lt_add_of_lt_of_le (h r (by simp)) (sum_le_of_le rs' f g fun r' hr' => (h r' (by simp [hr'])).le)

/-- **C144.** The VaR of a multi-period portfolio is between the smallest and the largest of the VaRs of its portfolios. -/
theorem C144_var (P : Partition K) (rs : List (List K)) (hrs : rs ≠ []) (hne : ∀ r ∈ rs, r ≠ []) (beta : K) (h0 : 0 ≤ beta) (h1 : beta < 1) (lo hi v : K)
    (hlo : ∀ r ∈ rs, ∀ x, valueAtRisk P r beta = some x → lo ≤ x) (hhi : ∀ r ∈ rs, ∀ x, valueAtRisk P r beta = some x → x ≤ hi)
    (hv : valueAtRisk P rs.flatten beta = some v) : lo ≤ v ∧ v ≤ hi := by
  have hfl : rs.flatten ≠ [] := by
    have := flatten_length_pos rs hrs hne
    intro h
    rw [h] at this
    simp at this
  obtain ⟨hq1, hq2⟩ := (C12_var_iff_quantile P _ hfl beta h0 h1 v).1 hv
  have hsum : (1 - beta) * (rs.flatten.length : K) = (rs.map fun r => (1 - beta) * (r.length : K)).sum := by
    rw [flatten_length_sum, ← List.sum_map_mul_left]
  have hex : ∀ r ∈ rs, ∃ x, valueAtRisk P r beta = some x ∧ IsLossQuantile r beta x := by
    intro r hr
    obtain ⟨⟨x, hx⟩, -, -⟩ := C12_defined P r (hne r hr) beta h0 h1
    exact ⟨x, hx, (C12_var_iff_quantile P r (hne r hr) beta h0 h1 x).1 hx⟩
  constructor
  · by_contra hcon
    push Not at hcon
    rw [hsum, countP_flatten_cast] at hq1
    refine absurd hq1 (not_lt.2 (sum_le_of_le rs _ _ fun r hr => ?_))
    obtain ⟨x, hx, hx1, hx2⟩ := hex r hr
    refine hx2.trans ?_
    have : (r.countP fun y => decide (x ≤ -y)) ≤ r.countP fun y => decide (v < -y) := by
      apply List.countP_mono_left
      intro y _ hy
      simp only [decide_eq_true_eq] at hy ⊢
      have := hlo r hr x hx
      linarith
    exact_mod_cast this
  · by_contra hcon
    push Not at hcon
    rw [hsum, countP_flatten_cast] at hq2
    refine absurd hq2 (not_le.2 (sum_lt_of_lt rs hrs _ _ fun r hr => ?_))
    obtain ⟨x, hx, hx1, hx2⟩ := hex r hr
    refine lt_of_le_of_lt ?_ hx1
    have : (r.countP fun y => decide (v ≤ -y)) ≤ r.countP fun y => decide (x < -y) := by
      apply List.countP_mono_left
      intro y _ hy
      simp only [decide_eq_true_eq] at hy ⊢
      have := hhi r hr x hx
      linarith
    exact_mod_cast this

/-- **C144.** The CVaR of a multi-period portfolio is at least the average of the CVaRs of its portfolios, each counted with its number of observations. -/
theorem C144_cvar (P : Partition K) (rs : List (List K)) (hrs : rs ≠ []) (hne : ∀ r ∈ rs, r ≠ []) (beta : K) (h0 : 0 ≤ beta) (h1 : beta < 1) (c : K)
    (hc : cvar P rs.flatten beta = some c) : periodAverage (fun r => (cvar P r beta).getD 0) rs ≤ c := by
  have hn := flatten_length_pos rs hrs hne
  have hfl : rs.flatten ≠ [] := by
    intro h
    rw [h] at hn
    simp at hn
  obtain ⟨⟨v, hv⟩, -, -⟩ := C12_defined P _ hfl beta h0 h1
  obtain ⟨-, heq⟩ := C13_rockafellar_uryasev P _ hfl beta h0 h1 v c hv hc
  have hb : (0 : K) < 1 - beta := by linarith
  unfold periodAverage
  rw [div_le_iff₀ hn, heq]
  have hstep : (rs.map fun r => (r.length : K) * (cvar P r beta).getD 0).sum ≤ (rs.map fun r => (r.length : K) * ruObjective r beta v).sum := by
    apply sum_le_of_le
    intro r hr
    obtain ⟨⟨vr, hvr⟩, ⟨cr, hcr⟩, -⟩ := C12_defined P r (hne r hr) beta h0 h1
    rw [hcr]
    exact mul_le_mul_of_nonneg_left ((C13_rockafellar_uryasev P r (hne r hr) beta h0 h1 vr cr hvr hcr).1 v) (by positivity)
  refine hstep.trans (le_of_eq ?_)
  have hr1 : ∀ r : List K, r ≠ [] → (r.length : K) * ruObjective r beta v = (r.length : K) * v + (r.map fun x => max 0 (-x - v)).sum / (1 - beta) := by
    intro r hr
    have : (r.length : K) ≠ 0 := by exact_mod_cast (List.length_pos_iff.2 hr).ne'
    unfold ruObjective
    field_simp
  rw [mul_comm (ruObjective _ _ _), hr1 _ hfl, sum_map_flatten, ← sum_mul_right, div_eq_mul_inv, ← List.sum_map_mul_right, ← List.sum_map_add]
  congr 1
  apply List.map_congr_left
  intro r hr
  rw [hr1 r (hne r hr), div_eq_mul_inv]

/-! ### Drawdowns -/

omit [LinearOrder K] [IsStrictOrderedRing K] [FloorSemiring K] in
theorem wealth_append (a r b : List K) (t : Nat) (ht : t < r.length) :
    wealth (a ++ r ++ b) false (a.length + t) = a.sum + wealth r false t ∧
    wealth (a ++ r ++ b) true (a.length + t) = (a.map fun x => 1 + x).prod * wealth r true t := by
  have htake : (a ++ r ++ b).take (a.length + t + 1) = a ++ r.take (t + 1) := by
    rw [List.append_assoc, add_assoc, List.take_length_add_append, List.take_append_of_le_length (by omega)]
  unfold wealth
  rw [htake]
  constructor
  · simp
  · simp only [if_true, List.map_append, List.prod_append]
    ring

omit [FloorSemiring K] in
theorem shortfall_append (a r b : List K) (compounded : Bool) (h : compounded = true → ∀ x ∈ a ++ r ++ b, -1 < x) (t : Nat) (ht : t < r.length) :
    shortfall (a ++ r ++ b) compounded (a.length + t) ≤ shortfall r compounded t := by
  have hpk : ∀ s, s ≤ t → wealth (a ++ r ++ b) compounded (a.length + s) ≤ peak (a ++ r ++ b) compounded (a.length + t) := by
    intro s hs
    unfold peak
    exact Finset.le_sup' _ (Finset.mem_range.2 (by omega))
  obtain ⟨s, hs, hps⟩ : ∃ s ∈ Finset.range (t + 1), peak r compounded t = wealth r compounded s := by
    unfold peak
    exact Finset.exists_mem_eq_sup' _ _
  have hs' : s ≤ t := by have := Finset.mem_range.1 hs; omega
  have hp := hpk s hs'
  unfold shortfall
  cases compounded
  · simp only [Bool.false_eq_true, if_false]
    rw [(wealth_append a r b s (by omega)).1] at hp
    rw [(wealth_append a r b t ht).1, hps]
    linarith
  · simp only [if_true]
    have hA : 0 < (a.map fun x => 1 + x).prod := by
      apply List.prod_pos
      intro x hx
      obtain ⟨y, hy, rfl⟩ := List.mem_map.1 hx
      have := h rfl y (by simp [hy])
      linarith
    have hr : ∀ x ∈ r, -1 < x := fun x hx => h rfl x (by simp [hx])
    have hws := wealth_pos r hr s
    have hwt := wealth_pos r hr t
    rw [(wealth_append a r b s (by omega)).2] at hp
    rw [(wealth_append a r b t ht).2, hps]
    have h1 : (a.map fun x => 1 + x).prod * wealth r true t / peak (a ++ r ++ b) true (a.length + t) ≤
        (a.map fun x => 1 + x).prod * wealth r true t / ((a.map fun x => 1 + x).prod * wealth r true s) :=
      div_le_div_of_nonneg_left (by positivity) (by positivity) hp
    rw [mul_div_mul_left _ _ hA.ne'] at h1
    linarith

/-- **C144.** The maximum drawdown of a multi-period portfolio is at least that of each of its portfolios (compounded: for returns above -1). -/
theorem C144_max_drawdown (P : Partition K) (rs : List (List K)) (compounded : Bool) (h : compounded = true → ∀ r ∈ rs, ∀ x ∈ r, -1 < x) (r : List K) (hr : r ∈ rs)
    (m m' : K) (hm : maxDrawdown P (drawdowns r compounded) = some m) (hm' : maxDrawdown P (drawdowns rs.flatten compounded) = some m') : m ≤ m' := by
  unfold maxDrawdown drawdownAtRisk at hm hm'
  rw [C12_var_one] at hm hm'
  obtain ⟨⟨d, hd, rfl⟩, -⟩ := C12_worst _ _ hm
  have hmax := (C12_worst _ _ hm').2
  obtain ⟨t, ht, hdt⟩ := mem_getElem? _ d hd
  rw [length_drawdowns] at ht
  rw [drawdowns_get r compounded t ht, Option.some.injEq] at hdt
  obtain ⟨pre, post, rfl⟩ := List.append_of_mem hr
  have hflat : (pre ++ r :: post).flatten = pre.flatten ++ r ++ post.flatten := by simp
  rw [hflat] at hmax
  have hlen : pre.flatten.length + t < (pre.flatten ++ r ++ post.flatten).length := by simp; omega
  have hget := drawdowns_get (pre.flatten ++ r ++ post.flatten) compounded _ hlen
  have h1 := hmax _ (List.mem_of_getElem? hget)
  have h2 := shortfall_append pre.flatten r post.flatten compounded (by
    intro hc x hx
    rw [← hflat] at hx
    obtain ⟨r', hr', hx'⟩ := List.mem_flatten.1 hx
    exact h hc r' hr' x hx') t ht
  rw [← hdt]
  linarith

end

/-! ### Findings and examples -/

/-- **C144, finding.** The CVaR of a multi-period portfolio can be larger than the CVaRs of all its portfolios: losses of 1 in one of twenty observations and losses of 2/5 in all of them have the CVaRs 1/2 and 2/5 at 90 %, together
they have 11/20 (the tail of the second is not as bad as the rest of the tail of the first, but the tail of both is made of the worst of both). -/
theorem C144_cvar_can_exceed : ∃ a b : List ℚ, cvar (sortPartition ℚ) a (9 / 10) = some (1 / 2) ∧ cvar (sortPartition ℚ) b (9 / 10) = some (2 / 5) ∧
    cvar (sortPartition ℚ) [a, b].flatten (9 / 10) = some (11 / 20) := by
  refine ⟨-1 :: List.replicate 19 0, List.replicate 20 (-2 / 5), ?_, ?_, ?_⟩ <;> decide +kernel

/-- **C144, finding.** Likewise the maximum drawdown: portfolios of one observation never have a drawdown, a loss in the second is one for both together. -/
theorem C144_drawdown_can_exceed (compounded : Bool) : maxDrawdown (sortPartition ℚ) (drawdowns [0] compounded) = some 0 ∧
    maxDrawdown (sortPartition ℚ) (drawdowns [-1 / 2] compounded) = some 0 ∧ maxDrawdown (sortPartition ℚ) (drawdowns [[0], [-1 / 2]].flatten compounded) = some (1 / 2) := by
  cases compounded <;> decide +kernel

/-- **C144, finding.** The mean absolute deviation without a minimum acceptable return is not such an average: two constant portfolios have none, together they have some. -/
theorem C144_mad_not_average : ¬ Averages fun r : List ℚ => meanAbsoluteDeviation r none := by
  intro h
  exact absurd (h [[0, 0], [1, 1]] (by decide)) (by decide +kernel)

/-- Three periods of different length: the numbers of the theorems. -/
example : let rs : List (List ℚ) := [[1, 3], [2, -1, 2], [0, 6]]
    rs ≠ [] ∧ (∀ r ∈ rs, 2 ≤ r.length) ∧ mean rs.flatten = 13 / 7 ∧ periodAverage mean rs = 13 / 7 ∧ variance rs.flatten = 36 / 7 ∧
    valueAtRisk (sortPartition ℚ) rs.flatten (1 / 2) = some (-2) ∧ worstRealization rs.flatten = some 1 := by decide +kernel

end Skfolio.Measures
