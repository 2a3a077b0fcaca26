import Verif.Portfolio.RollingModel
import Mathlib.Tactic.Linarith
import Mathlib.Tactic.FieldSimp
import Mathlib.Tactic.Ring
import Mathlib.Tactic.NormNum

/-!
Claim C86: a rolling measure is the measure over each window.
-/

set_option autoImplicit false

namespace Skfolio.Portfolio

/-! ### specification -/

/-- The same portfolio over the observations of the window of `w` observations that ends with observation `t`. -/
def RPtf.over (p : RPtf) (t w : Nat) : RPtf := { p with returns := (p.returns.take (t + 1)).drop (t + 1 - w) }

theorem mapM_some_get {A B : Type} (f : A → Option B) (g : A → B) (h : ∀ a, f a = some (g a)) (l : List A) : l.mapM f = some (l.map g) := by
  induction l with
  | nil => rfl
  | cons a l ih => simp [List.mapM_cons, h, ih]

theorem base_defined (F : Fns) (p : RPtf) (m : Base) : ∃ v, p.getBase F m = some v := by
  cases m with
  | perf q => cases q <;> exact ⟨_, rfl⟩
  | risk q => cases q <;> exact ⟨_, rfl⟩
  | extra q => cases q <;> exact ⟨_, rfl⟩

/-- The measures whose rolling values are the attributes of the window: all but the annualised ratios. -/
def Plain : Measure → Prop
  | .ratio r => r.isAnnualized = false
  | _ => True

theorem rollFunc_plain (F : Fns) (p : RPtf) (m : Measure) (hm : Plain m) (t w : Nat) :
    (p.rollFunc F m ((p.returns.take (t + 1)).drop (t + 1 - w))).map (fun v => v * annualFactor p.annualizedFactor m) = (p.over t w).getMeasure F m := by
  cases m with
  | base b =>
    cases b with
    | perf q => cases q <;> rfl
    | risk q => cases q <;> rfl
    | extra q => cases q <;> rfl
  | ratio r =>
    have one : ∀ x : ℝ, x * 1 = x := mul_one
    cases r <;> first
      | (simp [Plain, Ratio.isAnnualized] at hm; done)
      | (simp [RPtf.rollFunc, RPtf.getMeasure, RPtf.getBase, RPtf.riskFunc, RPtf.over, RPtf.windowArg, RPtf.arg, annualFactor, argsOf, localParam, Ratio.linked, Ratio.nonAnnualized,
          Ratio.isAnnualized, Base.nonAnnualized, List.mapM_cons])

theorem rolling_get {A : Type} {f : Nat → Option A} {n : Nat} {l : List A} (h : (List.range n).mapM f = some l) (t : Nat) (ht : t < n) : l[t]? = f t ∧ l.length = n := by
  induction n generalizing l t with
  | zero => omega
  | succ n ih =>
    rw [List.range_succ, List.mapM_append] at h
    cases h1 : (List.range n).mapM f with
    | none => rw [h1] at h; simp at h
    | some l1 =>
      rw [h1] at h
      cases h2 : f n with
      | none => simp [h2] at h
      | some a =>
        simp [h2] at h
        subst h
        have hlen : l1.length = n := by
          cases n with
          | zero => simp at h1; subst h1; rfl
          | succ k => exact (ih h1 0 (by omega)).2
        refine ⟨?_, by simp [hlen]⟩
        rcases Nat.lt_or_ge t n with h3 | h3
        · rw [List.getElem?_append_left (by omega)]
          exact (ih h1 t h3).1
        · have : t = n := by omega
          subst this
          rw [List.getElem?_append_right (by omega), hlen]
          simp [h2]

theorem rollFunc_defined (F : Fns) (p : RPtf) (m : Measure) (l : List ℝ) : ∃ v, p.rollFunc F m l = some v := by
  cases m with
  | base b =>
    cases b with
    | perf q => cases q <;> exact ⟨_, rfl⟩
    | risk q => cases q <;> exact ⟨_, rfl⟩
    | extra q => cases q <;> exact ⟨_, rfl⟩
  | ratio r => cases r <;> exact ⟨_, rfl⟩

/-! ### the claims -/

/-- **C86.** For every measure the rolling measure has one value for each observation. -/
theorem C86_defined (F : Fns) (p : RPtf) (m : Measure) (w : Nat) : ∃ l, p.rolling F m w = some l ∧ l.length = p.returns.length := by
  have hd : ∀ t, ∃ v, (fun t => if t + 1 < w then some none
    else (p.rollFunc F m ((p.returns.take (t + 1)).drop (t + 1 - w))).map fun v => some (v * annualFactor p.annualizedFactor m)) t = some v := by
    intro t
    by_cases h : t + 1 < w
    · exact ⟨none, by simp [h]⟩
    · obtain ⟨v, hv⟩ := rollFunc_defined F p m ((p.returns.take (t + 1)).drop (t + 1 - w))
      exact ⟨some (v * annualFactor p.annualizedFactor m), by simp [h, hv]⟩
  choose g hg using hd
  exact ⟨_, mapM_some_get _ g hg _, by simp⟩

/-- **C86.** The value for an observation is missing while the window is not full, and then the measure of the same portfolio over the observations of the window; for every
measure but the annualised ratios. -/
theorem C86_rolling (F : Fns) (p : RPtf) (m : Measure) (hm : Plain m) (w : Nat) (l : List (Option ℝ)) (h : p.rolling F m w = some l) (t : Nat)
    (ht : t < p.returns.length) : l[t]? = some (if t + 1 < w then none else (p.over t w).getMeasure F m) := by
  have := (rolling_get h t ht).1
  rw [this]
  by_cases hw : t + 1 < w
  · simp [hw]
  · rw [if_neg hw, if_neg hw, ← rollFunc_plain F p m hm t w]
    obtain ⟨v, hv⟩ := rollFunc_defined F p m ((p.returns.take (t + 1)).drop (t + 1 - w))
    rw [hv]
    rfl

/-- **C86.** Over a window of all observations the last value is the measure of the portfolio. -/
theorem C86_full_window (F : Fns) (p : RPtf) (m : Measure) (hm : Plain m) (hn : p.returns ≠ []) (l : List (Option ℝ)) (h : p.rolling F m p.returns.length = some l) :
    l.getLast? = some (p.getMeasure F m) := by
  have hpos : 0 < p.returns.length := List.length_pos_iff.2 hn
  have h1 := C86_rolling F p m hm _ l h (p.returns.length - 1) (by omega)
  have hl := (rolling_get h (p.returns.length - 1) (by omega)).2
  rw [List.getLast?_eq_getElem?, hl, h1, if_neg (by omega)]
  have : p.over (p.returns.length - 1) p.returns.length = p := by
    unfold RPtf.over
    have e : p.returns.length - 1 + 1 = p.returns.length := by omega
    rw [e, List.take_length, Nat.sub_self, List.drop_zero]
  rw [this]

/-- **C86.** No look-ahead: the value for an observation does not depend on later returns, nor on returns before the window. -/
theorem C86_no_lookahead (F : Fns) (p : RPtf) (m : Measure) (w : Nat) (returns' : List ℝ) (t : Nat) (ht : t < p.returns.length) (ht' : t < returns'.length)
    (hsame : ∀ (i : Nat), i ≤ t → t < i + w → p.returns[i]? = returns'[i]?) (l l' : List (Option ℝ)) (h : p.rolling F m w = some l)
    (h' : ({ p with returns := returns' } : RPtf).rolling F m w = some l') : l[t]? = l'[t]? := by
  rw [(rolling_get h t ht).1, (rolling_get h' t ht').1]
  have e : (p.returns.take (t + 1)).drop (t + 1 - w) = (returns'.take (t + 1)).drop (t + 1 - w) := by
    apply List.ext_getElem?
    intro i
    rw [List.getElem?_drop, List.getElem?_drop, List.getElem?_take, List.getElem?_take]
    by_cases hi : t + 1 - w + i < t + 1
    · rw [if_pos hi, if_pos hi]
      exact hsame _ (by omega) (by omega)
    · rw [if_neg hi, if_neg hi]
  simp only [e]
  have hr : ∀ x, ({ p with returns := returns' } : RPtf).rollFunc F m x = p.rollFunc F m x := by
    intro x
    cases m with
    | base b =>
      cases b with
      | perf q => cases q <;> rfl
      | risk q => cases q <;> rfl
      | extra q => cases q <;> rfl
    | ratio r => cases r <;> rfl
  simp only [hr]

/-- **C86** (negated). An annualised ratio over a window is another number than the same attribute of the portfolio over the window, unless the risk-free rate is 0 or the
factor 1: the attribute subtracts the risk-free rate from the annualised mean, the rolling measure from the mean of one period. -/
theorem C86_annualised_ratio_iff (F : Fns) (hdiv : ∀ a b, b ≠ 0 → F.div a b = a / b) (p : RPtf) (r : Ratio) (hr : r.isAnnualized = true) (w : Nat) (l : List (Option ℝ))
    (h : p.rolling F (.ratio r) w = some l) (t : Nat) (ht : t < p.returns.length) (hw : w ≤ t + 1) (hf : 0 < p.annualizedFactor) (risk : ℝ)
    (hrisk : (p.over t w).getMeasure F (.base r.nonAnnualized.linked) = some risk) (hpos : 0 < risk) :
    l[t]? = some ((p.over t w).getMeasure F (.ratio r)) ↔ p.riskFreeRate = 0 ∨ p.annualizedFactor = 1 := by
  have hroll := (rolling_get h t ht).1
  rw [if_neg (by omega)] at hroll
  rw [hroll]
  have hs : 0 < Real.sqrt p.annualizedFactor := Real.sqrt_pos.2 hf
  have hss : Real.sqrt p.annualizedFactor * Real.sqrt p.annualizedFactor = p.annualizedFactor := Real.mul_self_sqrt hf.le
  have key : ∀ m s : ℝ, s = risk → (F.div (m - p.riskFreeRate) s * Real.sqrt p.annualizedFactor =
      F.div (m * p.annualizedFactor - p.riskFreeRate) (s * Real.sqrt p.annualizedFactor) ↔ p.riskFreeRate = 0 ∨ p.annualizedFactor = 1) := by
    rintro m s rfl
    rw [hdiv _ _ hpos.ne', hdiv _ _ (mul_pos hpos hs).ne', div_mul_eq_mul_div, div_eq_div_iff hpos.ne' (mul_pos hpos hs).ne']
    generalize Real.sqrt p.annualizedFactor = q at *
    rw [← hss]
    constructor
    · intro e
      have : s * (p.riskFreeRate * (q * q - 1)) = 0 := by linarith
      rcases mul_eq_zero.1 this with h0 | h0
      · exact absurd h0 hpos.ne'
      · rcases mul_eq_zero.1 h0 with h1 | h1
        · exact Or.inl h1
        · exact Or.inr (by linarith)
    · rintro (h0 | h0)
      · rw [h0]; ring
      · have e : (m - p.riskFreeRate) * q * (s * q) = (m - p.riskFreeRate) * (q * q) * s := by ring
        rw [e, h0]; ring
  cases r <;> simp [Ratio.isAnnualized] at hr
  · simp [RPtf.rollFunc, RPtf.getMeasure, RPtf.getBase, RPtf.riskFunc, RPtf.over, RPtf.windowArg, RPtf.arg, annualFactor, argsOf, localParam, Ratio.linked, Ratio.nonAnnualized,
      Ratio.isAnnualized, Base.nonAnnualized, List.mapM_cons] at hrisk ⊢
    exact key _ _ hrisk
  · simp [RPtf.rollFunc, RPtf.getMeasure, RPtf.getBase, RPtf.riskFunc, RPtf.over, RPtf.windowArg, RPtf.arg, annualFactor, argsOf, localParam, Ratio.linked, Ratio.nonAnnualized,
      Ratio.isAnnualized, Base.nonAnnualized, List.mapM_cons] at hrisk ⊢
    exact key _ _ hrisk

/-- Daily returns 1% with a risk of 1%: a table of functions, a portfolio and a window for which the hypotheses of the theorems above hold, with a risk-free rate that is
not 0. The annualised rolling Sharpe ratio of the code is 0 there, the attribute is positive. -/
example : ∃ (F : Fns) (p : RPtf) (l : List (Option ℝ)), (∀ a b, b ≠ 0 → F.div a b = a / b) ∧ p.rolling F (.ratio .annualizedSharpe) 2 = some l ∧
    (p.over 2 2).getMeasure F (.base (.risk .standardDeviation)) = some (1 / 100) ∧ l[2]? = some (some 0) ∧
    (p.over 2 2).getMeasure F (.ratio .annualizedSharpe) = some ((252 / 100 - 1 / 100) / (1 / 100 * Real.sqrt 252)) := by
  refine ⟨⟨fun _ _ => 1 / 100, fun l _ => l, fun a b => a / b⟩, ⟨[1, 2, 3], false, none, 1 / 100, 252, fun _ => 0⟩, [none, some 0, some 0], fun _ _ _ => rfl, ?_, ?_, rfl, ?_⟩
  · have e : (List.range 3) = [0, 1, 2] := rfl
    simp [RPtf.rolling, e, List.mapM_cons, RPtf.rollFunc, RPtf.riskFunc, RPtf.windowArg, RPtf.arg, argsOf, Ratio.linked, Ratio.nonAnnualized]
  · simp [RPtf.getMeasure, RPtf.getBase, RPtf.over, RPtf.arg, annualFactor, argsOf, Base.nonAnnualized]
  · simp [RPtf.getMeasure, RPtf.getBase, RPtf.over, RPtf.arg, annualFactor, argsOf, Base.nonAnnualized, Ratio.isAnnualized, Ratio.linked]
    norm_num

end Skfolio.Portfolio
