import Verif.ModelSelection.Theorems

/-!
**C81**, the values of `aic` and `bic`.
-/
set_option autoImplicit false

namespace Skfolio.ModelSelection

variable {K : Type} [Field K] [LinearOrder K]

/-- **C81.** The value of the criterion is `-2 log L` plus the penalty, as documented; it is a number exactly if the log-likelihood is. -/
theorem C81_values (c : Criterion) (ln : Nat → K) (n k : Nat) (l : Flt K) (x : K) : c.value ln n k l = .fin x ↔ ∃ y, l = .fin y ∧ x = -2 * y + penalty c ln n k := by
  cases c <;> cases l <;> simp only [Criterion.value, aic, bic, penalty, Flt.fin.injEq, reduceCtorEq, false_and, exists_false, exists_eq_left']
  · rename_i y
    rw [eq_comm, show (2 : K) * (k - y) = -2 * y + 2 * k by ring]
  · rw [eq_comm]

/-- **C81.** Further parameters are worth it exactly if the log-likelihood rises by more than one each (AIC) or by more than half of `ln n` each (BIC). -/
theorem C81_worth [IsStrictOrderedRing K] (c : Criterion) (ln : Nat → K) (n k d : Nat) (a b : K) :
    (c.value ln n (k + d) (.fin b)).lt (c.value ln n k (.fin a)) = true ↔ (match c with | .aic => (d : K) | .bic => d * (ln n / 2)) < b - a := by
  cases c <;> simp only [Criterion.value, aic, bic, Flt.lt, decide_eq_true_eq, Nat.cast_add] <;> constructor <;> intro h <;> linarith

/-- A log-likelihood of 10 with 2 parameters, 11.5 with 3 and 100 observations (`ln n` about 4.6): the AIC prefers 3, the BIC 2. -/
example : (Criterion.aic.value (fun _ => (23 : ℚ) / 5) 100 3 (.fin (23 / 2))).lt (Criterion.aic.value (fun _ => 23 / 5) 100 2 (.fin 10)) = true ∧
    (Criterion.bic.value (fun _ => (23 : ℚ) / 5) 100 3 (.fin (23 / 2))).lt (Criterion.bic.value (fun _ => 23 / 5) 100 2 (.fin 10)) = false ∧
    Criterion.aic.value (fun _ => (23 : ℚ) / 5) 100 3 (.fin (23 / 2)) = .fin (-17) := by decide +kernel

end Skfolio.ModelSelection
