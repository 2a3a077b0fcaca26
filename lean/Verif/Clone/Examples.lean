import Verif.Clone.Theorems

/-! **C122**: the exception, and concrete objects that meet the hypotheses. -/
set_option autoImplicit false

namespace Skfolio.Clone

/-- A stacking (4) of a mean-risk optimization (3), whose prior (2) has a covariance estimator (1) that the user has fitted before; the splitter (0) is `KFold()`, or the one given. -/
def exampleObj (state : Val) : Nat → Option Obj
  | 0 => some ⟨.splitter, [("n_splits", .const 5), ("random_state", state)], []⟩
  | 1 => some ⟨.leaf .covariance, [("window_size", .const 60)], [("covariance_", .const 7)]⟩
  | 2 => some ⟨.empiricalPrior, [("covariance_estimator", .ref 1)], []⟩
  | 3 => some ⟨.meanRisk, [("prior_estimator", .ref 2)], []⟩
  | 4 => some ⟨.stacking, [("estimators", .refs [("a", 3)]), ("cv", .ref 0)], []⟩
  | _ => none

def exampleHeap (state : Val) : Heap := ⟨exampleObj state, 5⟩

theorem example_wf (state : Val) : Wf (exampleHeap state) := by
  intro b hb
  have hb : 5 ≤ b := hb
  obtain ⟨k, rfl⟩ := Nat.exists_eq_add_of_le' hb
  rfl

/-- Every computation sets `x_` to 1 and there are two folds. -/
def exampleWorld : World := ⟨fun _ _ => .ok [("x_", 1)], fun _ _ => 2, 42⟩

/-- **C122.** The exception: the fit of a stacking writes to the splitter it was given. -/
theorem C122_splitter_changed : ¬∀ (w : World) (n : Nat) (H : Heap) (a b : Nat), Wf H → b < H.next → b ≠ a → (fit w n a H).1.get b = H.get b := by
  intro h
  exact absurd (h exampleWorld 10 (exampleHeap .none) 4 0 (example_wf _) (by decide) (by decide)) (by decide +kernel)

/-- **C122.** Nothing else is changed: every object other than the fitted one that is no splitter, or a splitter with a random state, is as before, whatever is fitted. -/
theorem C122_splitter (w : World) (n : Nat) (H : Heap) (hw : Wf H) (a b : Nat) (hb : b < H.next) (hba : b ≠ a) (o : Obj) (ho : H.get b = some o) (hs : o.kind ≠ .splitter ∨ o.params.lookup "random_state" ≠ some .none) :
    (fit w n a H).1.get b = some o := by
  rw [(C122_given w n H hw a).1 b hb hba ?_, ho]
  rintro ⟨-, s, -, -, -, h1, h2, h3⟩
  rw [ho] at h1
  cases h1
  rcases hs with h | h
  · exact h h2
  · exact h h3

/-- The fit succeeds; the fitted covariance estimator is as it was, and the optimization has a fitted copy of the prior. -/
example : (fit exampleWorld 10 3 (exampleHeap .none)).2 = .ok () ∧ (fit exampleWorld 10 3 (exampleHeap .none)).1.get 1 = exampleObj .none 1 ∧
    ((fit exampleWorld 10 3 (exampleHeap .none)).1.get 3).map (fun o => o.attrs.lookup "prior_estimator_") = some (some (.ref 7)) ∧
    ((fit exampleWorld 10 3 (exampleHeap .none)).1.get 7).map (fun o => o.attrs.lookup "x_") = some (some (.const 1)) := by decide +kernel

/-- The stacking: with a random state nothing is written to the splitter, without it the random state is set. -/
example : (fit exampleWorld 10 4 (exampleHeap (.const 3))).2 = .ok () ∧ (fit exampleWorld 10 4 (exampleHeap (.const 3))).1.get 0 = exampleObj (.const 3) 0 ∧ (fit exampleWorld 10 4 (exampleHeap .none)).2 = .ok () ∧
    ((fit exampleWorld 10 4 (exampleHeap .none)).1.get 0).map (fun o => o.param "random_state") = some (.const 42) := by decide +kernel

/-- A clone of the optimization: three new objects, none of them fitted. -/
example : (clone 10 3 (exampleHeap .none)).2 = .ok 7 ∧ (clone 10 3 (exampleHeap .none)).1.get 7 = some ⟨.meanRisk, [("prior_estimator", .ref 6)], []⟩ ∧
    (clone 10 3 (exampleHeap .none)).1.get 5 = some ⟨.leaf .covariance, [("window_size", .const 60)], []⟩ := by decide +kernel

/-- A covariance estimator is no prior. -/
example : (checkEstimator 10 (.ref 1) ⟨.empiricalPrior, none⟩ (some .prior) (exampleHeap .none)).2 = .error .typeError ∧
    (checkEstimator 10 (.ref 2) ⟨.empiricalPrior, none⟩ (some .prior) (exampleHeap .none)).2 = .ok 7 ∧ (crossVal exampleWorld 10 4 3 (exampleHeap .none)).2 = .ok () := by decide +kernel

end Skfolio.Clone
