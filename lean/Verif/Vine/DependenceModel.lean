import Verif.Vine.Central
import Verif.Distance.SampleModel

/-!
Model of `_dependence` (`src/skfolio/distribution/multivariate/_utils.py` L594-632) and of the matrix of dependences of the first tree (`Tree.set_edges_from_mst`, L537-558). U is that file.

Simplified: exact arithmetic; the columns have the same length (they are those of one array). `mutual_info_regression` of scikit-learn is an arbitrary function `mi`.
-/
set_option autoImplicit false

namespace Skfolio.Vine

variable {T n : Nat}

/-- `DependenceMethod`, U L26-37. -/
inductive DependenceMethod where
  | kendallTau | mutualInformation | wassersteinDistance
  deriving DecidableEq

open Classical in
/-- The share of the values that are at most `a`: scipy's `searchsorted(…, "right") / size`. -/
noncomputable def shareBelow (u : List ℝ) (a : ℝ) : ℝ := (u.countP fun x => decide (x ≤ a)) / u.length

open Classical in
/-- `st.wasserstein_distance(u, v)`: the sum over the gaps of the sorted values of both columns, each times the difference of the distribution functions at its lower end. -/
noncomputable def wasserstein (u v : List ℝ) : ℝ :=
  let all := (u ++ v).mergeSort fun a b => decide (a ≤ b)
  ((all.zip all.tail).map fun p => |shareBelow u p.1 - shareBelow v p.1| * (p.2 - p.1)).sum

/-- `_dependence`, U L618-632; `none` is NaN. -/
noncomputable def dependence (mi : (Fin T → ℝ) → (Fin T → ℝ) → ℝ) (m : DependenceMethod) (u v : Fin T → ℝ) : Option ℝ :=
  match m with
  | .kendallTau => Distance.kendall u v
  | .mutualInformation => some (mi u v)
  | .wassersteinDistance => some (wasserstein (List.ofFn u) (List.ofFn v))

inductive DepErr where
  /-- `RuntimeError("dependence_matrix contains NaNs")`, U L557-558. -/
  | nan
  deriving DecidableEq

open Classical in
/-- The entries `abs(edge.dependence) + 1e-5` for the pairs `i < j`, U L541-558. Other pairs are not read. -/
noncomputable def dependenceMatrix (D : Fin n → Fin n → Option ℝ) : Except DepErr (ℕ × ℕ → ℝ) :=
  if ∃ i j, i < j ∧ D i j = none then .error .nan
  else .ok fun p => if h : p.1 < n ∧ p.2 < n then |(D ⟨p.1, h.1⟩ ⟨p.2, h.2⟩).getD 0| + 1 / 100000 else 1 / 100000

/-- The matrix of the first tree, from the pseudo-values of the assets (`Edge.dependence`, U L378-386). -/
noncomputable def rootDependences (mi : (Fin T → ℝ) → (Fin T → ℝ) → ℝ) (m : DependenceMethod) (U : Fin n → Fin T → ℝ) : Except DepErr (ℕ × ℕ → ℝ) :=
  dependenceMatrix fun i j => dependence mi m (U i) (U j)

end Skfolio.Vine
