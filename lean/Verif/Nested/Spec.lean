import Verif.Nested.Model
import Verif.Validation.Theorems

/-! Specification of nested and stacked optimisation: clusters, returns of a portfolio, and what it means that a series of predictions is out of sample and belongs to given observations. -/
set_option autoImplicit false

namespace Skfolio.Nested

/-- The assets with label `k`, in increasing order. -/
def members (labels : List ℤ) (k : ℕ) : List ℕ := (List.range labels.length).filter fun a => labels.getD a (-1) == (k : ℤ)

/-- The labels are those of a clustering: every asset has one of the labels `0, …, m-1`, and each of these is used. -/
def IsLabelling (labels : List ℤ) (m : ℕ) : Prop := (∀ l ∈ labels, 0 ≤ l ∧ l < m) ∧ ∀ k, k < m → (k : ℤ) ∈ labels

/-- The pairs of training and test observations a `cv` stands for. -/
def IsSplit (nObs : ℕ) (cv : Cv) (train test : List ℕ) : Prop :=
  match cv with
  | .ignore => train = List.range nObs ∧ test = List.range nObs
  | .plain _ splits => (train, test) ∈ splits
  | .combinatorial p => ∃ L, Combinatorial.split p nObs = .ok L ∧ ∃ tests, (train, tests) ∈ L ∧ test ∈ tests

/-- The test sets are runs of consecutive observations (KFold, walk-forward), or the parameters of the combinatorial splitter are such that no observation is lost (see C06). -/
def Consecutive (nObs : ℕ) : Cv → Prop
  | .ignore => True
  | .plain _ splits => ∀ s ∈ splits, Validation.IsRun s.2
  | .combinatorial p => Combinatorial.Valid p ∧ Combinatorial.RemainderFits p.nFolds nObs

section
variable {K : Type} [Field K]

/-- The weights of the portfolio of a cluster: a single asset gets weight one, otherwise the estimator fitted on the assets of the cluster decides. -/
def clusterWeights (est : List (List K) → List K) (X : ℕ → ℕ → K) (rows ids : List ℕ) : List K := if ids.length = 1 then [1] else est (data X rows ids)

/-- What the portfolio of a cluster is charged per period: nothing for a single asset. -/
def clusterCharge (charge : List K → K) (w : List K) (ids : List ℕ) : K := if ids.length = 1 then 0 else charge w

/-- The return at time `t` of weights `w` on the assets `ids`. -/
def portfolioReturn (X : ℕ → ℕ → K) (w : List K) (ids : List ℕ) (t : ℕ) : K := (List.zipWith (fun wi a => wi * X t a) w ids).sum

/-- The series `c` consists of the values at the observations `T`, in this order, where the value at an observation `t` comes from a fit on the training set of a split with `t` in the test set. -/
def IsSeries (nObs : ℕ) (cv : Cv) (value : List ℕ → ℕ → K) (T : List ℕ) (c : List K) : Prop :=
  c.length = T.length ∧ ∀ i (h : i < T.length), ∃ train test, IsSplit nObs cv train test ∧ T[i] ∈ test ∧ c[i]? = some (value train T[i])

end

end Skfolio.Nested
