import Verif.Routing.Model

/-!
Specification of metadata routing, in terms of the nested estimators and the keywords they have asked for.
-/

set_option autoImplicit false

namespace Skfolio.Routing

/-- The nested estimators with their attributes. -/
def Kids.toList : Kids → List (String × Est)
  | .nil => []
  | .cons s e rest => (s, e) :: rest.toList

/-- The estimator held by an attribute. -/
def Est.get? : Est → String → Option Est
  | .mk _ _ kids, s => kids.toList.lookup s

/-- The estimator to which a chain of attributes leads, as in `model.prior_estimator.covariance_estimator`. -/
def Est.at? : Est → List String → Option Est
  | e, [] => some e
  | e, s :: p => (e.get? s).bind fun e' => e'.at? p

def Est.cls : Est → Option Cls
  | .mk c _ _ => c

/-- The keywords asked for, with the names under which they are to be passed. Only `ImpliedCovariance`, among the estimators that nest others, has a keyword of its own. -/
def Est.asksFor : Est → List (String × String)
  | .mk none req _ => req
  | .mk (some .implied) req _ => req
  | .mk (some _) _ _ => []

/-- The sub-estimators that are fitted without any keyword, whatever they have asked for. -/
def leftOut : Option Cls → String → Bool
  | some .factorModel, s => s = "loading_matrix_estimator"
  | some .nestedClusters, s => s = "outer_estimator"
  | some .stacking, s => s = "final_estimator"
  | some .implied, s => s = "linear_regressor"
  | _, _ => false

/-- No attribute of the chain is one that is left out. -/
def Est.reached : Est → List String → Prop
  | _, [] => True
  | e, s :: p => leftOut e.cls s = false ∧ ∀ e', e.get? s = some e' → e'.reached p

/-- Some estimator nested in `e`, or `e` itself, that is reached asks for something under the name `n`. -/
def Est.Wants (e : Est) (n : String) : Prop := ∃ p e', e.at? p = some e' ∧ e.reached p ∧ n ∈ e'.asksFor.map Prod.snd

/-- Some estimator properly nested in `e` that is reached asks for something under the name `n`. -/
def Est.WantsBelow (e : Est) (n : String) : Prop := ∃ s e', e.get? s = some e' ∧ leftOut e.cls s = false ∧ e'.Wants n

/-- The attributes in which a class holds estimators (`none`: any name, for the list of estimators of the stacking). -/
def slots : Cls → Option (List String)
  | .empiricalPrior => some ["mu_estimator", "covariance_estimator"]
  | .blackLitterman => some ["prior_estimator"]
  | .factorModel => some ["factor_prior_estimator", "loading_matrix_estimator"]
  | .syntheticData => some ["distribution_estimator"]
  | .loadingRegression => some ["linear_regressor"]
  | .equilibriumMu => some ["covariance_estimator"]
  | .shrunkMu => some ["covariance_estimator"]
  | .denoise => some ["covariance_estimator"]
  | .detone => some ["covariance_estimator"]
  | .implied => some ["prior_covariance_estimator", "linear_regressor"]
  | .covarianceDistance => some ["covariance_estimator"]
  | .uncertainty => some ["prior_estimator"]
  | .convex => some ["prior_estimator"]
  | .meanRisk => some ["prior_estimator", "mu_uncertainty_set_estimator", "covariance_uncertainty_set_estimator"]
  | .inverseVolatility => some ["prior_estimator"]
  | .hierarchical => some ["prior_estimator", "distance_estimator", "hierarchical_clustering_estimator"]
  | .nestedClusters => some ["distance_estimator", "clustering_estimator", "inner_estimator", "outer_estimator"]
  | .stacking => none

/-- The estimators that exist: each class holds estimators in its own attributes, one in each, an estimator that is not a router holds none, and no keyword is asked for twice by the same estimator. -/
def Est.Exists (t : Est) : Prop :=
  ∀ p c req kids, t.at? p = some (.mk c req kids) →
    (kids.toList.map Prod.fst).Nodup ∧ (req.map Prod.fst).Nodup ∧ (c = none → kids.toList = []) ∧
    ∀ c', c = some c' → ∀ l, slots c' = some l → ∀ s ∈ kids.toList.map Prod.fst, s ∈ l

/-- Keywords are passed on twice to the regressor of `LoadingMatrixRegression`, to the inner estimator of the nested clusters and to the estimators of the stacking. -/
def passedTwice : Option Cls → String → Prop
  | some .loadingRegression, _ => True
  | some .nestedClusters, s => s = "inner_estimator"
  | some .stacking, _ => True
  | _, _ => False

/-- Requests under another name are made only where nothing else depends on the name of the keyword: not by an estimator to which keywords are passed twice, nor by an `ImpliedCovariance` of which a nested estimator asks for something under the name of the keyword renamed. -/
def Est.PlainNames (t : Est) : Prop :=
  (∀ p e s e', t.at? p = some e → e.get? s = some e' → passedTwice e.cls s → ∀ r ∈ e'.asksFor, r.1 = r.2) ∧
  (∀ p e, t.at? p = some e → e.cls = some .implied → ∀ r ∈ e.asksFor, e.WantsBelow r.1 → r.1 = r.2)

variable {V : Type}

/-- No `SyntheticData` holds an estimator that asks for one of the keywords passed. -/
def Est.NoSynthetic (t : Est) (kw : Kw V) : Prop :=
  ∀ p e, t.at? p = some e → t.reached p → e.cls = some .syntheticData → ∀ n, e.WantsBelow n → kw.lookup n = none

/-- The keywords `d` are what the estimator `e` has asked for of those in `kw`: a keyword asked for is there if and only if it was passed, with its value; an estimator that is not a router gets nothing else. -/
def Delivered (e : Est) (kw d : Kw V) : Prop :=
  (∀ r ∈ e.asksFor, d.lookup r.1 = kw.lookup r.2) ∧ (e.cls = none → ∀ k, k ∉ e.asksFor.map Prod.fst → d.lookup k = none)

end Skfolio.Routing
