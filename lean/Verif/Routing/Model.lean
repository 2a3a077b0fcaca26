import Mathlib.Data.List.Basic

/-!
Model of the metadata routing of `fit`: the `get_metadata_routing` and `fit` methods of the estimators that nest other estimators. The routing itself is scikit-learn's (`sklearn.utils._metadata_requests`): `process_routing`, `MetadataRouter.validate_metadata`, `route_params`, `_route_params`, `_get_param_names` and `MethodMetadataRequest._route_params` are modelled as documented there; requests left unset are not modelled (a request is a keyword that has been asked for, under its own name or another one).
-/

set_option autoImplicit false

namespace Skfolio.Routing

/-- The classes that nest estimators and route metadata. `uncertainty` are the four estimators of uncertainty sets, `convex` `RiskBudgeting` and `DistributionallyRobustCVaR`, `meanRisk` `MeanRisk` and `MaximumDiversification` (whose `fit` passes the keywords to that of `MeanRisk`, `_maximum_diversification.py` L433), `hierarchical` HRP and HERC. -/
inductive Cls
  | empiricalPrior | blackLitterman | factorModel | syntheticData | loadingRegression | equilibriumMu | shrunkMu | denoise | detone | implied
  | covarianceDistance | uncertainty | convex | meanRisk | inverseVolatility | hierarchical | nestedClusters | stacking
deriving DecidableEq, Repr

mutual
/-- An estimator: its class (`none`: not a router, for instance a regressor of scikit-learn), the keywords of its `fit` it has asked for with the names under which the user passes them (`set_fit_request(keyword=True)` or `set_fit_request(keyword="name")`), and the estimators it nests with the attribute that holds each. An attribute left at `None` stands for the default estimator, which has asked for nothing. -/
inductive Est
  | mk (cls : Option Cls) (requests : List (String × String)) (kids : Kids)
inductive Kids
  | nil
  | cons (slot : String) (e : Est) (rest : Kids)
end

/-- A Python dictionary of keywords. -/
abbrev Kw (V : Type) := List (String × V)

inductive Err
  | unexpected   -- TypeError: argument not routed to any object
  | conflict     -- ValueError: a keyword asked for with two values
  | attribute    -- AttributeError of `routed_params.<name>`
deriving DecidableEq, Repr

/-- The name under which the attribute `s` is added to the router: `get_metadata_routing` of `_empirical.py` (prior) L93-106, `_black_litterman.py` L141-147, `_factor_model.py` L220-226 and L89-95, `_synthetic_data.py` L136-142, `_equilibrium_mu.py` L74-80, `_shrunk_mu.py` L144-150, `_denoise_covariance.py` L99-105, `_detone_covariance.py` L101-107, `_implied_covariance.py` L198-208, `_distance.py` L305-311, `uncertainty_set/_base.py` L67-73 and L122-128, `convex/_base.py` L2135-2141, `_mean_risk.py` L731-745, `_naive.py` L58-64, `hierarchical/_base.py` L388-405, `_nco.py` L197-215, `_stacking.py` L233-241. -/
def routeName : Cls → String → Option String
  | .empiricalPrior, s => if s = "mu_estimator" then some "mu_estimator" else if s = "covariance_estimator" then some "covariance_estimator" else none
  | .blackLitterman, s => if s = "prior_estimator" then some "prior_estimator" else none
  | .factorModel, s => if s = "factor_prior_estimator" then some "factor_prior_estimator" else none
  | .syntheticData, s => if s = "distribution_estimator" then some "distance_estimator" else none
  | .loadingRegression, s => if s = "linear_regressor" then some "linear_regressor" else none
  | .equilibriumMu, s => if s = "covariance_estimator" then some "covariance_estimator" else none
  | .shrunkMu, s => if s = "covariance_estimator" then some "covariance_estimator" else none
  | .denoise, s => if s = "covariance_estimator" then some "covariance_estimator" else none
  | .detone, s => if s = "covariance_estimator" then some "covariance_estimator" else none
  | .implied, s => if s = "prior_covariance_estimator" then some "prior_covariance_estimator" else none
  | .covarianceDistance, s => if s = "covariance_estimator" then some "covariance_estimator" else none
  | .uncertainty, s => if s = "prior_estimator" then some "prior_estimator" else none
  | .convex, s => if s = "prior_estimator" then some "prior_estimator" else none
  | .meanRisk, s =>
    if s = "prior_estimator" then some "prior_estimator" else if s = "mu_uncertainty_set_estimator" then some "mu_uncertainty_set_estimator"
    else if s = "covariance_uncertainty_set_estimator" then some "covariance_uncertainty_set_estimator" else none
  | .inverseVolatility, s => if s = "prior_estimator" then some "prior_estimator" else none
  | .hierarchical, s =>
    if s = "prior_estimator" then some "prior_estimator" else if s = "distance_estimator" then some "distance_estimator"
    else if s = "hierarchical_clustering_estimator" then some "hierarchical_clustering_estimator" else none
  | .nestedClusters, s =>
    if s = "distance_estimator" then some "distance_estimator" else if s = "clustering_estimator" then some "clustering_estimator"
    else if s = "inner_estimator" then some "inner_estimator" else none
  | .stacking, s => if s = "final_estimator" then none else some s

/-- The attribute of `routed_params` whose keywords are given to the `fit` of the attribute `s`, `none` if that `fit` is called without keywords: `_empirical.py` L152-180, `_black_litterman.py` L180, `_factor_model.py` L266-274 and L131, `_synthetic_data.py` L178-180, `_equilibrium_mu.py` L114, `_shrunk_mu.py` L189, `_denoise_covariance.py` L139, `_detone_covariance.py` L141, `_implied_covariance.py` L252-254 (its `linear_regressor` is fitted by L371 without keywords), `_distance.py` L337, `_bootstrap.py` L140 and L278, `uncertainty_set/_empirical.py` L125 and L240, `_risk_budgeting.py` L469, `_distributionally_robust.py` L345, `_mean_risk.py` L780, L868 and L994, `_naive.py` L100, `_hrp.py` L322-341, `_herc.py` L370-389, `_nco.py` L266, L276, L293, L343 and L389 (the outer estimator), `_stacking.py` L287-291, L324-337 and L368 (the final estimator). -/
def useName : Cls → String → Option String
  | .empiricalPrior, s => if s = "mu_estimator" then some "mu_estimator" else if s = "covariance_estimator" then some "covariance_estimator" else none
  | .blackLitterman, s => if s = "prior_estimator" then some "prior_estimator" else none
  | .factorModel, s => if s = "factor_prior_estimator" then some "factor_prior_estimator" else none
  | .syntheticData, s => if s = "distribution_estimator" then some "distribution_estimator" else none
  | .loadingRegression, s => if s = "linear_regressor" then some "linear_regressor" else none
  | .equilibriumMu, s => if s = "covariance_estimator" then some "covariance_estimator" else none
  | .shrunkMu, s => if s = "covariance_estimator" then some "covariance_estimator" else none
  | .denoise, s => if s = "covariance_estimator" then some "covariance_estimator" else none
  | .detone, s => if s = "covariance_estimator" then some "covariance_estimator" else none
  | .implied, s => if s = "prior_covariance_estimator" then some "prior_covariance_estimator" else none
  | .covarianceDistance, s => if s = "covariance_estimator" then some "covariance_estimator" else none
  | .uncertainty, s => if s = "prior_estimator" then some "prior_estimator" else none
  | .convex, s => if s = "prior_estimator" then some "prior_estimator" else none
  | .meanRisk, s =>
    if s = "prior_estimator" then some "prior_estimator" else if s = "mu_uncertainty_set_estimator" then some "mu_uncertainty_set_estimator"
    else if s = "covariance_uncertainty_set_estimator" then some "covariance_uncertainty_set_estimator" else none
  | .inverseVolatility, s => if s = "prior_estimator" then some "prior_estimator" else none
  | .hierarchical, s =>
    if s = "prior_estimator" then some "prior_estimator" else if s = "distance_estimator" then some "distance_estimator"
    else if s = "hierarchical_clustering_estimator" then some "hierarchical_clustering_estimator" else none
  | .nestedClusters, s =>
    if s = "distance_estimator" then some "distance_estimator" else if s = "clustering_estimator" then some "clustering_estimator"
    else if s = "inner_estimator" then some "inner_estimator" else none
  | .stacking, s => if s = "final_estimator" then none else some s

/-- `add_self_request`: only `ImpliedCovariance` (`_implied_covariance.py` L202) is both a router and a consumer. -/
def selfRequest : Cls → Bool
  | .implied => true
  | _ => false

mutual
/-- `_get_param_names(method="fit", return_alias=True, ignore_self_request=False)`: the names under which something is asked for in the estimator or, if it is a router, in what it has registered. -/
def names : Est → List String
  | .mk none req _ => req.map Prod.snd
  | .mk (some c) req kids => (if selfRequest c then req.map Prod.snd else []) ++ kidNames c kids
/-- The names asked for by the registered estimators. -/
def kidNames (c : Cls) : Kids → List String
  | .nil => []
  | .cons s e rest => (if (routeName c s).isSome then names e else []) ++ kidNames c rest
end

variable {V : Type} [DecidableEq V]

/-- `MethodMetadataRequest._route_params`: the keywords asked for that have been passed. -/
def consume (req : List (String × String)) (kw : Kw V) : Kw V := req.filterMap fun r => (kw.lookup r.2).map fun v => (r.1, v)

/-- `child_params` of `MetadataRouter._route_params`. -/
def childParams (ns : List String) (kw : Kw V) : Kw V := kw.filter fun p => p.1 ∈ ns

/-- `_route_params` of a registered estimator: for a router its own request together with what its children ask for, an error if these disagree on a keyword. -/
def routeTo : Est → Kw V → Except Err (Kw V)
  | .mk none req _, kw => .ok (consume req kw)
  | .mk (some c) req kids, kw =>
    let own := if selfRequest c then consume req kw else []
    let child := childParams (kidNames c kids) kw
    if own.all fun p => (child.lookup p.1).all fun v => v = p.2 then .ok (own ++ child) else .error .conflict

/-- `MetadataRouter.route_params`: the keywords of each registered estimator, by the name of its registration. -/
def routeAll (c : Cls) (kw : Kw V) : Kids → Except Err (List (String × Kw V))
  | .nil => .ok []
  | .cons s e rest =>
    match routeName c s with
    | none => routeAll c kw rest
    | some n =>
      match routeTo e kw, routeAll c kw rest with
      | .ok d, .ok ds => .ok ((n, d) :: ds)
      | .error x, _ => .error x
      | .ok _, .error x => .error x

/-- `validate_metadata`: the keywords a `fit` accepts, those of the estimator itself and the names asked for by its children. -/
def allowed (c : Cls) (req : List (String × String)) (kids : Kids) : List String :=
  (if selfRequest c then req.map Prod.fst else []) ++ kidNames c kids

/-- `process_routing(self, "fit", **fit_params)`; `none` is the request that answers every attribute with no keywords, when there are none to route. -/
def processRouting (c : Cls) (req : List (String × String)) (kids : Kids) (kw : Kw V) : Except Err (Option (List (String × Kw V))) :=
  if kw.isEmpty then .ok none
  else if kw.all fun p => p.1 ∈ allowed c req kids then (routeAll c kw kids).map some else .error .unexpected

/-- `routed_params.<name>.fit`. -/
def lookupRouted (r : Option (List (String × Kw V))) (n : String) : Except Err (Kw V) :=
  match r with
  | none => .ok []
  | some ds => match ds.lookup n with
    | none => .error .attribute
    | some d => .ok d

/-- A router with the only estimator `e`, to which the keywords `d` are passed once more: scikit-learn's `MultiOutputRegressor` and the router of `cross_val_predict` (`model_selection/_validation.py` L136-153). -/
def again (e : Est) (d : Kw V) : Except Err (Kw V) :=
  if d.isEmpty then .ok []
  else if d.all fun p => p.1 ∈ names e then routeTo e d else .error .unexpected

/-- The keywords of the calls of `fit` of the nested estimator `e`: `LoadingMatrixRegression` wraps it in a `MultiOutputRegressor` (`_factor_model.py` L128-131), the inner and the stacked estimators are fitted on all data and then by `cross_val_predict` (`_nco.py` L288-343, `_stacking.py` L287-337, with `cv` neither "ignore" nor "prefit"), any other is fitted with the keywords as they are. -/
def calls (c : Cls) (s : String) (e : Est) (d : Kw V) : Except Err (List (Kw V)) :=
  match c with
  | .loadingRegression => (again e d).map fun d' => [d']
  | .nestedClusters => if s = "inner_estimator" then (again e d).map fun d' => [d, d'] else .ok [d]
  | .stacking => if s = "final_estimator" then .ok [d] else (again e d).map fun d' => [d, d']
  | _ => .ok [d]

/-- The `fit` call of a nested estimator: with the keywords routed to it, or without. -/
def kwOf (c : Cls) (s : String) (r : Option (List (String × Kw V))) : Except Err (Kw V) :=
  match useName c s with
  | none => .ok []
  | some n => lookupRouted r n

/-- Fits in sequence; the first error ends it. -/
def sequence {α β : Type} (f : α → Except Err (List β)) : List α → Except Err (List β)
  | [] => .ok []
  | a :: as => match f a with
    | .error x => .error x
    | .ok b => match sequence f as with
      | .error x => .error x
      | .ok bs => .ok (b ++ bs)

/-- A call of `fit`: which estimator (the attributes that lead to it) and with which keywords. -/
abbrev Call (V : Type) := List String × Kw V

mutual
/-- `fit` with the keywords `kw`: the calls of `fit` it makes, its own first. -/
def fit : Est → Kw V → Except Err (List (Call V))
  | .mk none _ _, kw => .ok [([], kw)]
  | .mk (some c) req kids, kw =>
    match processRouting c req kids kw with
    | .error x => .error x
    | .ok r => match fitKids c r kids with
      | .error x => .error x
      | .ok log => .ok (([], kw) :: log)
/-- The nested estimators are fitted one after the other. -/
def fitKids (c : Cls) (r : Option (List (String × Kw V))) : Kids → Except Err (List (Call V))
  | .nil => .ok []
  | .cons s e rest =>
    match kwOf c s r with
    | .error x => .error x
    | .ok d => match calls c s e d with
      | .error x => .error x
      | .ok ds => match sequence (fit e) ds with
        | .error x => .error x
        | .ok log => match fitKids c r rest with
          | .error x => .error x
          | .ok logs => .ok (log.map (fun p => (s :: p.1, p.2)) ++ logs)
end

end Skfolio.Routing
