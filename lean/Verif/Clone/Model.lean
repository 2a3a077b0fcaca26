/-!
# Estimators made of estimators (model)

Python objects live on a heap. `fit` of an estimator that is made of others copies them (`check_estimator`, `utils/tools.py` L328-354, or
`sklearn.clone`) and fits the copies. What `fit` computes is not modelled (`World.learned`): only which objects are created and written.
-/
set_option autoImplicit false

namespace Skfolio.Clone

/-- Addresses of objects are numbers. -/
scoped notation "Addr" => Nat

/-- A value of a parameter or attribute: `None`, a constant (number, string, array, dictionary), an object, or a list of named objects. -/
inductive Val
  | none
  | const (n : Nat)
  | ref (a : Addr)
  | refs (l : List (String × Addr))
  deriving DecidableEq, Repr

/-- The base classes that `check_estimator` asks for. -/
inductive Base
  | mu | covariance | prior | distance | clustering | hierarchicalClustering | optimization | uncertaintySet | loadingMatrix | distribution | regressor
  deriving DecidableEq, Repr

/-- Classes: those with parameters that are estimators, those without (`leaf`: `EmpiricalMu`, `HierarchicalClustering`, `LassoCV`, ...), and
cross-validation splitters. -/
inductive Kind
  | leaf (b : Base)
  | splitter
  | empiricalPrior | blackLitterman | factorModel | syntheticData | loadingMatrixRegression
  | shrunkMu | equilibriumMu | denoiseCovariance | detoneCovariance | impliedCovariance | covarianceDistance
  | muUncertaintySet | covarianceUncertaintySet | vineCopula
  | meanRisk | riskBudgeting | maximumDiversification | distributionallyRobust | hierarchicalRiskParity | hierarchicalEqualRisk
  | inverseVolatility | nestedClusters | stacking
  deriving DecidableEq, Repr

/-- `isinstance(estimator, check_type)`; every estimator but the splitters is a `skb.BaseEstimator` (`none`). -/
def Kind.isA : Kind → Option Base → Bool
  | .splitter, _ => false
  | _, Option.none => true
  | .leaf .hierarchicalClustering, some b => b == .hierarchicalClustering || b == .clustering
  | .leaf c, some b => b == c
  | .empiricalPrior, some b | .blackLitterman, some b | .factorModel, some b | .syntheticData, some b => b == .prior
  | .loadingMatrixRegression, some b => b == .loadingMatrix
  | .shrunkMu, some b | .equilibriumMu, some b => b == .mu
  | .denoiseCovariance, some b | .detoneCovariance, some b | .impliedCovariance, some b => b == .covariance
  | .covarianceDistance, some b => b == .distance
  | .muUncertaintySet, some b | .covarianceUncertaintySet, some b => b == .uncertaintySet
  | .vineCopula, some b => b == .distribution
  | _, some b => b == .optimization

/-- An object: its class, the parameters of its constructor and the attributes set since. -/
structure Obj where
  kind : Kind
  params : List (String × Val)
  attrs : List (String × Val)
  deriving DecidableEq, Repr

/-- The memory: objects by address, and the first address not yet used. -/
structure Heap where
  get : Addr → Option Obj
  next : Addr

def Heap.set (H : Heap) (a : Addr) (o : Obj) : Heap := { H with get := fun b => if b = a then some o else H.get b }

def Heap.alloc (H : Heap) (o : Obj) : Heap := { get := fun b => if b = H.next then some o else H.get b, next := H.next + 1 }

inductive Err
  | typeError
  | attributeError
  /-- the interpreter's limit on the depth of calls -/
  | recursionError
  /-- raised by the computation itself: data, parameters, solver -/
  | other (n : Nat)
  deriving DecidableEq, Repr

/-- A computation: it changes the memory, also if it raises. -/
abbrev M (α : Type) := Heap → Heap × Except Err α

def ret {α : Type} (x : α) : M α := fun H => (H, .ok x)

def raise {α : Type} (e : Err) : M α := fun H => (H, .error e)

def andThen {α β : Type} (m : M α) (k : α → M β) : M β := fun H =>
  match m H with
  | (H', .ok x) => k x H'
  | (H', .error e) => (H', .error e)

/-- The object at an address (a reference to nothing does not occur in Python: an error here). -/
def load (a : Addr) : M Obj := fun H =>
  match H.get a with
  | some o => (H, .ok o)
  | Option.none => (H, .error .attributeError)

def new (o : Obj) : M Addr := fun H => (H.alloc o, .ok H.next)

def store (a : Addr) (o : Obj) : M Unit := fun H => (H.set a o, .ok ())

/-- `getattr(self, param)`: a parameter that is not listed has the value `None`. -/
def Obj.param (o : Obj) (p : String) : Val := (o.params.lookup p).getD .none

/-- `self.name = value`. -/
def setAttr (a : Addr) (name : String) (v : Val) : M Unit :=
  andThen (load a) fun o => store a { o with attrs := (name, v) :: o.attrs }

/-- `self.set_params(name=value)`. -/
def setParam (a : Addr) (name : String) (v : Val) : M Unit :=
  andThen (load a) fun o => store a { o with params := (name, v) :: o.params }

/-! ### `sklearn.clone` -/

/-- The copies of a list of named objects. -/
def cloneRefs (copy : Addr → M Addr) : List (String × Addr) → M (List (String × Addr))
  | [] => ret []
  | (s, a) :: l => andThen (copy a) fun b => andThen (cloneRefs copy l) fun l' => ret ((s, b) :: l')

/-- The copy of a value. -/
def cloneVal (copy : Addr → M Addr) : Val → M Val
  | .none => ret .none
  | .const n => ret (.const n)
  | .ref a => andThen (copy a) fun b => ret (.ref b)
  | .refs l => andThen (cloneRefs copy l) fun l' => ret (.refs l')

def cloneVals (copy : Addr → M Addr) : List (String × Val) → M (List (String × Val))
  | [] => ret []
  | (s, v) :: l => andThen (cloneVal copy v) fun v' => andThen (cloneVals copy l) fun l' => ret ((s, v') :: l')

/-- `sklearn.base.clone` (the code relies on it, `utils/tools.py` L354): a new object of the same class with copies of the parameters and without attributes. What
is not an estimator is copied by `copy.deepcopy`, attributes included (those of splitters are constants). `n` is the limit on the depth of calls. -/
def clone : Nat → Addr → M Addr
  | 0, _ => raise .recursionError
  | n + 1, a => andThen (load a) fun o => andThen (cloneVals (clone n) o.params) fun ps =>
      new { kind := o.kind, params := ps, attrs := if o.kind = .splitter then o.attrs else [] }

/-- A default: an object without parameters, or with one parameter that is such an object. -/
structure Default where
  kind : Kind
  inner : Option (String × Kind)

/-- The call of the constructor of a default, e.g. `EmpiricalPrior(mu_estimator=EquilibriumMu())`. -/
def construct (d : Default) : M Addr :=
  match d.inner with
  | Option.none => new { kind := d.kind, params := [], attrs := [] }
  | some (p, k) => andThen (new { kind := k, params := [], attrs := [] }) fun b => new { kind := d.kind, params := [(p, .ref b)], attrs := [] }

/-- `check_estimator`, `utils/tools.py` L328-354: the default is constructed by the caller; `None` gives the default, another type a `TypeError`, else a
clone. Constants and lists are of no estimator type. -/
def checkEstimator (n : Nat) (v : Val) (d : Default) (b : Option Base) : M Addr :=
  andThen (construct d) fun dflt =>
    match v with
    | .none => ret dflt
    | .ref a => andThen (load a) fun o => if o.kind.isA b then clone n a else raise .typeError
    | _ => raise .typeError

/-! ### The `fit` methods -/

/-- What the fit methods do with estimators. -/
inductive Step
  /-- `self.attr = check_estimator(self.param, default, check_type)` -/
  | check (param attr : String) (d : Default) (b : Option Base)
  /-- `if self.param is not None: self.attr = sk.clone(self.param)`, `self.attr.fit(...)` -/
  | cloneFit (param attr : String)
  /-- `self.attr.fit(...)` -/
  | fit (attr : String)
  /-- `sk.clone(attr).fit(...)`, once per cluster, fold or asset -/
  | fitCopies (attr : String)
  /-- `sk.clone(est).fit(...)` for each of a list, once or once per fold; not with `cv="prefit"` -/
  | fitEach (param : String)
  /-- `cv = check_cv(self.cv)`, `if hasattr(cv, "random_state") and cv.random_state is None: cv.random_state = RandomState()` -/
  | cv
  /-- the bounds of the efficient frontier -/
  | frontier
  /-- the computation and the attributes it sets -/
  | learn

/-- The data and everything computed from it. -/
structure World where
  /-- the attributes set, or the error raised -/
  learned : Heap → Addr → Except Nat (List (String × Nat))
  /-- the number of clusters, folds or assets -/
  count : Heap → Addr → Nat
  /-- a new `RandomState` -/
  seed : Nat

/-- `self.prior_estimator_ = check_estimator(self.prior_estimator, default=EmpiricalPrior(), check_type=BasePrior)`. -/
def checkPrior : Step := .check "prior_estimator" "prior_estimator_" ⟨.empiricalPrior, Option.none⟩ (some .prior)

/-- `check_estimator(self.covariance_estimator, default=EmpiricalCovariance(), check_type=BaseCovariance)`; for `CovarianceDistance` the default is
`GerberCovariance()`. -/
def checkCovariance : Step := .check "covariance_estimator" "covariance_estimator_" ⟨.leaf .covariance, Option.none⟩ (some .covariance)

/-- The fit methods, in the order of their statements. Local variables (`_inner_estimator`, `_linear_regressor`) are attributes here; what the data decides (e.g. the
regression of `ImpliedCovariance` without a risk premium, the covariance uncertainty set) is done in every case, or zero times (`World.count`). -/
def plan : Kind → List Step
  | .leaf _ => [.learn]
  | .splitter => []
  -- `prior/_empirical.py` L133-190
  | .empiricalPrior => [.check "mu_estimator" "mu_estimator_" ⟨.leaf .mu, Option.none⟩ (some .mu), checkCovariance, .fit "mu_estimator_", .fit "covariance_estimator_", .learn]
  -- `prior/_black_litterman.py` L174-180
  | .blackLitterman => [.check "prior_estimator" "prior_estimator_" ⟨.empiricalPrior, some ("mu_estimator", .equilibriumMu)⟩ (some .prior), .fit "prior_estimator_", .learn]
  -- `prior/_factor_model.py` L254-274
  | .factorModel => [.check "factor_prior_estimator" "factor_prior_estimator_" ⟨.empiricalPrior, Option.none⟩ (some .prior),
      .check "loading_matrix_estimator" "loading_matrix_estimator_" ⟨.loadingMatrixRegression, Option.none⟩ (some .loadingMatrix),
      .fit "factor_prior_estimator_", .fit "loading_matrix_estimator_", .learn]
  -- `prior/_factor_model.py` L122-131: `MultiOutputRegressor` clones the regressor for each asset
  | .loadingMatrixRegression => [.check "linear_regressor" "_linear_regressor" ⟨.leaf .regressor, Option.none⟩ Option.none, .fitCopies "_linear_regressor", .learn]
  -- `prior/_synthetic_data.py` L169-202
  | .syntheticData => [.check "distribution_estimator" "distribution_estimator_" ⟨.vineCopula, Option.none⟩ Option.none, .fit "distribution_estimator_", .learn]
  -- `distribution/multivariate/_vine_copula.py` L362-446 with `select_univariate_dist`, `_univariate/_selection.py` L68-74, and `select_bivariate_copula`, `copula/_selection.py` L91-100
  | .vineCopula => [.fitEach "marginal_candidates", .fitEach "copula_candidates", .learn]
  -- `moments/expected_returns/_shrunk_mu.py` L183-189, `_equilibrium_mu.py` L108-114, `moments/covariance/_denoise_covariance.py` L133-139, `_detone_covariance.py` L135-141, `distance/_distance.py` L332-337
  | .shrunkMu | .equilibriumMu | .denoiseCovariance | .detoneCovariance | .covarianceDistance => [checkCovariance, .fit "covariance_estimator_", .learn]
  -- `moments/covariance/_implied_covariance.py` L246-254, L311-316, L369-376
  | .impliedCovariance => [.check "prior_covariance_estimator" "prior_covariance_estimator_" ⟨.leaf .covariance, Option.none⟩ (some .covariance), .fit "prior_covariance_estimator_",
      .check "linear_regressor" "_linear_regressor" ⟨.leaf .regressor, Option.none⟩ Option.none, .fitCopies "_linear_regressor", .learn]
  -- `uncertainty_set/_bootstrap.py` L134-140, L272-278, `_empirical.py` L119-125, L234-240; `optimization/convex/_risk_budgeting.py` L464-469, `_distributionally_robust.py` L340-345, `optimization/naive/_naive.py` L95-100
  | .muUncertaintySet | .covarianceUncertaintySet | .riskBudgeting | .distributionallyRobust | .inverseVolatility => [checkPrior, .fit "prior_estimator_", .learn]
  -- `optimization/convex/_mean_risk.py` L775-780, L860-870, L924-938, L986-995; `_maximum_diversification.py` L427-434 sets an attribute (`overwrite_expected_return` is no parameter of it) and calls the former
  | .meanRisk | .maximumDiversification => [checkPrior, .fit "prior_estimator_", .cloneFit "mu_uncertainty_set_estimator" "mu_uncertainty_set_estimator_", .frontier,
      .cloneFit "covariance_uncertainty_set_estimator" "covariance_uncertainty_set_estimator_", .learn]
  -- `optimization/cluster/hierarchical/_hrp.py` L305-341, `_herc.py` L353-389
  | .hierarchicalRiskParity | .hierarchicalEqualRisk => [checkPrior, .check "distance_estimator" "distance_estimator_" ⟨.leaf .distance, Option.none⟩ (some .distance),
      .check "hierarchical_clustering_estimator" "hierarchical_clustering_estimator_" ⟨.leaf .hierarchicalClustering, Option.none⟩ (some .hierarchicalClustering),
      .fit "prior_estimator_", .fit "distance_estimator_", .fit "hierarchical_clustering_estimator_", .learn]
  -- `optimization/cluster/_nco.py` L244-389: the inner estimator is fitted on the clusters, then on the folds
  | .nestedClusters => [.check "distance_estimator" "distance_estimator_" ⟨.leaf .distance, Option.none⟩ (some .distance),
      .check "clustering_estimator" "clustering_estimator_" ⟨.leaf .hierarchicalClustering, Option.none⟩ Option.none,
      .check "outer_estimator" "outer_estimator_" ⟨.meanRisk, Option.none⟩ (some .optimization), .check "inner_estimator" "_inner_estimator" ⟨.meanRisk, Option.none⟩ (some .optimization),
      .fit "distance_estimator_", .fit "clustering_estimator_", .fitCopies "_inner_estimator", .cv, .fitCopies "_inner_estimator", .fit "outer_estimator_", .learn]
  -- `optimization/ensemble/_stacking.py` L272-355
  | .stacking => [.check "final_estimator" "final_estimator_" ⟨.meanRisk, Option.none⟩ (some .optimization), .fitEach "estimators", .cv, .fitEach "estimators", .fit "final_estimator_", .learn]

/-- Repeat a computation. -/
def times : Nat → M Unit → M Unit
  | 0, _ => ret ()
  | n + 1, m => andThen m fun _ => times n m

def forEach : List (String × Addr) → (Addr → M Unit) → M Unit
  | [], _ => ret ()
  | (_, a) :: l, f => andThen (f a) fun _ => forEach l f

/-- Set all attributes of a list. -/
def setAttrs (a : Addr) : List (String × Nat) → M Unit
  | [] => ret ()
  | (s, x) :: l => andThen (setAttr a s (.const x)) fun _ => setAttrs a l

/-- The `cv` step of `fit`, `_stacking.py` L306-314, `_nco.py` L325-331. `check_cv` returns a splitter as it is and makes a new one from `None` or a number; `"ignore"` and `"prefit"` are
constants here. -/
def cvStep (w : World) (a : Addr) : M Unit :=
  andThen (load a) fun self =>
    match self.param "cv" with
    | .ref c => andThen (load c) fun o =>
        if o.kind = .splitter ∧ o.params.lookup "random_state" = some .none then store c { o with params := ("random_state", .const w.seed) :: o.params } else ret ()
    | _ => ret ()

/-- One step of the `fit` of `a`. `env`: the objects made by this call of `fit`, by the attribute they are stored in. `fitOf` is the `fit` of other objects. -/
def step (w : World) (n : Nat) (fitOf : Addr → M Unit) (a : Addr) (env : List (String × Addr)) : Step → M (List (String × Addr))
  | .check p attr d b => andThen (load a) fun self => andThen (checkEstimator n (self.param p) d b) fun c => andThen (setAttr a attr (.ref c)) fun _ => ret ((attr, c) :: env)
  | .cloneFit p attr => andThen (load a) fun self =>
      match self.param p with
      | .ref b => andThen (clone n b) fun c => andThen (setAttr a attr (.ref c)) fun _ => andThen (fitOf c) fun _ => ret env
      | .none => ret env
      | _ => raise .typeError
  | .fit attr =>
      match env.lookup attr with
      | some c => andThen (fitOf c) fun _ => ret env
      | Option.none => raise .attributeError
  | .fitCopies attr =>
      match env.lookup attr with
      | some c => fun H => andThen (times (w.count H a) (andThen (clone n c) fitOf)) (fun _ => ret env) H
      | Option.none => raise .attributeError
  | .fitEach p => andThen (load a) fun self =>
      match self.param p with
      | .refs l => fun H => andThen (times (w.count H a) (forEach l fun b => andThen (clone n b) fitOf)) (fun _ => ret env) H
      | _ => ret env
  | .cv => andThen (cvStep w a) fun _ => ret env
  | .frontier => andThen (load a) fun self =>
      if self.param "efficient_frontier_size" = .none then ret env
      else andThen (clone n a) fun c => andThen (setParam c "objective_function" (.const 0)) fun _ => andThen (setParam c "efficient_frontier_size" .none) fun _ =>
        andThen (fitOf c) fun _ => andThen (setParam c "objective_function" (.const 1)) fun _ => andThen (fitOf c) fun _ => ret env
  | .learn => fun H =>
      match w.learned H a with
      | .ok l => andThen (setAttrs a l) (fun _ => ret env) H
      | .error e => (H, .error (.other e))

def steps (w : World) (n : Nat) (fitOf : Addr → M Unit) (a : Addr) : List (String × Addr) → List Step → M Unit
  | _, [] => ret ()
  | env, s :: l => andThen (step w n fitOf a env s) fun env' => steps w n fitOf a env' l

/-- `a.fit(...)`. `n` is the limit on the depth of calls. -/
def fit (w : World) : Nat → Addr → M Unit
  | 0, _ => raise .recursionError
  | n + 1, a => andThen (load a) fun o => steps w n (fit w n) a [] (plan o.kind)

/-- `cross_val_predict`, `model_selection/_validation.py` L203-217: a clone is fitted on each fold. -/
def crossVal (w : World) (n : Nat) (a : Addr) (folds : Nat) : M Unit := times folds (andThen (clone n a) (fit w n))

end Skfolio.Clone
