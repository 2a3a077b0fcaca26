import Verif.Predict.Model
import Verif.Inputs.Theorems
import Verif.Portfolio.ArithTheorems
import Mathlib.Tactic.NormNum

/-!
Claim C80: what `predict` and `score` compute.
-/
set_option autoImplicit false

namespace Skfolio.Predict

open Skfolio.Equations (Word)
open Skfolio.Inputs (Items Cleaned inputToArray cleanInput checkArray Gives DistinctKeys)
open Skfolio.Portfolio.Arith (Panel Ptf Cost Args PErr construct netReturn dot C24_returns construct_iff)

variable {K Q : Type} [Field K] [LinearOrder K]

/-! ### specification -/

/-- The value in force for a parameter: that of `portfolio_params` if it has the key, else that of the estimator, else the default. -/
def InForce {A : Type} (kwarg attr : Option A) (default v : A) : Prop :=
  kwarg = some v ∨ (kwarg = none ∧ attr = some v) ∨ (kwarg = none ∧ attr = none ∧ v = default)

/-- `xs` has one number per asset: what the caller said about it (0 by default). -/
def PerAsset (X : Frame K) (value : Option (Items K)) (xs : List K) : Prop :=
  xs.length = X.panel.nAssets ∧ ∀ i < X.panel.nAssets, ∃ v, xs[i]? = some v ∧ Gives value 0 X.names i v

/-- The keys of `portfolio_params`, or none. -/
def Estimator.keys (est : Estimator K Q) : Keys K :=
  match est.portfolioParams with
  | none => ⟨none, none, none, none⟩
  | some p => p.keys

/-- The name in `portfolio_params`, or that of the class. -/
def Estimator.ptfName (est : Estimator K Q) : String :=
  match est.portfolioParams with
  | some { name := some n, .. } => n
  | _ => est.className

theorem name_eq (noParams : Q) (est : Estimator K Q) :
    (est.portfolioParams.getD { keys := ⟨none, none, none, none⟩, name := none, other := noParams }).name.getD est.className = est.ptfName := by
  unfold Estimator.ptfName
  cases est.portfolioParams with
  | none => rfl
  | some p => obtain ⟨_, n, _⟩ := p; cases n <;> rfl

/-- The dictionaries among the parameters have distinct keys, as Python's have. -/
def Distinct (value : Option (Items K)) : Prop := ∀ kv, value = some (.dict kv) → DistinctKeys kv

/-! ### the portfolio -/

theorem pick_inForce {A : Type} (kwarg attr : Option A) (default : A) : InForce kwarg attr default (pick kwarg attr default) := by
  unfold InForce pick
  cases kwarg with
  | some v => left; rfl
  | none => cases attr with
    | some v => right; left; exact ⟨rfl, rfl⟩
    | none => right; right; exact ⟨rfl, rfl, rfl⟩

theorem inForce_unique {A : Type} {kwarg attr : Option A} {default v v' : A} (h : InForce kwarg attr default v) (h' : InForce kwarg attr default v') : v = v' := by
  unfold InForce at h h'
  rcases h with h | ⟨h, h1⟩ | ⟨h, h1, h2⟩ <;> rcases h' with h' | ⟨h', h1'⟩ | ⟨h', h1', h2'⟩ <;> simp_all

theorem array_ok (n : Nat) (names : Option (List Word)) (w w' : List K) (h : inputToArray (fun _ => false) (.array1 w) n 0 names = .ok w') :
    w' = w ∧ w.length = n := by
  have ha : (w.any fun _ => false) = false := by simp
  simp only [inputToArray, checkArray, ha, Bool.false_eq_true, if_false] at h
  by_cases hl : w.length ≠ n
  · rw [if_pos hl] at h; cases h
  · rw [if_neg hl] at h; cases h; exact ⟨rfl, not_not.1 hl⟩

theorem perAsset_array (X : Frame K) (items : Items K) (hd : Distinct (some items)) (xs : List K)
    (h : inputToArray (fun _ => false) items X.panel.nAssets 0 X.names = .ok xs) : PerAsset X (some items) xs :=
  ⟨((Inputs.C72_accepted _ items _ 0 X.names xs fun kv e => hd kv (by rw [e])).1 h).1, fun i hi =>
    Inputs.gives_of_array _ items _ 0 X.names xs (fun kv e => hd kv (by rw [e])) h i hi⟩

theorem perAsset_replicate (X : Frame K) (c : K) (value : Option (Items K)) (h : ∀ i, Gives value 0 X.names i c) :
    PerAsset X value (List.replicate X.panel.nAssets c) :=
  ⟨List.length_replicate, fun i hi => ⟨c, by simp [hi], h i⟩⟩

theorem toPrevious_ok (X : Frame K) (v : Option (Items K)) (hd : Distinct v) (r : Option (List K)) (h : toPrevious X v = .ok r) :
    PerAsset X v (r.getD (List.replicate X.panel.nAssets 0)) := by
  cases v with
  | none => cases h; exact perAsset_replicate X 0 none fun _ => rfl
  | some items =>
    simp only [toPrevious] at h
    split at h
    · cases h
    · rename_i xs hx
      cases h
      exact perAsset_array X items hd xs hx

theorem toCost_ok (X : Frame K) (v : Option (Items K)) (hd : Distinct v) (r : Option (Cost K)) (h : toCost X v = .ok r) :
    PerAsset X v ((r.getD (.scalar 0)).rates X.panel.nAssets) := by
  unfold toCost at h
  split at h
  · cases h; exact perAsset_replicate X 0 none fun _ => rfl
  · rename_i c; cases h; exact perAsset_replicate X c _ fun _ => rfl
  · split at h
    · cases h
    · rename_i xs hx
      cases h
      exact perAsset_array X _ hd xs hx

theorem portfolio_ok (X : Frame K) (w : List K) (prev tc mf : Option (Items K)) (rest : Rest K Q) (name : String) (p : Ptf K (Rest K Q))
    (h : portfolio X w prev tc mf rest name = .ok p) :
    w.length = X.panel.nAssets ∧ ∃ prev' tc' mf', toPrevious X prev = .ok prev' ∧ toCost X tc = .ok tc' ∧ toCost X mf = .ok mf' ∧
      construct { X := X.panel, weights := w, previousWeights := prev', transactionCosts := tc', managementFees := mf', params := rest,
                  name := name, tag := "" } = .ok p := by
  unfold portfolio at h
  split at h
  · rename_i w' prev' tc' mf' hw hp ht hm
    obtain ⟨rfl, hl⟩ := array_ok _ _ _ _ hw
    refine ⟨hl, prev', tc', mf', hp, ht, hm, ?_⟩
    split at h
    · cases h
    · rename_i p' hc
      cases h
      exact hc
  all_goals cases h

/-- **C80.** A portfolio that `predict` returns has the fitted weights, and its return of each period is the weighted sum of the asset
returns less the transaction costs and the management fees, with the costs, fees and previous weights of `portfolio_params`, or else
of the optimization, each applied to the asset that it was given for; the risk-free rate is in force in the same way. -/
theorem C80_predict (noParams : Q) (est : Estimator K Q) (X : Frame K) (w : List K) (hw : est.weights = .one w) (r : Prediction K Q)
    (h : predict noParams est X = .ok r) :
    ∃ p prev tc mf, r = .single p ∧ p.name = est.ptfName ∧ p.weights = w ∧ w.length = X.panel.nAssets ∧
      InForce est.keys.previousWeights est.attrs.previousWeights none prev ∧
      InForce est.keys.transactionCosts est.attrs.transactionCosts none tc ∧
      InForce est.keys.managementFees est.attrs.managementFees none mf ∧
      InForce est.keys.riskFreeRate est.attrs.riskFreeRate 0 p.params.riskFreeRate ∧
      (Distinct prev → Distinct tc → Distinct mf → ∃ prevs costs fees, PerAsset X prev prevs ∧ PerAsset X tc costs ∧ PerAsset X mf fees ∧
        ∃ xs, X.panel.Holds xs ∧ p.returns = xs.map (netReturn w prevs costs fees)) := by
  have hk : (est.portfolioParams.getD { keys := ⟨none, none, none, none⟩, name := none, other := noParams }).keys = est.keys := by
    unfold Estimator.keys
    cases est.portfolioParams <;> rfl
  unfold predict at h
  simp only [hw, hk] at h
  split at h
  · cases h
  · rename_i p hp
    cases h
    obtain ⟨hl, prev', tc', mf', h1, h2, h3, hc⟩ := portfolio_ok _ _ _ _ _ _ _ _ hp
    obtain ⟨_, xs, hx, hpe⟩ := (construct_iff _ _).1 hc
    refine ⟨p, _, _, _, rfl, by rw [hpe, name_eq], by rw [hpe], hl, pick_inForce _ _ _, pick_inForce _ _ _, pick_inForce _ _ _, by rw [hpe]; exact pick_inForce _ _ _, fun d1 d2 d3 => ?_⟩
    exact ⟨_, _, _, toPrevious_ok X _ d1 _ h1, toCost_ok X _ d2 _ h2, toCost_ok X _ d3 _ h3, xs, hx, by rw [hpe]; rfl⟩

theorem mapM_zipIdx {A B E : Type} (f : A × Nat → Except E B) : ∀ (l : List A) (k : Nat) (r : List B),
    ((l.zipIdx k).mapM f) = .ok r ↔ r.length = l.length ∧ ∀ i (hi : i < l.length) (hr : i < r.length), f (l[i], k + i) = .ok r[i]
  | [], k, r => by
    simp only [List.zipIdx_nil, List.mapM_nil, List.length_nil]
    constructor
    · intro h; cases h; simp
    · rintro ⟨h, -⟩; rw [List.length_eq_zero_iff] at h; rw [h]; rfl
  | a :: l, k, r => by
    rw [List.zipIdx_cons, List.mapM_cons]
    cases ha : f (a, k) with
    | error e =>
      constructor
      · intro h; cases h
      · rintro ⟨h1, h2⟩
        have := h2 0 (by simp) (by rw [h1]; simp)
        simp only [List.getElem_cons_zero, Nat.add_zero] at this
        rw [ha] at this
        cases this
    | ok b =>
      cases hl : ((l.zipIdx (k + 1)).mapM f) with
      | error e =>
        constructor
        · intro h; cases h
        · rintro ⟨h1, h2⟩
          exfalso
          cases r with
          | nil => simp at h1
          | cons b' r' =>
            have := (mapM_zipIdx f l (k + 1) r').2 ⟨by simpa using h1, fun i hi hr => by
              have := h2 (i + 1) (by simpa using hi) (by simpa using hr)
              simpa [Nat.add_assoc, Nat.add_comm 1] using this⟩
            rw [this] at hl
            cases hl
      | ok r' =>
        have ih := (mapM_zipIdx f l (k + 1) r').1 hl
        constructor
        · intro h
          cases h
          refine ⟨by simp [ih.1], fun i hi hr => ?_⟩
          cases i with
          | zero => simpa using ha
          | succ i => simpa [Nat.add_assoc, Nat.add_comm 1] using ih.2 i (by simpa using hi) (by simpa using hr)
        · rintro ⟨h1, h2⟩
          cases r with
          | nil => simp at h1
          | cons b' r'' =>
            have e1 := h2 0 (by simp) (by simp)
            simp only [List.getElem_cons_zero, Nat.add_zero] at e1
            rw [ha] at e1
            cases e1
            have e2 := (mapM_zipIdx f l (k + 1) r'').2 ⟨by simpa using h1, fun i hi hr => by
              have := h2 (i + 1) (by simpa using hi) (by simpa using hr)
              simpa [Nat.add_assoc, Nat.add_comm 1] using this⟩
            rw [hl] at e2
            cases e2
            rfl

/-- **C80.** With several portfolios (an efficient frontier), portfolio `i` of the population is the prediction of an estimator with row `i`
of the weights, in the order of the rows; only its name differs, it is numbered. -/
theorem C80_population (noParams : Q) (est : Estimator K Q) (X : Frame K) (ws : List (List K)) (hw : est.weights = .many ws) (r : Prediction K Q)
    (h : predict noParams est X = .ok r) :
    ∃ ps, r = .population ps ∧ ps.length = ws.length ∧ ∀ i (hi : i < ws.length) (hp : i < ps.length),
      ps[i].name = s!"ptf{i} - {est.ptfName}" ∧
      predict noParams { est with weights := .one ws[i] } X = .ok (.single { ps[i] with name := est.ptfName }) := by
  unfold predict at h
  simp only [hw] at h
  split at h
  · cases h
  · rename_i ps hps
    cases h
    obtain ⟨h1, h2⟩ := (mapM_zipIdx _ ws 0 ps).1 hps
    refine ⟨ps, rfl, h1, fun i hi hp => ?_⟩
    have e := h2 i hi hp
    simp only [Nat.zero_add] at e
    obtain ⟨hl, prev', tc', mf', hpr, htc, hmf, hc⟩ := portfolio_ok _ _ _ _ _ _ _ _ e
    obtain ⟨hs, xs, hx, hpe⟩ := (construct_iff _ _).1 hc
    refine ⟨by rw [hpe, name_eq], ?_⟩
    unfold predict
    simp only [name_eq]
    unfold portfolio
    have ha : inputToArray (fun _ => false) (.array1 ws[i]) X.panel.nAssets 0 X.names = .ok ws[i] := by
      simp [inputToArray, checkArray, hl]
    rw [ha, hpr, htc, hmf]
    simp only
    have hc' := fun (q : Rest K Q) n => (construct_iff { X := X.panel, weights := ws[i], previousWeights := prev', transactionCosts := tc', managementFees := mf', params := q, name := n, tag := "" } _).2
      ⟨⟨hs.1, hs.2, hs.3, hs.4⟩, xs, hx, rfl⟩
    rw [hc', hpe]
    simp only [Estimator.ptfName]
    rfl

/-- **C80.** `score` is the Sharpe ratio of the prediction, or the mean of the Sharpe ratios of the population. -/
theorem C80_score (sharpe : Ptf K (Rest K Q) → K) (noParams : Q) (est : Estimator K Q) (X : Frame K) (s : K) :
    score sharpe noParams est X = .ok s ↔
      (∃ p, predict noParams est X = .ok (.single p) ∧ s = sharpe p) ∨
      ∃ ps, predict noParams est X = .ok (.population ps) ∧ s = (ps.map sharpe).sum / ps.length := by
  unfold score
  cases predict noParams est X with
  | error e => simp
  | ok r =>
    cases r with
    | single p => simp [eq_comm]
    | population ps => simp [eq_comm]

/-- **C80, negated.** `predict` does not look at the names of the columns: unless a parameter is a dictionary, data frames with the same
numbers give the same prediction, whatever their columns are called. -/
theorem C80_names_ignored (noParams : Q) (est : Estimator K Q) (X : Frame K) (names : Option (List Word))
    (hd : ∀ v ∈ [est.keys.transactionCosts, est.keys.managementFees, est.keys.previousWeights, est.attrs.transactionCosts, est.attrs.managementFees,
      est.attrs.previousWeights], ∀ kv, v ≠ some (some (.dict kv))) :
    predict noParams est X = predict noParams est { X with names := names } := by
  have hk : (est.portfolioParams.getD { keys := ⟨none, none, none, none⟩, name := none, other := noParams }).keys = est.keys := by
    unfold Estimator.keys
    cases est.portfolioParams <;> rfl
  have harr : ∀ (items : Items K), (∀ kv, items ≠ .dict kv) → ∀ n, inputToArray (fun _ => false) items n 0 X.names = inputToArray (fun _ => false) items n 0 names := by
    intro items hi n
    cases items with
    | dict kv => exact absurd rfl (hi kv)
    | scalar v => rfl
    | array1 xs => rfl
    | array2 r => rfl
  have hp : ∀ v : Option (Items K), (∀ kv, v ≠ some (.dict kv)) → toPrevious X v = toPrevious { X with names := names } v := by
    intro v hv
    cases v with
    | none => rfl
    | some items =>
      simp only [toPrevious]
      rw [harr items fun kv e => hv kv (by rw [e])]
  have hc : ∀ v : Option (Items K), (∀ kv, v ≠ some (.dict kv)) → toCost X v = toCost { X with names := names } v := by
    intro v hv
    cases v with
    | none => rfl
    | some items =>
      cases items with
      | dict kv => exact absurd rfl (hv kv)
      | scalar c => rfl
      | array1 xs => rfl
      | array2 r => rfl
  have hpick : ∀ a b : Option (Option (Items K)), (∀ kv, a ≠ some (some (.dict kv))) → (∀ kv, b ≠ some (some (.dict kv))) → ∀ kv, pick a b none ≠ some (.dict kv) := by
    intro a b ha hb kv
    unfold pick
    cases a with
    | some v => intro e; exact ha kv (by rw [← e])
    | none =>
      cases b with
      | none => simp
      | some v => intro e; exact hb kv (by rw [← e]; rfl)
  have hport : ∀ (w : List K) (prev tc mf : Option (Items K)) (rest : Rest K Q) (name : String), (∀ kv, prev ≠ some (.dict kv)) → (∀ kv, tc ≠ some (.dict kv)) →
      (∀ kv, mf ≠ some (.dict kv)) → portfolio X w prev tc mf rest name = portfolio { X with names := names } w prev tc mf rest name := by
    intro w prev tc mf rest name h1 h2 h3
    unfold portfolio
    rw [hp prev h1, hc tc h2, hc mf h3]
    rfl
  have e1 := hpick est.keys.transactionCosts est.attrs.transactionCosts (hd _ (by simp)) (hd _ (by simp))
  have e2 := hpick est.keys.managementFees est.attrs.managementFees (hd _ (by simp)) (hd _ (by simp))
  have e3 := hpick est.keys.previousWeights est.attrs.previousWeights (hd _ (by simp)) (hd _ (by simp))
  unfold predict
  simp only [hk]
  cases est.weights with
  | one w => simp only [hport w _ _ _ _ _ e3 e1 e2]
  | many ws => simp only [hport _ _ _ _ _ _ e3 e1 e2]

/-- **C80, negated.** A number for `previous_weights`, which the optimizations document and accept, makes every prediction fail. -/
theorem C80_scalar_previous_weights (noParams : Q) (est : Estimator K Q) (X : Frame K) (v : K)
    (hv : InForce est.keys.previousWeights est.attrs.previousWeights none (some (.scalar v)))
    (hw : ∀ ws, est.weights = .many ws → ws ≠ []) : ∃ e, predict noParams est X = .error e := by
  have hfail : ∀ (w : List K) (tc mf : Option (Items K)) (rest : Rest K Q) (name : String), ∃ e, portfolio X w (some (.scalar v)) tc mf rest name = .error e := by
    intro w tc mf rest name
    cases h : portfolio X w (some (.scalar v)) tc mf rest name with
    | error e => exact ⟨e, rfl⟩
    | ok p =>
      obtain ⟨_, _, _, _, h1, _⟩ := portfolio_ok _ _ _ _ _ _ _ _ h
      simp [toPrevious, inputToArray] at h1
  cases h : predict noParams est X with
  | error e => exact ⟨e, rfl⟩
  | ok r =>
    exfalso
    have hk : (est.portfolioParams.getD { keys := ⟨none, none, none, none⟩, name := none, other := noParams }).keys = est.keys := by
      unfold Estimator.keys
      cases est.portfolioParams <;> rfl
    unfold predict at h
    simp only [hk, inForce_unique (pick_inForce est.keys.previousWeights est.attrs.previousWeights none) hv] at h
    cases hwt : est.weights with
    | one w =>
      simp only [hwt] at h
      split at h
      · cases h
      · rename_i p hp
        obtain ⟨e, he⟩ := hfail w _ _ _ _
        rw [he] at hp
        cases hp
    | many ws =>
      simp only [hwt] at h
      split at h
      · cases h
      · rename_i ps hps
        obtain ⟨h1, h2⟩ := (mapM_zipIdx _ ws 0 ps).1 hps
        have hpos : 0 < ws.length := List.length_pos_iff.2 (hw ws hwt)
        have := h2 0 hpos (by omega)
        obtain ⟨e, he⟩ := hfail ws[0] _ _ _ _
        rw [he] at this
        cases this

/-! ### the costs of the optimization are those of the prediction -/

theorem zipWith_abs (cs d : List K) (hc : ∀ c ∈ cs, 0 ≤ c) [IsStrictOrderedRing K] :
    ((List.zipWith (· * ·) cs d).map fun x => |x|).sum = dot cs (d.map fun x => |x|) := by
  induction cs generalizing d with
  | nil => simp [dot]
  | cons c cs ih =>
    cases d with
    | nil => simp [dot]
    | cons x d =>
      have := ih d fun c hc' => hc c (List.mem_cons_of_mem _ hc')
      simp only [dot] at this ⊢
      simp only [List.zipWith_cons_cons, List.map_cons, List.sum_cons, this, abs_mul, abs_of_nonneg (hc c List.mem_cons_self)]

theorem cleanInput_toPrevious (X : Frame K) (v : Option (Items K)) (r : Option (List K)) (h : toPrevious X v = .ok r) :
    ∃ c, cleanInput (fun _ => false) v X.panel.nAssets 0 X.names = .ok c ∧ expand X.panel.nAssets c = r.getD (List.replicate X.panel.nAssets 0) := by
  cases v with
  | none => cases h; exact ⟨.number 0, rfl, rfl⟩
  | some items =>
    simp only [toPrevious] at h
    split at h
    · cases h
    · rename_i xs hx
      cases h
      cases items with
      | scalar s => cases hx
      | dict kv => exact ⟨.array xs, by simp only [cleanInput, hx], rfl⟩
      | array1 ys => exact ⟨.array xs, by simp only [cleanInput, hx], rfl⟩
      | array2 r => cases hx

theorem cleanInput_toCost (X : Frame K) (v : Option (Items K)) (r : Option (Cost K)) (h : toCost X v = .ok r) :
    (∃ c, cleanInput (fun _ => false) v X.panel.nAssets 0 X.names = .ok (.number c) ∧ r.getD (.scalar 0) = .scalar c) ∨
    ∃ cs, cleanInput (fun _ => false) v X.panel.nAssets 0 X.names = .ok (.array cs) ∧ r = some (.vector cs) := by
  cases v with
  | none => cases h; exact Or.inl ⟨0, rfl, rfl⟩
  | some items =>
    cases items with
    | scalar s => cases h; exact Or.inl ⟨s, rfl, rfl⟩
    | dict kv =>
      simp only [toCost] at h
      split at h
      · cases h
      · rename_i xs hx
        cases h
        exact Or.inr ⟨xs, by simp only [cleanInput, hx], rfl⟩
    | array1 ys =>
      simp only [toCost] at h
      split at h
      · cases h
      · rename_i xs hx
        cases h
        exact Or.inr ⟨xs, by simp only [cleanInput, hx], rfl⟩
    | array2 r => simp [toCost, inputToArray] at h

theorem dot_all_zero (cs d : List K) (h : ∀ c ∈ cs, c = 0) : dot cs d = 0 := by
  induction cs generalizing d with
  | nil => simp [dot]
  | cons c cs ih =>
    cases d with
    | nil => simp [dot]
    | cons x d =>
      have := ih d fun c hc => h c (List.mem_cons_of_mem _ hc)
      simp only [dot] at this
      simp [dot, h c List.mem_cons_self, this]

theorem sum_mul_left (c : K) (d : List K) (n : Nat) (hd : d.length = n) : dot (List.replicate n c) d = c * d.sum := by
  subst hd
  induction d with
  | nil => simp [dot]
  | cons x d ih =>
    simp only [dot] at ih
    simp [dot, List.replicate_succ, ih, mul_add]

/-- **C80.** The portfolio is charged what the optimization counted: if `portfolio_params` overrides nothing and the columns are those of
the fit, the transaction cost and the management fee of the predicted portfolio are the values of the expressions of the convex
optimization at its weights (for costs that are not negative). -/
theorem C80_costs_agree [IsStrictOrderedRing K] (noParams : Q) (est : Estimator K Q) (X : Frame K) (w : List K) (hw : est.weights = .one w)
    (hk : est.keys = ⟨none, none, none, none⟩) (tc mf prev : Option (Items K)) (h1 : est.attrs.transactionCosts = some tc)
    (h2 : est.attrs.managementFees = some mf) (h3 : est.attrs.previousWeights = some prev) (p : Ptf K (Rest K Q))
    (h : predict noParams est X = .ok (.single p)) (hpos : ∀ cs, cleanInput (fun _ => false) tc X.panel.nAssets 0 X.names = .ok (.array cs) → ∀ c ∈ cs, 0 ≤ c) :
    optimizerCost tc prev X.panel.nAssets X.names w = .ok p.totalCost ∧ optimizerFee mf X.panel.nAssets X.names w = .ok p.totalFee := by
  have hk' : (est.portfolioParams.getD { keys := ⟨none, none, none, none⟩, name := none, other := noParams }).keys = ⟨none, none, none, none⟩ := by
    rw [← hk]
    unfold Estimator.keys
    cases est.portfolioParams <;> rfl
  unfold predict at h
  simp only [hw, hk', h1, h2, h3, pick, Option.getD_some] at h
  split at h
  · cases h
  · rename_i p' hp
    cases h
    obtain ⟨hl, prev', tc', mf', e1, e2, e3, hc⟩ := portfolio_ok _ _ _ _ _ _ _ _ hp
    obtain ⟨hs, xs, hx, hpe⟩ := (construct_iff _ _).1 hc
    obtain ⟨c, hc1, hc2⟩ := cleanInput_toPrevious X prev prev' e1
    have hplen : (prev'.getD (List.replicate X.panel.nAssets 0)).length = X.panel.nAssets := by
      cases prev' with
      | none => simp
      | some v => exact hs.prev v rfl
    have hdiff : (List.zipWith (fun a b => |a - b|) (prev'.getD (List.replicate X.panel.nAssets 0)) w) =
        (List.zipWith (· - ·) (prev'.getD (List.replicate X.panel.nAssets 0)) w).map fun x => |x| := by
      rw [List.map_zipWith]
    have htot : p.totalCost = dot ((tc'.getD (.scalar 0)).rates X.panel.nAssets) ((List.zipWith (· - ·) (prev'.getD (List.replicate X.panel.nAssets 0)) w).map fun x => |x|) := by
      rw [hpe, ← hdiff]; rfl
    have hfee : p.totalFee = dot ((mf'.getD (.scalar 0)).rates X.panel.nAssets) w := by rw [hpe]; rfl
    refine ⟨?_, ?_⟩
    · rw [htot]
      unfold optimizerCost
      rcases cleanInput_toCost X tc tc' e2 with ⟨a, ha, hr⟩ | ⟨cs, ha, hr⟩
      · rw [ha, hc1, hr]
        simp only [allZero, hc2]
        by_cases h0 : a = 0
        · rw [if_pos (by simpa using h0), h0]
          simp only [Cost.rates]
          rw [sum_mul_left _ _ _ (by simp [hplen, hl])]
          simp
        · rw [if_neg (by simpa using h0)]
          simp only [Cost.rates]
          rw [sum_mul_left _ _ _ (by simp [hplen, hl])]
      · rw [ha, hc1, hr]
        simp only [allZero, hc2]
        by_cases h0 : (cs.all fun x => decide (x = 0)) = true
        · rw [if_pos h0]
          simp only [Option.getD_some, Cost.rates]
          rw [dot_all_zero cs _ (by simpa using h0)]
        · rw [if_neg h0]
          simp only [Option.getD_some, Cost.rates]
          rw [zipWith_abs cs _ (hpos cs ha)]
    · rw [hfee]
      unfold optimizerFee
      rcases cleanInput_toCost X mf mf' e3 with ⟨a, ha, hr⟩ | ⟨cs, ha, hr⟩
      · simp only [ha, hr, allZero, Cost.rates, expand, decide_eq_true_eq]
        by_cases h0 : a = 0
        · simp [h0, sum_mul_left _ _ _ hl]
        · simp [h0, dot]
      · simp only [ha, hr, allZero, Option.getD_some, Cost.rates, expand]
        by_cases h0 : (cs.all fun x => decide (x = 0)) = true
        · simp [h0, dot_all_zero cs _ (by simpa using h0)]
        · simp [h0, dot]

/-! ### examples -/

/-- One period, two assets with returns 1/10 and -1/10. -/
def frameAB : Frame ℚ := { names := some ["A".toList, "B".toList], panel := { nAssets := 2, rows := [[some (1 / 10), some (-1 / 10)]], rect := by simp } }
/-- The same data with the columns in the other order. -/
def frameBA : Frame ℚ := { names := some ["B".toList, "A".toList], panel := { nAssets := 2, rows := [[some (-1 / 10), some (1 / 10)]], rect := by simp } }
/-- Everything in the first asset, with costs by name. -/
def allInFirst : Estimator ℚ Unit :=
  { className := "MeanRisk", attrs := ⟨some (some (.dict [("A".toList, 1 / 100)])), some (some (.scalar (1 / 1000))), some none, some 0⟩,
    portfolioParams := none, weights := .one [1, 0] }

/-- The returns of a prediction. -/
def returnsOf : Except Err (Prediction ℚ Unit) → List ℚ
  | .ok (.single p) => p.returns
  | _ => []

/-- **C80, negated.** Reordering the columns of the data changes the portfolio: all of A on the data of the fit, all of B on the same data
with the columns exchanged, without an error; the costs, given by name, follow the names. -/
theorem C80_column_order : returnsOf (predict () allInFirst frameAB) = [1 / 10 - 1 / 100 - 1 / 1000] ∧
    returnsOf (predict () allInFirst frameBA) = [-1 / 10 - 1 / 1000] := by
  constructor <;> decide +kernel

/-- The hypotheses of `C80_predict` and `C80_costs_agree` hold for this estimator. -/
example : allInFirst.weights = .one [1, 0] ∧ allInFirst.keys = ⟨none, none, none, none⟩ ∧
    (predict () allInFirst frameAB).toBool ∧
    (optimizerCost (some (.dict [("A".toList, (1 : ℚ) / 100)])) none 2 frameAB.names [1, 0]).toOption = some (1 / 100) :=
  ⟨rfl, rfl, by decide +kernel, by decide +kernel⟩

end Skfolio.Predict
