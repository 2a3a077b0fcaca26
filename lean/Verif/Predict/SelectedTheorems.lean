import Verif.Predict.Theorems
import Verif.Selection.AgainTheorems

/-!
**C143.** The portfolio of a pipeline that selects assets is the portfolio of all assets with nothing in the others, except for the costs of selling them.
-/
set_option autoImplicit false

namespace Skfolio.Predict

open Skfolio.Equations (Word)
open Skfolio.Inputs (Items inputToArray checkArray)
open Skfolio.Portfolio.Arith (Panel Ptf Cost Args PErr construct netReturn dot construct_iff)
open Skfolio.Selection (keep nKept)

variable {K Q : Type} [Field K] [LinearOrder K]

/-! ### Model -/

/-- The number of columns kept depends on the number of columns only. -/
theorem keep_length {A B : Type} (mask : List Bool) (a : List A) (b : List B) (h : a.length = b.length) : (keep mask a).length = (keep mask b).length := by
  induction mask generalizing a b with
  | nil => simp [keep]
  | cons m mask ih =>
    cases a with
    | nil =>
      cases b with
      | nil => simp [keep]
      | cons y b => simp at h
    | cons x a =>
      cases b with
      | nil => simp at h
      | cons y b =>
        have := ih a b (by simpa using h)
        unfold keep at this ⊢
        cases m <;> simpa using this

/-- The data that the last step of a pipeline sees: `SelectorMixin.transform` of the selectors in `src/skfolio/pre_selection/` keeps the columns of the mask and, with `set_config(transform_output="pandas")`, their names. The mask is that
of the fit, for training and test data alike. -/
def keepFrame (mask : List Bool) (X : Frame K) : Frame K where
  names := X.names.map (keep mask)
  panel :=
    { nAssets := (keep mask (List.replicate X.panel.nAssets ())).length
      rows := X.panel.rows.map (keep mask)
      rect := by
        intro r hr
        obtain ⟨r', hr', rfl⟩ := List.mem_map.1 hr
        exact keep_length mask r' _ (by rw [List.length_replicate]; exact X.panel.rect r' hr') }

/-- `predict` of `Pipeline([selector, estimator])` after the fit of the selector (scikit-learn): the estimator predicts on the kept columns. -/
def pipelinePredict (noParams : Q) (mask : List Bool) (est : Estimator K Q) (X : Frame K) : Except Err (Prediction K Q) := predict noParams est (keepFrame mask X)

/-! ### Specification -/

/-- The weights of all assets: those of the kept assets in their places, nothing in the others. -/
def fill : List Bool → List K → List K
  | [], _ => []
  | true :: mask, [] => 0 :: fill mask []
  | true :: mask, w :: ws => w :: fill mask ws
  | false :: mask, ws => 0 :: fill mask ws

/-- What it costs to sell the dropped assets: their cost rates times their previous weights. -/
def sellingCost (mask : List Bool) (costs prevs : List K) : K := dot (keep (mask.map (!·)) costs) ((keep (mask.map (!·)) prevs).map fun x => |x|)

/-- A parameter that is given for all assets alike or by name. -/
def NotArray (v : Option (Items K)) : Prop := v = none ∨ (∃ c, v = some (.scalar c)) ∨ ∃ kv, v = some (.dict kv)

/-! ### Lemmas -/

section lists
variable {A B : Type}

theorem keep_nil_left (l : List A) : keep [] l = [] := by simp [keep]
theorem keep_nil_right (mask : List Bool) : keep mask ([] : List A) = [] := by simp [keep]
theorem keep_true (mask : List Bool) (a : A) (l : List A) : keep (true :: mask) (a :: l) = a :: keep mask l := by simp [keep]
theorem keep_false (mask : List Bool) (a : A) (l : List A) : keep (false :: mask) (a :: l) = keep mask l := by simp [keep]

theorem keep_map_fun (mask : List Bool) (f : A → B) (l : List A) : keep mask (l.map f) = (keep mask l).map f := by
  induction mask generalizing l with
  | nil => simp [keep]
  | cons b mask ih =>
    cases l with
    | nil => simp [keep]
    | cons a l => cases b <;> simp [keep_true, keep_false, ih]

theorem keep_replicate (mask : List Bool) (n : ℕ) (c : A) : keep mask (List.replicate n c) = List.replicate (keep mask (List.replicate n ())).length c := by
  have h := keep_map_fun mask (fun _ : Unit => c) (List.replicate n ())
  rw [List.map_replicate] at h
  rw [h, List.eq_replicate_iff]
  simp

theorem keep_length_count (mask : List Bool) (l : List A) (h : l.length = mask.length) : (keep mask l).length = nKept mask := by
  unfold nKept
  induction mask generalizing l with
  | nil => simp [keep]
  | cons b mask ih =>
    cases l with
    | nil => simp at h
    | cons a l =>
      have := ih l (by simpa using h)
      cases b <;> simp [keep_true, keep_false, this]

end lists

theorem fill_length (mask : List Bool) (ws : List K) : (fill mask ws).length = mask.length := by
  induction mask generalizing ws with
  | nil => rfl
  | cons b mask ih =>
    cases b
    · simp [fill, ih]
    · cases ws <;> simp [fill, ih]

theorem keep_fill (mask : List Bool) (ws : List K) (h : ws.length = nKept mask) : keep mask (fill mask ws) = ws := by
  unfold nKept at h
  induction mask generalizing ws with
  | nil => cases ws with
    | nil => rfl
    | cons w ws => simp at h
  | cons b mask ih =>
    cases b
    · rw [fill, keep_false]
      exact ih ws (by simpa using h)
    · cases ws with
      | nil => simp at h
      | cons w ws =>
        rw [fill, keep_true, ih ws (by simpa using h)]

theorem dot_fill (mask : List Bool) (ws xs : List K) (h : ws.length = nKept mask) (hx : xs.length = mask.length) : dot ws (keep mask xs) = dot (fill mask ws) xs := by
  unfold nKept at h
  induction mask generalizing ws xs with
  | nil => cases ws with
    | nil => rfl
    | cons w ws => simp at h
  | cons b mask ih =>
    cases xs with
    | nil => simp at hx
    | cons x xs =>
      cases b
      · rw [fill, keep_false, ih ws xs (by simpa using h) (by simpa using hx)]
        simp [dot]
      · cases ws with
        | nil => simp at h
        | cons w ws =>
          have := ih ws xs (by simpa using h) (by simpa using hx)
          rw [fill, keep_true]
          unfold dot at this ⊢
          simp [this]

theorem dot_fill' (mask : List Bool) (ws xs : List K) (h : ws.length = nKept mask) (hx : xs.length = mask.length) : dot (keep mask xs) ws = dot xs (fill mask ws) := by
  have comm : ∀ a b : List K, dot a b = dot b a := fun a b => by
    unfold dot
    rw [List.zipWith_comm]
    simp only [mul_comm]
  rw [comm, dot_fill mask ws xs h hx, comm]

theorem cost_fill (mask : List Bool) (ws cs ps : List K) (h : ws.length = nKept mask) (hc : cs.length = mask.length) (hp : ps.length = mask.length) :
    dot cs (List.zipWith (fun a b => |a - b|) ps (fill mask ws)) = dot (keep mask cs) (List.zipWith (fun a b => |a - b|) (keep mask ps) ws) + sellingCost mask cs ps := by
  unfold nKept at h
  unfold sellingCost
  induction mask generalizing ws cs ps with
  | nil => cases cs with
    | nil => simp [keep, dot]
    | cons c cs => simp at hc
  | cons b mask ih =>
    cases cs with
    | nil => simp at hc
    | cons c cs =>
      cases ps with
      | nil => simp at hp
      | cons p ps =>
        cases b
        · have := ih ws cs ps (by simpa using h) (by simpa using hc) (by simpa using hp)
          rw [fill, List.map_cons, Bool.not_false, keep_false, keep_false, keep_true, keep_true]
          unfold dot at this ⊢
          simp only [List.zipWith_cons_cons, List.sum_cons, List.map_cons, this, sub_zero]
          ring
        · cases ws with
          | nil => simp at h
          | cons w ws =>
            have := ih ws cs ps (by simpa using h) (by simpa using hc) (by simpa using hp)
            rw [fill, List.map_cons, Bool.not_true, keep_true, keep_true, keep_false, keep_false]
            unfold dot at this ⊢
            simp only [List.zipWith_cons_cons, List.sum_cons, this]
            ring

/-! What the parameters are for the kept assets. -/

theorem dict_keep (mask : List Bool) (X : Frame K) (kv : List (Word × K)) (xs : List K) (h : inputToArray (fun _ => false) (.dict kv) X.panel.nAssets 0 X.names = .ok xs) :
    xs.length = X.panel.nAssets ∧ inputToArray (fun _ => false) (.dict kv) (keepFrame mask X).panel.nAssets 0 (keepFrame mask X).names = .ok (keep mask xs) := by
  unfold keepFrame
  cases hn : X.names with
  | none => simp [hn, inputToArray] at h
  | some l =>
    rw [hn] at h
    simp only [inputToArray] at h
    obtain ⟨rfl, -, hlen⟩ := (Inputs.checkArray_ok _ _ _ _).1 h
    refine ⟨hlen, ?_⟩
    simp only [Option.map_some, inputToArray]
    rw [Inputs.checkArray_ok, keep_map_fun]
    refine ⟨rfl, by simp, ?_⟩
    rw [List.length_map]
    exact keep_length mask l _ (by rw [List.length_replicate]; simpa using hlen)

theorem toPrevious_keep (mask : List Bool) (X : Frame K) (v : Option (Items K)) (hv : NotArray v) (r : Option (List K)) (h : toPrevious X v = .ok r) :
    ∃ r', toPrevious (keepFrame mask X) v = .ok r' ∧ (∀ x, r = some x → x.length = X.panel.nAssets) ∧ (∀ x, r' = some x → x.length = (keepFrame mask X).panel.nAssets) ∧
      r'.getD (List.replicate (keepFrame mask X).panel.nAssets 0) = keep mask (r.getD (List.replicate X.panel.nAssets 0)) := by
  rcases hv with rfl | ⟨c, rfl⟩ | ⟨kv, rfl⟩
  · cases h
    exact ⟨none, rfl, by simp, by simp, (keep_replicate mask _ _).symm⟩
  · simp [toPrevious, inputToArray] at h
  · simp only [toPrevious] at h ⊢
    split at h
    · cases h
    · rename_i xs hx
      cases h
      obtain ⟨h1, h2⟩ := dict_keep mask X kv xs hx
      refine ⟨some (keep mask xs), by rw [h2], ?_, ?_, rfl⟩
      · rintro x hx
        cases hx
        exact h1
      · rintro x hx
        cases hx
        exact keep_length mask xs _ (by rw [List.length_replicate]; exact h1)

theorem toCost_keep (mask : List Bool) (X : Frame K) (v : Option (Items K)) (hv : NotArray v) (r : Option (Cost K)) (h : toCost X v = .ok r) :
    ∃ r', toCost (keepFrame mask X) v = .ok r' ∧ (∀ x, r' = some (.vector x) → x.length = (keepFrame mask X).panel.nAssets) ∧
      (r'.getD (.scalar 0)).rates (keepFrame mask X).panel.nAssets = keep mask ((r.getD (.scalar 0)).rates X.panel.nAssets) ∧ ((r.getD (.scalar 0)).rates X.panel.nAssets).length = X.panel.nAssets := by
  rcases hv with rfl | ⟨c, rfl⟩ | ⟨kv, rfl⟩
  · cases h
    exact ⟨none, rfl, by simp, (keep_replicate mask _ _).symm, List.length_replicate⟩
  · cases h
    exact ⟨some (.scalar c), rfl, by simp, (keep_replicate mask _ _).symm, List.length_replicate⟩
  · simp only [toCost] at h ⊢
    split at h
    · cases h
    · rename_i xs hx
      cases h
      obtain ⟨h1, h2⟩ := dict_keep mask X kv xs hx
      refine ⟨some (.vector (keep mask xs)), by rw [h2], ?_, rfl, h1⟩
      rintro x hx
      cases hx
      exact keep_length mask xs _ (by rw [List.length_replicate]; exact h1)

theorem portfolio_keep (mask : List Bool) (X : Frame K) (hmask : mask.length = X.panel.nAssets) (ws : List K) (hws : ws.length = nKept mask) (prev tc mf : Option (Items K)) (h1 : NotArray prev) (h2 : NotArray tc) (h3 : NotArray mf)
    (rest : Rest K Q) (name : String) (p : Ptf K (Rest K Q)) (h : portfolio X (fill mask ws) prev tc mf rest name = .ok p) :
    ∃ q, portfolio (keepFrame mask X) ws prev tc mf rest name = .ok q ∧ q.weights = ws ∧ q.params = p.params ∧ q.name = p.name ∧
      q.returns = p.returns.map fun r => r + sellingCost mask (p.transactionCosts.rates X.panel.nAssets) p.previousWeights := by
  obtain ⟨hl, prev', tc', mf', e1, e2, e3, hc⟩ := portfolio_ok _ _ _ _ _ _ _ _ h
  obtain ⟨prev2, f1, p0, p1, p2⟩ := toPrevious_keep mask X prev h1 prev' e1
  obtain ⟨tc2, f2, t1, t2, t3⟩ := toCost_keep mask X tc h2 tc' e2
  obtain ⟨mf2, f3, m1, m2, m3⟩ := toCost_keep mask X mf h3 mf' e3
  obtain ⟨hs, xs, hx, hp⟩ := (construct_iff _ _).1 hc
  have hn : (keepFrame mask X).panel.nAssets = nKept mask := keep_length_count mask _ (by rw [List.length_replicate]; exact hmask.symm)
  have hx' : (keepFrame mask X).panel.Holds (xs.map (keep mask)) := by
    unfold Portfolio.Arith.Panel.Holds at hx ⊢
    change X.panel.rows.map (keep mask) = _
    simp only at hx
    rw [hx, List.map_map, List.map_map]
    exact List.map_congr_left fun x _ => keep_map_fun mask some x
  have hc' := (construct_iff { X := (keepFrame mask X).panel, weights := ws, previousWeights := prev2, transactionCosts := tc2, managementFees := mf2, params := rest, name := name, tag := "" } _).2
    ⟨⟨by simp only; rw [hn]; exact hws, p1, t1, m1⟩, _, hx', rfl⟩
  have hq : ∀ q, construct { X := (keepFrame mask X).panel, weights := ws, previousWeights := prev2, transactionCosts := tc2, managementFees := mf2, params := rest, name := name, tag := "" } = .ok q → portfolio (keepFrame mask X) ws prev tc mf rest name = .ok q := by
    intro q hcq
    have ha : inputToArray (fun _ => false) (.array1 ws) (keepFrame mask X).panel.nAssets 0 (keepFrame mask X).names = .ok ws := by
      simp [inputToArray, checkArray, hn, hws]
    unfold portfolio
    rw [ha, f1, f2, f3]
    simp only
    rw [hcq]
  refine ⟨_, hq _ hc', rfl, by rw [hp], by rw [hp], ?_⟩
  rw [hp]
  simp only [List.map_map]
  refine List.map_congr_left fun x hxm => ?_
  have hxl : x.length = mask.length := by
    rw [hmask]
    have : x.map some ∈ X.panel.rows := by
      unfold Portfolio.Arith.Panel.Holds at hx
      simp only at hx
      rw [hx]
      exact List.mem_map_of_mem hxm
    simpa using X.panel.rect _ this
  simp only [Function.comp_apply, Portfolio.Arith.Args.prevs, Portfolio.Arith.Args.costRates, Portfolio.Arith.Args.feeRates]
  rw [p2, t2, m2]
  have hpl : (prev'.getD (List.replicate X.panel.nAssets 0)).length = mask.length := by
    rw [hmask]
    cases prev' with
    | none => exact List.length_replicate
    | some x => exact p0 x rfl
  unfold netReturn
  rw [cost_fill mask ws _ _ hws (by rw [t3, hmask]) hpl, dot_fill mask ws x hws hxl, dot_fill' mask ws _ hws (by rw [m3, hmask])]
  ring

/-! ### The claim -/

variable (noParams : Q) (mask : List Bool) (est : Estimator K Q) (X : Frame K) (ws : List K)

/-- **C143.** A pipeline that selects assets and then optimises predicts the portfolio that holds the fitted weights in the kept assets and nothing in the others, with the same parameters and name, whatever costs, fees and previous weights
are in force for all assets alike or by name. Only the costs of selling dropped assets are missing from its returns. It exists whenever the portfolio of all assets does. -/
theorem C143_predict (hmask : mask.length = X.panel.nAssets) (hw : est.weights = .one ws) (hws : ws.length = nKept mask)
    (hp : ∀ v, InForce est.keys.previousWeights est.attrs.previousWeights none v → NotArray v) (ht : ∀ v, InForce est.keys.transactionCosts est.attrs.transactionCosts none v → NotArray v)
    (hm : ∀ v, InForce est.keys.managementFees est.attrs.managementFees none v → NotArray v) (p : Ptf K (Rest K Q)) (h : predict noParams { est with weights := .one (fill mask ws) } X = .ok (.single p)) :
    ∃ q, pipelinePredict noParams mask est X = .ok (.single q) ∧ q.weights = ws ∧ p.weights = fill mask ws ∧ q.params = p.params ∧ q.name = p.name ∧
      q.returns = p.returns.map fun r => r + sellingCost mask (p.transactionCosts.rates X.panel.nAssets) p.previousWeights := by
  have hk : (est.portfolioParams.getD { keys := ⟨none, none, none, none⟩, name := none, other := noParams }).keys = est.keys := by
    unfold Estimator.keys
    cases est.portfolioParams <;> rfl
  unfold predict at h
  simp only [hk] at h
  split at h
  · cases h
  · rename_i p' hp'
    cases h
    obtain ⟨q, e, a1, a2, a3, a4⟩ := portfolio_keep mask X hmask ws hws _ _ _ (hp _ (pick_inForce _ _ _)) (ht _ (pick_inForce _ _ _)) (hm _ (pick_inForce _ _ _)) _ _ p hp'
    refine ⟨q, ?_, a1, ?_, a2, a3, a4⟩
    · unfold pipelinePredict predict
      simp only [hw, hk]
      rw [e]
    · obtain ⟨-, _, _, _, -, -, -, hc⟩ := portfolio_ok _ _ _ _ _ _ _ _ hp'
      obtain ⟨-, _, -, hpe⟩ := (construct_iff _ _).1 hc
      rw [hpe]

/-- **C143.** Nothing is missing if no dropped asset was held before, or if dropped assets cost nothing to sell. -/
theorem C143_nothing_sold (costs prevs : List K) (h : (∀ x ∈ keep (mask.map (!·)) prevs, x = 0) ∨ ∀ x ∈ keep (mask.map (!·)) costs, x = 0) : sellingCost mask costs prevs = 0 := by
  unfold sellingCost
  generalize keep (mask.map (!·)) prevs = ps at *
  generalize keep (mask.map (!·)) costs = cs at *
  unfold dot
  apply List.sum_eq_zero
  intro x hx
  rw [List.mem_iff_getElem] at hx
  obtain ⟨i, hi, rfl⟩ := hx
  rw [List.length_zipWith, List.length_map] at hi
  rw [List.getElem_zipWith, List.getElem_map]
  rcases h with h | h
  · rw [h _ (List.getElem_mem (by omega)), show |(0 : K)| = 0 by rw [abs, neg_zero, sup_idem], mul_zero]
  · rw [h _ (List.getElem_mem (by omega)), zero_mul]

/-- **C143.** An array of costs, fees or previous weights with one number for each asset of the data makes the prediction fail as soon as an asset is dropped. -/
theorem C143_array_refused (hmask : mask.length = X.panel.nAssets) (hdrop : false ∈ mask) (hw : est.weights = .one ws) (xs : List K) (hxs : xs.length = X.panel.nAssets)
    (h : InForce est.keys.previousWeights est.attrs.previousWeights none (some (.array1 xs)) ∨ InForce est.keys.transactionCosts est.attrs.transactionCosts none (some (.array1 xs)) ∨
      InForce est.keys.managementFees est.attrs.managementFees none (some (.array1 xs))) : ∃ e, pipelinePredict noParams mask est X = .error e := by
  have hn : (keepFrame mask X).panel.nAssets = nKept mask := keep_length_count mask _ (by rw [List.length_replicate]; exact hmask.symm)
  have hlt : nKept mask < X.panel.nAssets := by
    rw [← hmask]
    unfold nKept
    refine lt_of_le_of_ne List.count_le_length fun e => ?_
    have := List.count_eq_length.1 e false hdrop
    cases this
  have hbad : ∃ e, inputToArray (fun _ => false) (.array1 xs) (keepFrame mask X).panel.nAssets 0 (keepFrame mask X).names = .error e := by
    cases hi : inputToArray (fun _ => false) (.array1 xs) (keepFrame mask X).panel.nAssets 0 (keepFrame mask X).names with
    | error e => exact ⟨e, rfl⟩
    | ok y =>
      have := (array_ok _ _ _ _ hi).2
      omega
  obtain ⟨e, he⟩ := hbad
  have hk : (est.portfolioParams.getD { keys := ⟨none, none, none, none⟩, name := none, other := noParams }).keys = est.keys := by
    unfold Estimator.keys
    cases est.portfolioParams <;> rfl
  cases hr : pipelinePredict noParams mask est X with
  | error e => exact ⟨e, rfl⟩
  | ok r =>
    exfalso
    unfold pipelinePredict predict at hr
    simp only [hw, hk] at hr
    split at hr
    · cases hr
    · rename_i p hp
      obtain ⟨-, _, _, _, e1, e2, e3, -⟩ := portfolio_ok _ _ _ _ _ _ _ _ hp
      rcases h with h | h | h
      · rw [inForce_unique (pick_inForce _ _ _) h] at e1
        simp only [toPrevious, he] at e1
        cases e1
      · rw [inForce_unique (pick_inForce _ _ _) h] at e2
        simp only [toCost, he] at e2
        cases e2
      · rw [inForce_unique (pick_inForce _ _ _) h] at e3
        simp only [toCost, he] at e3
        cases e3

/-- Half of the wealth was in `"A"`, which has been dropped; selling costs 1%. -/
def soldA : Estimator ℚ Unit :=
  { className := "EqualWeighted", attrs := ⟨some (some (.scalar (1 / 100))), none, some (some (.dict [("A".toList, 1 / 2), ("B".toList, 1 / 2)])), none⟩, portfolioParams := none, weights := .one [1] }

/-- **C143.** The costs of selling are missing: half of the wealth moves from `"A"`, which is dropped, to `"B"`. The pipeline charges for the purchase, and not for the sale, which the same portfolio of both assets does. -/
theorem C143_sale_not_charged : returnsOf (pipelinePredict () [false, true] soldA frameAB) = [-1 / 10 - 1 / 200] ∧
    returnsOf (predict () { soldA with weights := .one (fill [false, true] [1]) } frameAB) = [-1 / 10 - 2 / 200] := by
  decide +kernel

end Skfolio.Predict
