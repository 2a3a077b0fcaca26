import Verif.FitParams.Model
import Mathlib.Data.List.GetD

/-! Claim C95: the keywords of `fit` are cut like the data. -/
set_option autoImplicit false

namespace Skfolio.FitParams

variable {A : Type}

/-! ### specification -/

/-- `d'` consists of the rows `idx` of `d`, in this order. -/
def IsRows (idx : List Nat) (d d' : Data A) : Prop :=
  match d, d' with
  | .vec n cell, .vec n' cell' => n' = idx.length ∧ ∀ t (h : t < idx.length), idx[t] < n ∧ cell' t = cell idx[t]
  | .mat names n m cell, .mat names' n' m' cell' => n' = idx.length ∧ m' = m ∧ names' = names ∧ ∀ t (h : t < idx.length), idx[t] < n ∧ ∀ j < m, cell' t j = cell idx[t] j
  | .other, .other => True
  | _, _ => False

/-- `d'` consists of the columns `idx` of `d`, in this order, with their names. -/
def IsColumns (idx : List Nat) (d d' : Data A) : Prop :=
  match d, d' with
  | .mat names n m cell, .mat names' n' m' cell' => n' = n ∧ m' = idx.length ∧ names'.isSome = names.isSome ∧
      ∀ j (h : j < idx.length), idx[j] < m ∧ (∀ t < n, cell' t j = cell t idx[j]) ∧ ∀ f f', names = some f → names' = some f' → f' j = f idx[j]
  | .other, .other => True
  | _, _ => False

/-- The same keywords, each value related to the original one. -/
def Each (r : Data A → Data A → Prop) (ps ps' : List (String × Data A)) : Prop := List.Forall₂ (fun p p' => p'.1 = p.1 ∧ r p.2 p'.2) ps ps'

/-- The same for the target, if there is one. -/
def Target (r : Data A → Data A → Prop) : Option (Data A) → Option (Data A) → Prop
  | none, none => True
  | some y, some y' => r y y'
  | _, _ => False

/-! ### lemmas -/

theorem takeRows_spec {idx : List Nat} {d d' : Data A} (h : takeRows idx d = .ok d') : IsRows idx d d' := by
  cases d with
  | vec n cell =>
    simp only [takeRows] at h
    split at h
    · rename_i hi
      cases h
      exact ⟨rfl, fun t ht => ⟨hi _ (List.getElem_mem ht), by simp only; rw [List.getD_eq_getElem _ _ ht]⟩⟩
    · cases h
  | mat names n m cell =>
    simp only [takeRows] at h
    split at h
    · rename_i hi
      cases h
      exact ⟨rfl, rfl, rfl, fun t ht => ⟨hi _ (List.getElem_mem ht), fun j _ => by simp only; rw [List.getD_eq_getElem _ _ ht]⟩⟩
    · cases h
  | other => cases h; trivial

theorem takeColumns_spec {idx : List Nat} {d d' : Data A} (h : takeColumns idx d = .ok d') : IsColumns idx d d' := by
  cases d with
  | vec n cell => cases h
  | mat names n m cell =>
    simp only [takeColumns] at h
    split at h
    · rename_i hi
      cases h
      refine ⟨rfl, rfl, by simp, fun j hj => ⟨hi _ (List.getElem_mem hj), fun t _ => by simp only; rw [List.getD_eq_getElem _ _ hj], fun f f' hf hf' => ?_⟩⟩
      subst hf
      cases hf'
      exact congrArg _ (List.getD_eq_getElem _ _ hj)
    · cases h
  | other => cases h; trivial

theorem sequence_ok {β γ : Type} (f : β → Except Err γ) (l : List β) (r : List γ) (h : sequence (l.map f) = .ok r) : List.Forall₂ (fun b c => f b = .ok c) l r := by
  induction l generalizing r with
  | nil => cases h; exact .nil
  | cons b l ih =>
    rw [List.map_cons] at h
    cases hb : f b with
    | error e => rw [hb] at h; cases h
    | ok c =>
      rw [hb] at h
      unfold sequence at h
      cases hl : sequence (l.map f) with
      | error e => rw [hl] at h; cases h
      | ok r' =>
        rw [hl] at h
        cases h
        exact .cons hb (ih r' hl)

theorem checkParam_ok {nObs : Option Nat} {idx : List Nat} {axis : Axis} {p p' : String × Data A} (h : checkParam nObs (some idx) axis p = .ok p') :
    p'.1 = p.1 ∧ p.2.nRows = nObs ∧ safeIndexing (some idx) axis p.2 = .ok p'.2 := by
  unfold checkParam at h
  cases hn : p.2.nRows with
  | none => rw [hn] at h; cases h
  | some n =>
    rw [hn] at h
    simp only at h
    split at h
    · cases h
    · rename_i hne
      cases hs : safeIndexing (some idx) axis p.2 with
      | error e => rw [hs] at h; cases h
      | ok d =>
        rw [hs] at h
        cases h
        exact ⟨rfl, not_not.1 hne, rfl⟩

theorem checkMethodParams_rows {x : Data A} {params ps : List (String × Data A)} {idx : List Nat} (h : checkMethodParams x params (some idx) .rows = .ok ps) :
    Each (IsRows idx) params ps ∧ ∀ p ∈ params, p.2.nRows = x.nRows := by
  have hf := sequence_ok _ _ _ h
  constructor
  · exact hf.imp fun _ _ hc => ⟨(checkParam_ok hc).1, takeRows_spec (checkParam_ok hc).2.2⟩
  · clear h
    intro p hp
    induction hf with
    | nil => cases hp
    | cons hc _ ih =>
      rcases List.mem_cons.1 hp with rfl | hm
      · exact (checkParam_ok hc).2.1
      · exact ih hm

theorem checkMethodParams_columns {x : Data A} {params ps : List (String × Data A)} {idx : List Nat} (h : checkMethodParams x params (some idx) .columns = .ok ps) :
    Each (IsColumns idx) params ps :=
  (sequence_ok _ _ _ h).imp fun _ _ hc => ⟨(checkParam_ok hc).1, takeColumns_spec (checkParam_ok hc).2.2⟩

theorem safeSplit_rows {x x' : Data A} {y y' : Option (Data A)} {idx : List Nat} (h : safeSplit x y (some idx) .rows = .ok (x', y')) : IsRows idx x x' ∧ Target (IsRows idx) y y' := by
  unfold safeSplit safeIndexing at h
  simp only at h
  cases hx : takeRows idx x with
  | error e => rw [hx] at h; cases h
  | ok x1 =>
    rw [hx] at h
    simp only at h
    cases y with
    | none => cases h; exact ⟨takeRows_spec hx, trivial⟩
    | some y =>
      simp only at h
      cases hy : takeRows idx y with
      | error e => rw [hy] at h; cases h
      | ok y1 => rw [hy] at h; cases h; exact ⟨takeRows_spec hx, takeRows_spec hy⟩

theorem safeSplit_columns {x x' : Data A} {y y' : Option (Data A)} {idx : List Nat} (h : safeSplit x y (some idx) .columns = .ok (x', y')) :
    IsColumns idx x x' ∧ Target (IsColumns idx) y y' := by
  unfold safeSplit safeIndexing at h
  simp only at h
  cases hx : takeColumns idx x with
  | error e => rw [hx] at h; cases h
  | ok x1 =>
    rw [hx] at h
    simp only at h
    cases y with
    | none => cases h; exact ⟨takeColumns_spec hx, trivial⟩
    | some y =>
      simp only at h
      cases hy : takeColumns idx y with
      | error e => rw [hy] at h; cases h
      | ok y1 => rw [hy] at h; cases h; exact ⟨takeColumns_spec hx, takeColumns_spec hy⟩

theorem safeSplit_none (x : Data A) (y : Option (Data A)) (axis : Axis) : safeSplit x y none axis = .ok (x, y) := by
  cases y <;> rfl

theorem fitAndPredict_ok {x : Data A} {y : Option (Data A)} {params : List (String × Data A)} {split : List Nat × List (List Nat)} {r : Seen A × List (Data A)}
    (h : fitAndPredict x y params none split = .ok r) :
    IsRows split.1 x r.1.x ∧ Target (IsRows split.1) y r.1.y ∧ Each (IsRows split.1) params r.1.params ∧ (∀ p ∈ params, p.2.nRows = x.nRows) ∧
    List.Forall₂ (fun t d => IsRows t x d) split.2 r.2 := by
  unfold fitAndPredict at h
  cases hp : checkMethodParams x params (some split.1) .rows with
  | error e => rw [hp] at h; cases h
  | ok ps =>
    rw [hp, safeSplit_none] at h
    simp only at h
    cases hs : safeSplit x y (some split.1) .rows with
    | error e => rw [hs] at h; cases h
    | ok q =>
      obtain ⟨x2, y2⟩ := q
      rw [hs] at h
      simp only at h
      cases ht : sequence (split.2.map fun t => takeRows t x) with
      | error e => rw [ht] at h; cases h
      | ok tests =>
        rw [ht] at h
        cases h
        obtain ⟨h1, h2⟩ := safeSplit_rows hs
        obtain ⟨h3, h4⟩ := checkMethodParams_rows hp
        exact ⟨h1, h2, h3, h4, (sequence_ok _ _ _ ht).imp fun _ _ hc => takeRows_spec hc⟩

theorem crossVal_none {x : Data A} {y : Option (Data A)} {params : List (String × Data A)} {splits : List (List Nat × List (List Nat))} {r : List (Seen A × List (Data A))}
    (h : crossVal x y params none splits = .ok r) : List.Forall₂ (fun s f => fitAndPredict x y params none s = .ok f) splits r := by
  unfold crossVal at h
  rw [safeSplit_none] at h
  simp only at h
  cases hi : indexable x y with
  | error e => rw [hi] at h; cases h
  | ok u => rw [hi] at h; exact sequence_ok _ _ _ h

theorem crossVal_some {x : Data A} {y : Option (Data A)} {params : List (String × Data A)} {cols : List Nat} {splits : List (List Nat × List (List Nat))} {r : List (Seen A × List (Data A))}
    (h : crossVal x y params (some cols) splits = .ok r) :
    ∃ x' y', IsColumns cols x x' ∧ Target (IsColumns cols) y y' ∧ List.Forall₂ (fun s f => fitAndPredict x' y' params none s = .ok f) splits r := by
  unfold crossVal at h
  cases hs : safeSplit x y (some cols) .columns with
  | error e => rw [hs] at h; cases h
  | ok q =>
    obtain ⟨x', y'⟩ := q
    rw [hs] at h
    simp only at h
    cases hi : indexable x' y' with
    | error e => rw [hi] at h; cases h
    | ok u =>
      rw [hi] at h
      obtain ⟨h1, h2⟩ := safeSplit_columns hs
      exact ⟨x', y', h1, h2, sequence_ok _ _ _ h⟩

/-! ### the claim -/

/-- **C95.** In `cross_val_predict`, the estimator of each split is fitted on the training rows of the data, of the target and of every keyword, and predicts on each of its test sets: the same rows in the
same order everywhere. -/
theorem C95_folds (x : Data A) (y : Option (Data A)) (params : List (String × Data A)) (splits : List (List Nat × List (List Nat))) (r : List (Seen A × List (Data A)))
    (h : crossVal x y params none splits = .ok r) :
    List.Forall₂ (fun s f => IsRows s.1 x f.1.x ∧ Target (IsRows s.1) y f.1.y ∧ Each (IsRows s.1) params f.1.params ∧ List.Forall₂ (fun t d => IsRows t x d) s.2 f.2) splits r :=
  (crossVal_none h).imp fun _ _ hc => ⟨(fitAndPredict_ok hc).1, (fitAndPredict_ok hc).2.1, (fitAndPredict_ok hc).2.2.1, (fitAndPredict_ok hc).2.2.2.2⟩

/-- **C95.** `fit_and_predict` called with column indices: the data and the target are the training rows of these columns, and the predictions are made from the test rows of these columns. -/
theorem C95_fit_and_predict (x : Data A) (y : Option (Data A)) (params : List (String × Data A)) (cols : List Nat) (split : List Nat × List (List Nat)) (r : Seen A × List (Data A))
    (h : fitAndPredict x y params (some cols) split = .ok r) :
    ∃ x' y', IsColumns cols x x' ∧ Target (IsColumns cols) y y' ∧ IsRows split.1 x' r.1.x ∧ Target (IsRows split.1) y' r.1.y ∧ Each (IsRows split.1) params r.1.params ∧
      List.Forall₂ (fun t d => IsRows t x' d) split.2 r.2 := by
  unfold fitAndPredict at h
  cases hp : checkMethodParams x params (some split.1) .rows with
  | error e => rw [hp] at h; cases h
  | ok ps =>
    rw [hp] at h
    simp only at h
    cases hc : safeSplit x y (some cols) .columns with
    | error e => rw [hc] at h; cases h
    | ok q1 =>
      obtain ⟨x1, y1⟩ := q1
      rw [hc] at h
      simp only at h
      cases hs : safeSplit x1 y1 (some split.1) .rows with
      | error e => rw [hs] at h; cases h
      | ok q =>
        obtain ⟨x2, y2⟩ := q
        rw [hs] at h
        simp only at h
        cases ht : sequence (split.2.map fun t => takeRows t x1) with
        | error e => rw [ht] at h; cases h
        | ok tests =>
          rw [ht] at h
          cases h
          obtain ⟨h1, h2⟩ := safeSplit_rows hs
          obtain ⟨h3, h4⟩ := safeSplit_columns hc
          exact ⟨x1, y1, h3, h4, h1, h2, (checkMethodParams_rows hp).1, (sequence_ok _ _ _ ht).imp fun _ _ hc => takeRows_spec hc⟩

/-- **C95.** A keyword that has another number of rows than the data is refused, in `cross_val_predict` as in the fit of a single estimator; so is a value without a shape. -/
theorem C95_refused (x : Data A) (y : Option (Data A)) (params : List (String × Data A)) (p : String × Data A) (hp : p ∈ params) (hbad : p.2.nRows ≠ x.nRows) :
    (∀ idx axis, ∃ e, fitSingle x y params (some idx) axis = .error e) ∧
    ∀ s splits, ∃ e, crossVal x y params none (s :: splits) = .error e := by
  constructor
  · intro idx axis
    cases hf : fitSingle x y params (some idx) axis with
    | error e => exact ⟨e, rfl⟩
    | ok r =>
      exfalso
      unfold fitSingle at hf
      cases hc : checkMethodParams x params (some idx) axis with
      | error e => rw [hc] at hf; cases hf
      | ok ps =>
        have hq := sequence_ok _ _ _ hc
        clear hc hf
        induction hq with
        | nil => cases hp
        | cons hc _ ih =>
          rcases List.mem_cons.1 hp with rfl | hm
          · exact hbad (checkParam_ok hc).2.1
          · exact ih hm
  · intro s splits
    cases hf : crossVal x y params none (s :: splits) with
    | error e => exact ⟨e, rfl⟩
    | ok r =>
      exfalso
      cases crossVal_none hf with
      | cons hc _ => exact hbad ((fitAndPredict_ok hc).2.2.2.1 p hp)

/-- **C95.** A target with another number of rows than the data is refused by `cross_val_predict`. -/
theorem C95_target_refused (x y : Data A) (params : List (String × Data A)) (splits : List (List Nat × List (List Nat))) (hbad : y.nRows ≠ x.nRows) :
    ∃ e, crossVal x (some y) params none splits = .error e := by
  refine ⟨.inconsistent, ?_⟩
  unfold crossVal
  rw [safeSplit_none]
  simp [indexable, hbad]

theorem takeRows_accepts {idx : List Nat} {d : Data A} {n : Nat} (hd : d.nRows = some n) (hi : ∀ i ∈ idx, i < n) : ∃ d', takeRows idx d = .ok d' := by
  cases d with
  | vec m c =>
    cases hd
    exact ⟨_, if_pos hi⟩
  | mat f m k c =>
    cases hd
    exact ⟨_, if_pos hi⟩
  | other => cases hd

theorem sequence_accepts {β : Type} (l : List (Except Err β)) (h : ∀ a ∈ l, ∃ b, a = .ok b) : ∃ r, sequence l = .ok r := by
  induction l with
  | nil => exact ⟨[], rfl⟩
  | cons a l ih =>
    obtain ⟨b, rfl⟩ := h a (by simp)
    obtain ⟨r, hr⟩ := ih fun a ha => h a (by simp [ha])
    exact ⟨b :: r, by simp only [sequence, hr]⟩

/-- **C95.** `cross_val_predict` refuses nothing else: if the target and every keyword have as many rows as the data and the splits stay within them, all fits and predictions take place. -/
theorem C95_accepted (x : Data A) (y : Option (Data A)) (params : List (String × Data A)) (splits : List (List Nat × List (List Nat))) (n : Nat)
    (hx : x.nRows = some n) (hy : ∀ y' ∈ y, y'.nRows = some n) (hp : ∀ p ∈ params, p.2.nRows = some n)
    (hs : ∀ s ∈ splits, (∀ i ∈ s.1, i < n) ∧ ∀ t ∈ s.2, ∀ i ∈ t, i < n) : ∃ r, crossVal x y params none splits = .ok r := by
  unfold crossVal
  rw [safeSplit_none]
  have hi : indexable x y = .ok () := by
    cases y with
    | none => rfl
    | some y' => simp [indexable, hx, hy y' rfl]
  simp only [hi]
  refine sequence_accepts _ fun a ha => ?_
  obtain ⟨s, hm, rfl⟩ := List.mem_map.1 ha
  obtain ⟨h1, h2⟩ := hs s hm
  obtain ⟨ps, hps⟩ : ∃ ps, checkMethodParams x params (some s.1) .rows = .ok ps := by
    refine sequence_accepts _ fun a ha => ?_
    obtain ⟨p, hq, rfl⟩ := List.mem_map.1 ha
    obtain ⟨d, hd⟩ := takeRows_accepts (hp p hq) h1
    exact ⟨(p.1, d), by simp [checkParam, hp p hq, hx, safeIndexing, hd]⟩
  obtain ⟨q, hq⟩ : ∃ q, safeSplit x y (some s.1) .rows = .ok q := by
    obtain ⟨x', hx'⟩ := takeRows_accepts hx h1
    cases y with
    | none => exact ⟨(x', none), by simp [safeSplit, safeIndexing, hx']⟩
    | some y' =>
      obtain ⟨y1, hy1⟩ := takeRows_accepts (hy y' rfl) h1
      exact ⟨(x', some y1), by simp [safeSplit, safeIndexing, hx', hy1]⟩
  obtain ⟨ts, hts⟩ : ∃ ts, sequence (s.2.map fun t => takeRows t x) = .ok ts := by
    refine sequence_accepts _ fun a ha => ?_
    obtain ⟨t, ht, rfl⟩ := List.mem_map.1 ha
    exact takeRows_accepts hx (h2 t ht)
  exact ⟨(⟨q.1, q.2, ps⟩, ts), by simp only [fitAndPredict, hps, safeSplit_none, hq, hts]⟩

/-- **C95.** On the whole sample, `NestedClustersOptimization` fits each cluster on the columns of the cluster, of the data and of every keyword. -/
theorem C95_cluster_whole (x : Data A) (y : Option (Data A)) (params : List (String × Data A)) (splits : List (List Nat × List (List Nat))) (ids : List Nat)
    (r : Seen A × List (Seen A × List (Data A))) (h : ncoCluster x y params splits ids = .ok r) :
    IsColumns ids x r.1.x ∧ Target (IsColumns ids) y r.1.y ∧ Each (IsColumns ids) params r.1.params := by
  unfold ncoCluster fitSingle at h
  cases hc : checkMethodParams x params (some ids) .columns with
  | error e => rw [hc] at h; cases h
  | ok ps =>
    rw [hc] at h
    simp only at h
    cases hs : safeSplit x y (some ids) .columns with
    | error e => rw [hs] at h; cases h
    | ok q =>
      obtain ⟨x', y'⟩ := q
      rw [hs] at h
      simp only at h
      cases hv : crossVal x y params (some ids) splits with
      | error e => rw [hv] at h; cases h
      | ok f =>
        rw [hv] at h
        cases h
        obtain ⟨h1, h2⟩ := safeSplit_columns hs
        exact ⟨h1, h2, checkMethodParams_columns hc⟩

/-- **C95** (negated for the folds of a cluster). In the cross-validation of a cluster, the data are the training rows of the columns of the cluster, but each keyword has the training rows of all columns. -/
theorem C95_cluster_folds_partial (x : Data A) (y : Option (Data A)) (params : List (String × Data A)) (splits : List (List Nat × List (List Nat))) (ids : List Nat)
    (r : Seen A × List (Seen A × List (Data A))) (h : ncoCluster x y params splits ids = .ok r) :
    ∃ x', IsColumns ids x x' ∧ List.Forall₂ (fun s f => IsRows s.1 x' f.1.x ∧ Each (IsRows s.1) params f.1.params) splits r.2 := by
  unfold ncoCluster at h
  cases hf : fitSingle x y params (some ids) .columns with
  | error e => rw [hf] at h; cases h
  | ok w =>
    rw [hf] at h
    simp only at h
    cases hv : crossVal x y params (some ids) splits with
    | error e => rw [hv] at h; cases h
    | ok f =>
      rw [hv] at h
      cases h
      obtain ⟨x', y', h1, -, h3⟩ := crossVal_some hv
      exact ⟨x', h1, h3.imp fun _ _ hc => ⟨(fitAndPredict_ok hc).1, (fitAndPredict_ok hc).2.2.1⟩⟩

/-- The number of columns. -/
def Data.nColumns : Data A → Option Nat
  | .mat _ _ m _ => some m
  | _ => none

theorem IsRows.nColumns {idx : List Nat} {d d' : Data A} (h : IsRows idx d d') : d'.nColumns = d.nColumns := by
  cases d <;> cases d' <;> simp only [IsRows] at h <;> simp [Data.nColumns, h]

theorem IsColumns.nColumns {idx : List Nat} {d d' : Data A} (h : IsColumns idx d d') (hd : d.nColumns ≠ none) : d'.nColumns = some idx.length := by
  cases d <;> cases d' <;> simp only [IsColumns] at h <;> simp_all [Data.nColumns]

/-- Finding (C95): a keyword with a column for each asset, such as implied volatilities, has as many columns as the data when a cluster is fitted on the whole sample, but not in the folds, unless the cluster has all assets.
An estimator that needs a column for each asset and does not look for them by name — as with arrays — is refused in every fold. -/
theorem C95_cluster_columns (names names' : Option (Nat → String)) (n m : Nat) (cell cell' : Nat → Nat → A) (key : String) (y : Option (Data A)) (splits : List (List Nat × List (List Nat))) (ids : List Nat)
    (hids : ids.length ≠ m) (r : Seen A × List (Seen A × List (Data A)))
    (h : ncoCluster (.mat names n m cell) y [(key, .mat names' n m cell')] splits ids = .ok r) :
    (∃ d, r.1.params = [(key, d)] ∧ d.nColumns = r.1.x.nColumns) ∧
    ∀ f ∈ r.2, ∃ d, f.1.params = [(key, d)] ∧ d.nColumns = some m ∧ d.nColumns ≠ f.1.x.nColumns := by
  constructor
  · obtain ⟨h1, -, h3⟩ := C95_cluster_whole _ _ _ _ _ _ h
    cases hr : r.1.params with
    | nil => rw [hr] at h3; cases h3
    | cons p l =>
      rw [hr] at h3
      cases h3 with
      | cons hc hl =>
        cases hl
        obtain ⟨k, d⟩ := p
        obtain ⟨e, hd⟩ := hc
        simp only at e hd
        subst e
        exact ⟨d, rfl, (hd.nColumns (by simp [Data.nColumns])).trans (h1.nColumns (by simp [Data.nColumns])).symm⟩
  · obtain ⟨x', h1, h2⟩ := C95_cluster_folds_partial _ _ _ _ _ _ h
    intro f hf
    obtain ⟨s, -, hc⟩ : ∃ s ∈ splits, IsRows s.1 x' f.1.x ∧ Each (IsRows s.1) [(key, .mat names' n m cell')] f.1.params := by
      clear h
      generalize r.2 = fs at h2 hf
      induction h2 with
      | nil => cases hf
      | @cons s f' _ _ hc _ ih =>
        rcases List.mem_cons.1 hf with rfl | hm
        · exact ⟨s, by simp, hc⟩
        · obtain ⟨s, hs, hc⟩ := ih hm
          exact ⟨s, by simp [hs], hc⟩
    obtain ⟨hx, hp⟩ := hc
    cases hr : f.1.params with
    | nil => rw [hr] at hp; cases hp
    | cons p l =>
      rw [hr] at hp
      cases hp with
      | cons hc hl =>
        cases hl
        obtain ⟨k, d⟩ := p
        obtain ⟨e, hd⟩ := hc
        simp only at e hd
        subst e
        refine ⟨d, rfl, hd.nColumns, ?_⟩
        rw [hd.nColumns, hx.nColumns, h1.nColumns (by simp [Data.nColumns])]
        simpa [Data.nColumns] using Ne.symm hids

/-- **C95.** If the data and a keyword are DataFrames with the same distinct column names, the columns of a fold found by name are those of the cluster: for each column of the data of the fold there is
exactly one column of the keyword with its name, and both are the training rows of the same column of the originals. -/
theorem C95_cluster_by_name (names : Nat → String) (n m : Nat) (hinj : ∀ a < m, ∀ b < m, names a = names b → a = b) (cell cell' : Nat → Nat → A) (key : String) (y : Option (Data A))
    (splits : List (List Nat × List (List Nat))) (ids : List Nat) (r : Seen A × List (Seen A × List (Data A)))
    (h : ncoCluster (.mat (some names) n m cell) y [(key, .mat (some names) n m cell')] splits ids = .ok r) :
    List.Forall₂ (fun s f => ∃ fx nx mx cx fp np mp cp, f.1.x = .mat (some fx) nx mx cx ∧ f.1.params = [(key, .mat (some fp) np mp cp)] ∧ mx = ids.length ∧ nx = s.1.length ∧ np = s.1.length ∧
      ∀ j (hj : j < ids.length), fp ids[j] = fx j ∧ (∀ b < mp, fp b = fx j → b = ids[j]) ∧ ∀ t (ht : t < s.1.length), cx t j = cell s.1[t] ids[j] ∧ cp t ids[j] = cell' s.1[t] ids[j]) splits r.2 := by
  obtain ⟨x', h1, h2⟩ := C95_cluster_folds_partial _ _ _ _ _ _ h
  refine h2.imp fun s f hc => ?_
  obtain ⟨hx, hp⟩ := hc
  cases x' with
  | vec _ _ => exact h1.elim
  | other => exact h1.elim
  | mat nm' n' m' c' =>
    obtain ⟨e1, e2, e3, e4⟩ := h1
    cases hfx : f.1.x with
    | vec _ _ => rw [hfx] at hx; exact hx.elim
    | other => rw [hfx] at hx; exact hx.elim
    | mat nx' nx mx cx =>
      rw [hfx] at hx
      obtain ⟨g1, g2, g3, g4⟩ := hx
      cases hr : f.1.params with
      | nil => rw [hr] at hp; cases hp
      | cons p l =>
        rw [hr] at hp
        cases hp with
        | cons hc hl =>
          cases hl
          obtain ⟨k, d⟩ := p
          obtain ⟨e, hd⟩ := hc
          simp only at e hd
          subst e
          cases d with
          | vec _ _ => exact hd.elim
          | other => exact hd.elim
          | mat np' np mp cp =>
            obtain ⟨d1, d2, d3, d4⟩ := hd
            cases nm' with
            | none => simp at e3
            | some fx =>
              subst g3 d3 d2
              refine ⟨fx, nx, mx, cx, names, np, mp, cp, rfl, rfl, by omega, g1, d1, fun j hj => ?_⟩
              obtain ⟨a1, a2, a3⟩ := e4 j hj
              have a4 := a3 names fx rfl rfl
              refine ⟨a4.symm, fun b hb hbj => hinj b hb _ a1 (hbj.trans a4), fun t ht => ⟨?_, ?_⟩⟩
              · obtain ⟨b1, b2⟩ := g4 t ht
                rw [b2 j (by omega), a2 _ (by omega)]
              · exact (d4 t ht).2 _ a1

/-- **C95.** All inner fits of `NestedClustersOptimization`: the above holds for every cluster of several assets. -/
theorem C95_nco (labels : List ℤ) (x : Data A) (y : Option (Data A)) (params : List (String × Data A)) (splits : List (List Nat × List (List Nat))) (r : List (Seen A × List (Seen A × List (Data A))))
    (h : nco labels x y params splits = .ok r) :
    List.Forall₂ (fun ids f => IsColumns ids x f.1.x ∧ Each (IsColumns ids) params f.1.params ∧
      ∃ x', IsColumns ids x x' ∧ List.Forall₂ (fun s g => IsRows s.1 x' g.1.x ∧ Each (IsRows s.1) params g.1.params) splits f.2)
      ((Nested.clusters labels).filter fun ids => ids.length ≠ 1) r :=
  (sequence_ok _ _ _ h).imp fun _ _ hc => ⟨(C95_cluster_whole _ _ _ _ _ _ hc).1, (C95_cluster_whole _ _ _ _ _ _ hc).2.2, C95_cluster_folds_partial _ _ _ _ _ _ hc⟩

/-- Columns of a vector: a keyword with one number per observation, such as sample weights, is refused in the inner fits of clusters, although it can be used in cross-validation. -/
theorem C95_vector_refused (x : Data A) (y : Option (Data A)) (key : String) (n : Nat) (cell : Nat → A) (hx : x.nRows = some n) (splits : List (List Nat × List (List Nat))) (ids : List Nat) :
    ncoCluster x y [(key, .vec n cell)] splits ids = .error .axis := by
  have h : checkParam x.nRows (some ids) .columns (key, .vec n cell) = .error .axis := by
    rw [hx]
    simp [checkParam, Data.nRows, safeIndexing, takeColumns]
  simp only [ncoCluster, fitSingle, checkMethodParams, List.map_cons, List.map_nil, h, sequence]

/-! ### examples -/

/-- Four observations of three assets, and a keyword with a column for each asset. -/
def assets : Data Nat := .mat (some fun j => if j = 0 then "a" else if j = 1 then "b" else "c") 4 3 fun t j => 10 * t + j
def vols : Data Nat := .mat (some fun j => if j = 0 then "a" else if j = 1 then "b" else "c") 4 3 fun t j => 100 + 10 * t + j

/-- The hypothesis of `C95_folds` is met: two folds. -/
example : (crossVal assets none [("implied_vol", vols)] none [([0, 1], [[2, 3]]), ([2, 3], [[0, 1]])]).toOption.isSome = true := by decide

/-- The hypotheses of `C95_cluster_whole`, `C95_cluster_folds_partial`, `C95_cluster_columns` and `C95_cluster_by_name` are met: the clusters {a, c} and {b}. -/
example : (ncoCluster assets none [("implied_vol", vols)] [([0, 1], [[2, 3]]), ([2, 3], [[0, 1]])] [0, 2]).toOption.isSome = true ∧
    (nco [0, 1, 0] assets none [("implied_vol", vols)] [([0, 1], [[2, 3]]), ([2, 3], [[0, 1]])]).toOption.isSome = true := by decide

/-- The whole-sample fit of the cluster sees two columns of the keyword, the folds three. -/
example : ((ncoCluster assets none [("implied_vol", vols)] [([0, 1], [[2, 3]])] [0, 2]).toOption.map fun r =>
    (r.1.params.map fun p => p.2.nColumns, r.2.map fun f => (f.1.x.nColumns, f.1.params.map fun p => p.2.nColumns))) = some ([some 2], [(some 2, [some 3])]) := by decide

/-- The hypothesis of `C95_fit_and_predict` is met. -/
example : (fitAndPredict assets none [("implied_vol", vols)] (some [0, 2]) ([0, 1], [[2, 3]])).toOption.isSome = true := by decide

/-- A keyword with three rows is refused (`C95_refused`). -/
example : (crossVal assets none [("w", .vec 3 fun _ => 1)] none [([0, 1], [[2, 3]])]).toOption.isNone = true := by decide

end Skfolio.FitParams
