import Verif.Portfolio.CacheModel
import Mathlib.Tactic.SplitIfs

/-!
# Portfolio measures are never stale: the claims
-/

set_option autoImplicit false

namespace Skfolio.Portfolio

variable {V : Type}

/-! ### Specification: the value of a measure computed from the parameters alone -/

/-- The value of an argument of a measure function, computed from the parameters. -/
def argValue (L : Lib V) (P : Param → V) (m : Base) : Arg → V
  | .returns => P .returns
  | .minAcceptableReturn => P .minAcceptableReturn
  | .drawdowns => L.drawdowns (P .returns) (P .compounded)
  | .beta => match m with
    | .extra .valueAtRisk => P .valueAtRiskBeta
    | .extra .drawdownAtRisk => P .drawdownAtRiskBeta
    | .extra _ => P .entropicBeta
    | .risk .cvar => P .cvarBeta
    | .risk .cdar => P .cdarBeta
    | .risk .edar => P .edarBeta
    | _ => P .evarBeta
  | .theta => P .entropicTheta

/-- A perf, risk or extra risk measure computed from scratch. -/
def baseValue (L : Lib V) (P : Param → V) (m : Base) : V :=
  match m.nonAnnualized with
  | some m' => L.annualize m (L.func m' ((argsOf m').map (argValue L P m'))) (P .annualizedFactor)
  | none => L.func m ((argsOf m).map (argValue L P m))

/-- Any measure computed from scratch. -/
def value (L : Lib V) (P : Param → V) : Measure → V
  | .base b => baseValue L P b
  | .ratio r => L.ratio (baseValue L P (.perf (if r.isAnnualized then .annualizedMean else .mean))) (P .riskFreeRate)
      (baseValue L P r.linked)

/-- The fitness computed from scratch: perf and ratio measures count positively, risk measures negatively. -/
def fitnessValue (L : Lib V) (P : Param → V) (fm : List Measure) : V :=
  L.array (fm.map fun m => L.signed (!m.isRisk) (value L P m))

/-- The content every lazily filled slot should have. -/
def slotValue (L : Lib V) (P : Param → V) (fm : List Measure) : Slot → V
  | .measure m => value L P m
  | .fitness => fitnessValue L P fm
  | .cumulative => L.cumulative (P .returns) (P .compounded)
  | .drawdowns => L.drawdowns (P .returns) (P .compounded)

/-- No filled slot is stale. -/
def Fresh (L : Lib V) (s : State V) : Prop :=
  ∀ k v, s.cache k = some v → v = slotValue L s.params s.fitnessMeasures k

/-- `s'` differs from `s` only in what is cached, and is fresh. -/
structure Reads (L : Lib V) (s s' : State V) : Prop where
  params : s'.params = s.params
  fm : s'.fitnessMeasures = s.fitnessMeasures
  fresh : Fresh L s'

theorem Reads.trans {L : Lib V} {a b c : State V} (h1 : Reads L a b) (h2 : Reads L b c) : Reads L a c :=
  ⟨h2.params.trans h1.params, h2.fm.trans h1.fm, h2.fresh⟩

theorem Fresh.refl {L : Lib V} {s : State V} (h : Fresh L s) : Reads L s s := ⟨rfl, rfl, h⟩

theorem reads_store {L : Lib V} {s : State V} (h : Fresh L s) (k : Slot) (v : V)
    (hv : v = slotValue L s.params s.fitnessMeasures k) : Reads L s (s.store k v) := by
  refine ⟨rfl, rfl, fun k' v' hk => ?_⟩
  simp only [State.store] at hk ⊢
  split at hk
  · rename_i e; subst e; simp only [Option.some.injEq] at hk; rw [← hk, hv]
  · exact h k' v' hk

theorem readDrawdowns_spec {L : Lib V} {s : State V} (h : Fresh L s) :
    (readDrawdowns L s).1 = slotValue L s.params s.fitnessMeasures .drawdowns ∧ Reads L s (readDrawdowns L s).2 := by
  unfold readDrawdowns
  split
  · rename_i v hv; exact ⟨h _ _ hv, h.refl⟩
  · exact ⟨rfl, reads_store h _ _ rfl⟩

theorem readCumulative_spec {L : Lib V} {s : State V} (h : Fresh L s) :
    (readCumulative L s).1 = slotValue L s.params s.fitnessMeasures .cumulative ∧ Reads L s (readCumulative L s).2 := by
  unfold readCumulative
  split
  · rename_i v hv; exact ⟨h _ _ hv, h.refl⟩
  · exact ⟨rfl, reads_store h _ _ rfl⟩

theorem readArg_spec {L : Lib V} {s : State V} (h : Fresh L s) (m m' : Base) (a : Arg)
    (ha : a = .returns ∨ a = .minAcceptableReturn ∨ a = .drawdowns ∨
      ∃ p, localParam m a = some p ∧ argValue L s.params m' a = s.params p) :
    ∃ s', readArg L m s a = .ok (argValue L s.params m' a, s') ∧ Reads L s s' := by
  rcases ha with rfl | rfl | rfl | ⟨p, hp, hv⟩
  · exact ⟨s, rfl, h.refl⟩
  · exact ⟨s, rfl, h.refl⟩
  · obtain ⟨h1, h2⟩ := readDrawdowns_spec h
    refine ⟨_, ?_, h2⟩
    simp only [readArg, argValue]
    have e : readDrawdowns L s = (L.drawdowns (s.params .returns) (s.params .compounded), (readDrawdowns L s).2) :=
      Prod.ext h1 rfl
    rw [← e]
  · refine ⟨s, ?_, h.refl⟩
    cases a with
    | returns => rfl
    | minAcceptableReturn => rfl
    | drawdowns => cases m <;> simp [localParam] at hp
    | beta => simp only [readArg, hp, hv]
    | theta => simp only [readArg, hp, hv]

theorem readArgs_spec {L : Lib V} {s : State V} (h : Fresh L s) (m m' : Base) (l : List Arg)
    (hl : ∀ a ∈ l, ∀ P : Param → V, a = .returns ∨ a = .minAcceptableReturn ∨ a = .drawdowns ∨
      ∃ p, localParam m a = some p ∧ argValue L P m' a = P p) :
    ∃ s', readArgs L m s l = .ok (l.map (argValue L s.params m'), s') ∧ Reads L s s' := by
  induction l generalizing s with
  | nil => exact ⟨s, rfl, h.refl⟩
  | cons a l ih =>
    obtain ⟨s1, e1, r1⟩ := readArg_spec h m m' a (hl a (by simp) s.params)
    obtain ⟨s2, e2, r2⟩ := ih r1.fresh fun b hb => hl b (by simp [hb])
    refine ⟨s2, ?_, r1.trans r2⟩
    rw [readArgs, e1]
    simp only [e2, List.map_cons, r1.params]

/-- Every argument of every measure function can be supplied: attribute lookup never fails. -/
theorem args_supplied (L : Lib V) (m : Base) : ∀ a ∈ argsOf (m.nonAnnualized.getD m), ∀ P : Param → V,
    a = .returns ∨ a = .minAcceptableReturn ∨ a = .drawdowns ∨
      ∃ p, localParam m a = some p ∧ argValue L P (m.nonAnnualized.getD m) a = P p := by
  intro a ha P
  rcases m with p | r | e
  · cases p <;> simp [argsOf, Base.nonAnnualized] at ha <;> simp [ha]
  · cases r <;> simp [argsOf, Base.nonAnnualized] at ha <;>
      (first
        | (rcases ha with rfl | rfl | rfl <;> simp [localParam, argValue, Base.nonAnnualized])
        | (rcases ha with rfl | rfl <;> simp [localParam, argValue, Base.nonAnnualized])
        | (subst ha; simp))
  · cases e <;> simp [argsOf, Base.nonAnnualized] at ha <;>
      (first
        | (rcases ha with rfl | rfl | rfl <;> simp [localParam, argValue, Base.nonAnnualized])
        | (rcases ha with rfl | rfl <;> simp [localParam, argValue, Base.nonAnnualized])
        | (subst ha; simp))

theorem getBase_spec {L : Lib V} {s : State V} (h : Fresh L s) (m : Base) :
    ∃ s', getBase L s m = .ok (baseValue L s.params m, s') ∧ Reads L s s' := by
  obtain ⟨s1, e1, r1⟩ := readArgs_spec h m (m.nonAnnualized.getD m) _ (args_supplied L m)
  refine ⟨s1, ?_, r1⟩
  unfold getBase baseValue
  rw [e1]
  cases hm : m.nonAnnualized with
  | none => simp
  | some m' => simp [r1.params]

theorem readBase_spec {L : Lib V} {s : State V} (h : Fresh L s) (m : Base) :
    ∃ s', readBase L s m = .ok (baseValue L s.params m, s') ∧ Reads L s s' := by
  unfold readBase
  cases hc : s.cache (.measure (.base m)) with
  | some v => exact ⟨s, by rw [h _ _ hc]; rfl, h.refl⟩
  | none =>
    obtain ⟨s1, e1, r1⟩ := getBase_spec h m
    refine ⟨s1.store (.measure (.base m)) (baseValue L s.params m), by simp only [e1],
      r1.trans (reads_store r1.fresh _ _ ?_)⟩
    rw [r1.params]
    rfl

theorem readMeasure_spec {L : Lib V} {s : State V} (h : Fresh L s) (m : Measure) :
    ∃ s', readMeasure L s m = .ok (value L s.params m, s') ∧ Reads L s s' := by
  cases m with
  | base b => exact readBase_spec h b
  | ratio r =>
    simp only [readMeasure]
    cases hc : s.cache (.measure (.ratio r)) with
    | some v => exact ⟨s, by rw [h _ _ hc]; rfl, h.refl⟩
    | none =>
      obtain ⟨s1, e1, r1⟩ := readBase_spec h (.perf (if r.isAnnualized then .annualizedMean else .mean))
      obtain ⟨s2, e2, r2⟩ := readBase_spec r1.fresh r.linked
      have hg : getRatio L s r = .ok (value L s.params (.ratio r), s2) := by
        unfold getRatio
        simp only [e1, e2, r2.params, r1.params, value]
      refine ⟨s2.store (.measure (.ratio r)) (value L s.params (.ratio r)), by simp only [hg], (r1.trans r2).trans (reads_store r2.fresh _ _ ?_)⟩
      rw [(r1.trans r2).params]
      rfl

theorem fitnessLoop_spec {L : Lib V} {s : State V} (h : Fresh L s) (l : List Measure) :
    ∃ s', fitnessLoop L s l = .ok (l.map (fun m => L.signed (!m.isRisk) (value L s.params m)), s') ∧ Reads L s s' := by
  induction l generalizing s with
  | nil => exact ⟨s, rfl, h.refl⟩
  | cons m l ih =>
    obtain ⟨s1, e1, r1⟩ := readMeasure_spec h m
    obtain ⟨s2, e2, r2⟩ := ih r1.fresh
    refine ⟨s2, ?_, r1.trans r2⟩
    rw [fitnessLoop, e1]
    simp only [e2, List.map_cons, r1.params]
    have : (m.isPerf || m.isRatio) = !m.isRisk := by rcases m with (_ | _ | _) | _ <;> rfl
    rw [this]

theorem readFitness_spec {L : Lib V} {s : State V} (h : Fresh L s) :
    ∃ s', readFitness L s = .ok (fitnessValue L s.params s.fitnessMeasures, s') ∧ Reads L s s' := by
  unfold readFitness
  cases hc : s.cache .fitness with
  | some v => exact ⟨s, by rw [h _ _ hc]; rfl, h.refl⟩
  | none =>
    obtain ⟨s1, e1, r1⟩ := fitnessLoop_spec h s.fitnessMeasures
    refine ⟨s1.store .fitness (fitnessValue L s.params s.fitnessMeasures), by simp only [e1, fitnessValue], r1.trans (reads_store r1.fresh _ _ ?_)⟩
    rw [r1.params, r1.fm]
    rfl

theorem fresh_clear (L : Lib V) (s : State V) : Fresh L s.clear := by
  intro k v hk; simp [State.clear] at hk

theorem fresh_setParam {L : Lib V} {s s' : State V} (h : Fresh L s) (p : Param) (v : V)
    (hs : setParam s p v = .ok s') : Fresh L s' := by
  have same : ∀ p, (p = .tag ∨ p = .name) → Fresh L { s with params := fun q => if q = p then v else s.params q } := by
    rintro p hp k w hk
    rw [h k w hk]
    have hP : ∀ q, q ≠ p → (if q = p then v else s.params q) = s.params q := fun q hq => by rw [if_neg hq]
    have hargs : ∀ m a, argValue L (fun q => if q = p then v else s.params q) m a = argValue L s.params m a := by
      intro m a
      rcases hp with rfl | rfl <;> cases a <;> simp [argValue]
    have hbase : ∀ m, baseValue L (fun q => if q = p then v else s.params q) m = baseValue L s.params m := by
      intro m
      unfold baseValue
      simp only [funext (hargs _)]
      rcases hp with rfl | rfl <;> simp
    have hval : ∀ m, value L (fun q => if q = p then v else s.params q) m = value L s.params m := by
      intro m
      cases m with
      | base b => exact hbase b
      | ratio r =>
        simp only [value, hbase]
        rcases hp with rfl | rfl <;> simp
    cases k with
    | measure m => exact (hval m).symm
    | fitness => simp only [slotValue, fitnessValue, hval]
    | cumulative => rcases hp with rfl | rfl <;> simp [slotValue]
    | drawdowns => rcases hp with rfl | rfl <;> simp [slotValue]
  cases p <;> simp only [setParam, Except.ok.injEq, reduceCtorEq] at hs <;> subst hs
  case tag => exact same .tag (.inl rfl)
  case name => exact same .name (.inr rfl)
  all_goals (intro k w hk; simp [State.clear] at hk)

theorem fresh_setFitnessMeasures {L : Lib V} {s s' : State V} (h : Fresh L s) (l : List Measure)
    (hs : setFitnessMeasures s l = .ok s') : Fresh L s' := by
  unfold setFitnessMeasures at hs
  split at hs
  · simp at hs
  · simp only [Except.ok.injEq] at hs
    subst hs
    intro k v hk
    simp only [State.del] at hk
    split at hk
    · simp at hk
    · rename_i hne
      rw [h k v hk]
      cases k with
      | fitness => exact absurd rfl hne
      | _ => rfl

theorem fresh_copy {L : Lib V} {s : State V} (h : Fresh L s) : Fresh L (copy s) := by
  intro k v hk
  cases k with
  | measure m => simp [copy] at hk
  | _ => exact h _ v hk

/-- The operation is not an assignment to a measure slot. -/
def Op.Proper : Op V → Prop
  | .assignMeasure .. => False
  | _ => True

theorem fresh_stepOne {L : Lib V} {s : State V} (h : Fresh L s) (op : Op V) (hop : op.Proper) : Fresh L (stepOne L s op) := by
  cases op with
  | read i m => obtain ⟨s', e, r⟩ := readMeasure_spec h m; simp only [stepOne, e]; exact r.fresh
  | readFitness i => obtain ⟨s', e, r⟩ := readFitness_spec h; simp only [stepOne, e]; exact r.fresh
  | readDrawdowns i => exact (readDrawdowns_spec h).2.fresh
  | readCumulative i => exact (readCumulative_spec h).2.fresh
  | set i p v =>
    simp only [stepOne]
    cases hs : setParam s p v with
    | ok s1 => exact fresh_setParam h p v hs
    | error e => exact h
  | setFitnessMeasures i l =>
    simp only [stepOne]
    cases hs : setFitnessMeasures s l with
    | ok s1 => exact fresh_setFitnessMeasures h l hs
    | error e => exact h
  | replaceReturns i r o => exact fresh_clear _ _
  | delete i m =>
    intro k v hk
    simp only [stepOne, State.del] at hk
    split at hk
    · simp at hk
    · exact h k v hk
  | clear i => exact fresh_clear _ _
  | copy i => exact h
  | new p fm => exact h
  | assignMeasure i m v => exact hop.elim

theorem fresh_step {L : Lib V} {w : List (State V)} (h : ∀ s ∈ w, Fresh L s) (op : Op V) (hop : op.Proper) :
    ∀ s ∈ step L w op, Fresh L s := by
  have hmod : ∀ i (op : Op V), op.Proper → ∀ s ∈ w.modify i (fun s => stepOne L s op), Fresh L s := by
    intro i op hop s hs
    obtain ⟨j, hj, rfl⟩ := List.getElem_of_mem hs
    rw [List.getElem_modify]
    have hj' : j < w.length := by simpa using hj
    split
    · exact fresh_stepOne (h _ (List.getElem_mem hj')) op hop
    · exact h _ (List.getElem_mem hj')
  cases op with
  | new p fm =>
    intro s hs
    rcases List.mem_append.mp hs with hs | hs
    · exact h s hs
    · rw [List.mem_singleton.mp hs]
      intro k v hk
      simp [construct] at hk
  | copy i =>
    intro s hs
    simp only [step] at hs
    cases hi : w[i]? with
    | none => rw [hi] at hs; exact h s hs
    | some t =>
      rw [hi] at hs
      rcases List.mem_append.mp hs with hs | hs
      · exact h s hs
      · rw [List.mem_singleton.mp hs]
        exact fresh_copy (h t (List.mem_of_getElem? hi))
  | _ => exact hmod _ _ hop

/-- C25: after any history of constructions, reads, parameter assignments, deletions, clears, copies and replacements of the
underlying portfolios, on any number of portfolio objects, every measure, the fitness, the cumulative returns and the
drawdowns read from any of them are those computed from scratch from its current parameters; reading never fails. -/
theorem C25_never_stale (L : Lib V) (ops : List (Op V)) (hops : ∀ op ∈ ops, op.Proper) :
    ∀ s ∈ run L ops,
      (∀ m, ∃ s', readMeasure L s m = .ok (value L s.params m, s')) ∧
      (∃ s', readFitness L s = .ok (fitnessValue L s.params s.fitnessMeasures, s')) ∧
      (readCumulative L s).1 = L.cumulative (s.params .returns) (s.params .compounded) ∧
      (readDrawdowns L s).1 = L.drawdowns (s.params .returns) (s.params .compounded) := by
  have hfresh : ∀ s ∈ run L ops, Fresh L s := by
    unfold run
    have : ∀ w : List (State V), (∀ s ∈ w, Fresh L s) → ∀ s ∈ ops.foldl (step L) w, Fresh L s := by
      induction ops with
      | nil => exact fun w hw => hw
      | cons op ops ih =>
        exact fun w hw => ih (fun o ho => hops o (by simp [ho])) _ (fresh_step hw op (hops op (by simp)))
    exact this [] (by simp)
  intro s hs
  have h := hfresh s hs
  exact ⟨fun m => (readMeasure_spec h m).imp fun _ h => h.1, (readFitness_spec h).imp fun _ h => h.1,
    (readCumulative_spec h).1, (readDrawdowns_spec h).1⟩

/-- C25: assigning a parameter sets exactly that parameter; the series themselves are read-only. -/
theorem C25_assignment_takes_effect (s : State V) (p : Param) (v : V) :
    if p = .returns ∨ p = .observations then setParam s p v = .error .attributeError
    else ∃ s', setParam s p v = .ok s' ∧ s'.params p = v ∧ (∀ q, q ≠ p → s'.params q = s.params q) ∧
      s'.fitnessMeasures = s.fitnessMeasures := by
  split_ifs with h
  · rcases h with rfl | rfl <;> rfl
  · cases p <;> first
      | exact absurd (.inl rfl) h
      | exact absurd (.inr rfl) h
      | exact ⟨_, rfl, by simp [State.clear], fun q hq => by simp [State.clear, hq], rfl⟩

/-- C25: a copy has the same parameters, and reading from one object changes neither its own parameters nor any other
object. -/
theorem C25_copy_and_read_preserve (L : Lib V) (w : List (State V)) (i : ℕ) (m : Measure)
    (h : ∀ s ∈ w, Fresh L s) :
    (∀ s, w[i]? = some s → ∃ t, (step L w (.copy i)) = w ++ [t] ∧ t.params = s.params ∧
      t.fitnessMeasures = s.fitnessMeasures) ∧
    ∀ j : ℕ, ((step L w (.read i m))[j]?.map State.params) = (w[j]?.map State.params) ∧
      (j ≠ i → (step L w (.read i m))[j]? = w[j]?) := by
  refine ⟨fun s hs => ⟨copy s, by simp only [step, hs], rfl, rfl⟩, fun j => ?_⟩
  have e : step L w (.read i m) = w.modify i fun s => stepOne L s (.read i m) := rfl
  rw [e, List.getElem?_modify]
  refine ⟨?_, fun hj => ?_⟩
  · by_cases hj : i = j
    · subst hj
      cases hw : w[i]? with
      | none => simp
      | some s =>
        obtain ⟨s', e1, r1⟩ := readMeasure_spec (h s (List.mem_of_getElem? hw)) m
        simp [stepOne, e1, r1.params]
    · simp [hj]
  · simp [Ne.symm hj]

/-! ### Instances -/

/-- A toy library on integers: measures are told apart by their argument lists. -/
def toyLib : Lib Int where
  func _ vs := vs.foldl (fun a v => 10 * a + v) 0
  drawdowns r c := r - c
  cumulative r c := r + c
  annualize _ v f := v * f
  ratio m f r := m - f - r
  signed b v := if b then v else -v
  array vs := vs.foldl (fun a v => 100 * a + v) 0

/-- Parameters of the toy portfolios: returns 5, everything else 1. -/
def toyParams : Param → Int := fun p => if p = .returns then 5 else 1

/-- Read `cvar`, change its level, read again: the new value is returned. -/
example : (run toyLib [.new toyParams none, .read 0 (.base (.risk .cvar)), .set 0 .cvarBeta 3, .copy 0,
    .read 1 (.base (.risk .cvar))]).map (fun s => (s.cache (.measure (.base (.risk .cvar))), s.params .cvarBeta)) =
    [(none, 3), (some 53, 3)] := by decide

/-- C25, finding: a measure is an ordinary writable attribute.  After `ptf.mean = 7` every later read of the mean, and every
ratio computed from it, uses the assigned number although the returns say otherwise. -/
theorem C25_assigned_measure_is_kept :
    ∃ s ∈ run toyLib [.new toyParams none, .assignMeasure 0 (.base (.perf .mean)) 7],
      (readMeasure toyLib s (.base (.perf .mean))).map Prod.fst = .ok 7 ∧
      value toyLib s.params (.base (.perf .mean)) = 5 := by
  refine ⟨_, List.mem_singleton.mpr rfl, rfl, by decide⟩

end Skfolio.Portfolio
