import Verif.Portfolio.PickleModel
import Verif.Portfolio.CacheTheorems
import Verif.Portfolio.MultiTheorems
import Mathlib.Data.Rat.Floor

/-!
# Portfolios survive pickling: the claims
-/

set_option autoImplicit false

namespace Skfolio.Portfolio.Pickle

/-! ### `Portfolio` -/

section portfolio

variable {K V : Type} [Field K] [LinearOrder K] [FloorRing K]

theorem reload_eq (p : Arith.Ptf K (Other → V)) : reload p = Arith.construct p.args := by
  have hP : (fun o : Other => match o with
      | .riskFreeRate => p.params .riskFreeRate | .annualizedFactor => p.params .annualizedFactor
      | .fitnessMeasures => p.params .fitnessMeasures | .compounded => p.params .compounded
      | .minAcceptableReturn => p.params .minAcceptableReturn | .valueAtRiskBeta => p.params .valueAtRiskBeta
      | .entropicTheta => p.params .entropicTheta | .entropicBeta => p.params .entropicBeta
      | .cvarBeta => p.params .cvarBeta | .evarBeta => p.params .evarBeta
      | .drawdownAtRiskBeta => p.params .drawdownAtRiskBeta | .cdarBeta => p.params .cdarBeta
      | .edarBeta => p.params .edarBeta) = p.params := by
    funext o; cases o <;> rfl
  have : reload p = Arith.construct { p.args with params := (fun o : Other => match o with
      | .riskFreeRate => p.params .riskFreeRate | .annualizedFactor => p.params .annualizedFactor
      | .fitnessMeasures => p.params .fitnessMeasures | .compounded => p.params .compounded
      | .minAcceptableReturn => p.params .minAcceptableReturn | .valueAtRiskBeta => p.params .valueAtRiskBeta
      | .entropicTheta => p.params .entropicTheta | .entropicBeta => p.params .entropicBeta
      | .cvarBeta => p.params .cvarBeta | .evarBeta => p.params .evarBeta
      | .drawdownAtRiskBeta => p.params .drawdownAtRiskBeta | .cdarBeta => p.params .cdarBeta
      | .edarBeta => p.params .edarBeta) } := rfl
  rw [this, hP]
  rfl

/-- C99: a portfolio built by the constructor from any accepted arguments — or by one of the arithmetic operators, which
build through the constructor — whose name, tag and measure parameters may have been assigned since, is reloaded as the same
portfolio: same data, weights, previous weights, costs, fees, parameters, name, tag and returns. -/
theorem C99_portfolio (a : Arith.Args K (Other → V)) (p : Arith.Ptf K (Other → V)) (h : Arith.construct a = .ok p)
    (params : Other → V) (name tag : String) :
    reload { p with params := params, name := name, tag := tag } =
      .ok { p with params := params, name := name, tag := tag } := by
  rw [reload_eq]
  simp only [Arith.construct] at h
  split at h
  · rename_i hc
    simp only [Arith.finish] at h
    split at h
    · cases h
    · rename_i rets hr
      simp only [Except.ok.injEq] at h
      subst h
      simp only [Arith.construct, Arith.Ptf.args, Option.getD_some]
      refine (if_pos hc).trans ?_
      simp only [Arith.finish, hr]
  · cases h

end portfolio

/-! ### Measures -/

section measures

variable {V : Type}

/-- C99: after any history of constructions, reads, parameter assignments, deletions, clears and copies, every measure, the
fitness, the cumulative returns and the drawdowns read from the reloaded object are those read from the original, although
the cached values are not stored. -/
theorem C99_measures (L : Lib V) (ops : List (Op V)) (hops : ∀ op ∈ ops, op.Proper) :
    ∀ s ∈ run L ops,
      (∀ m, ∃ v s' t', readMeasure L s m = .ok (v, s') ∧ readMeasure L (reloadState s) m = .ok (v, t')) ∧
      (∃ v s' t', readFitness L s = .ok (v, s') ∧ readFitness L (reloadState s) = .ok (v, t')) ∧
      (readCumulative L (reloadState s)).1 = (readCumulative L s).1 ∧
      (readDrawdowns L (reloadState s)).1 = (readDrawdowns L s).1 ∧
      (reloadState s).params = s.params ∧ (reloadState s).fitnessMeasures = s.fitnessMeasures := by
  intro s hs
  obtain ⟨h1, ⟨sf, h2⟩, h3, h4⟩ := C25_never_stale L ops hops s hs
  have hf : Fresh L (reloadState s) := by
    intro k v hk
    simp [reloadState, construct] at hk
  refine ⟨fun m => ?_, ?_, ?_, ?_, rfl, rfl⟩
  · obtain ⟨s', hm⟩ := h1 m
    obtain ⟨t', ht, -⟩ := readMeasure_spec hf m
    exact ⟨_, s', t', hm, ht⟩
  · obtain ⟨t', ht, -⟩ := readFitness_spec hf
    exact ⟨_, sf, t', h2, ht⟩
  · rw [h3]; exact (readCumulative_spec hf).1
  · rw [h4]; exact (readDrawdowns_spec hf).1

end measures

/-! ### `MultiPeriodPortfolio` -/

section multi

open Multi

variable {D R : Type} [LinearOrder D]

theorem chain_of_ordered {ps : List (Multi.Ptf D R)} (h : Ordered (ps.map Item.ptf)) : List.IsChain Before ps := by
  rw [List.isChain_iff_getElem]
  intro i hi
  exact h i _ _ (by rw [List.getElem?_map, List.getElem?_eq_getElem (by omega)]; rfl)
    (by rw [List.getElem?_map, List.getElem?_eq_getElem hi]; rfl)

/-- C99: a multi-period portfolio that is the concatenation of its portfolios (see `C26_concatenation_partial`) can be
reloaded exactly when it does not check the order or its periods are strictly ordered.  The reloaded object then has the same
portfolios, observations and returns, in a list no other object holds.  Otherwise reloading raises. -/
theorem C99_multi (w : World D R) (o : Mpp D R) (h : Concatenated (w.items o) o) :
    ((o.check = true → Ordered (w.items o)) →
      ∃ o', (reloadMulti w o).2 = .ok o' ∧ (reloadMulti w o).1.items o' = w.items o ∧ o'.obs = o.obs ∧ o'.rets = o.rets ∧
        o'.check = o.check ∧ w.heap.length ≤ o'.ref) ∧
    (¬ (o.check = true → Ordered (w.items o)) → ∃ e, (reloadMulti w o).2 = .error e) := by
  obtain ⟨ps, hps, hobs, hrets⟩ := h
  have hitems : w.heap.getD o.ref [] = ps.map Item.ptf := hps
  have hget : (w.alloc (ps.map Item.ptf)).heap.getD w.heap.length [] = ps.map Item.ptf := by
    simp [World.alloc]
  have hbase : reloadMulti w o = (w.alloc (ps.map Item.ptf),
      Multi.setPortfolios (w.alloc (ps.map Item.ptf)).heap ⟨w.heap.length, [], [], o.check⟩ w.heap.length) := by
    simp only [reloadMulti, hitems]
  have key : ∀ o', (reloadMulti w o).2 = .ok o' → (reloadMulti w o).1.items o' = w.items o ∧ o'.obs = o.obs ∧
      o'.rets = o.rets ∧ o'.check = o.check ∧ w.heap.length ≤ o'.ref ∧ (o.check = true → Ordered (w.items o)) := by
    intro o' ho'
    rw [hbase] at ho' ⊢
    obtain ⟨h1, h2, ⟨qs, hq, ho, hr⟩, h4⟩ := setPortfolios_ok ho'
    rw [hget] at hq h4
    have hqp : ps = qs := List.map_injective_iff.mpr (fun a b e => by simpa using e) hq
    subst hqp
    refine ⟨?_, ho.trans hobs.symm, hr.trans hrets.symm, h2, h1.ge, ?_⟩
    · rw [hps]; simp only [World.items, h1]; exact hget
    · rw [hps]; exact h4
  constructor
  · intro hord
    have hs : ∃ o', (reloadMulti w o).2 = .ok o' := by
      rw [hbase]
      unfold Multi.setPortfolios
      simp only [hget, portfoliosOf_map]
      cases ps with
      | nil => exact ⟨_, rfl⟩
      | cons p ps =>
        simp only
        cases hc : o.check with
        | false => exact ⟨_, rfl⟩
        | true =>
          have hch := hord hc
          rw [hps] at hch
          simp only [if_true, checkOrder_chain (chain_of_ordered hch)]
          exact ⟨_, rfl⟩
    obtain ⟨o', ho'⟩ := hs
    obtain ⟨a, b, c, d, e, -⟩ := key o' ho'
    exact ⟨o', ho', a, b, c, d, e⟩
  · intro hord
    cases hr : (reloadMulti w o).2 with
    | error e => exact ⟨e, rfl⟩
    | ok o' => exact absurd (key o' hr).2.2.2.2.2 hord

/-- C99: in particular, after any history without shared lists, every multi-period portfolio that does not check the order is
reloaded as it was. -/
theorem C99_multi_history (ops : List (Multi.Op D R)) (hops : ∀ op ∈ ops, op.Private) (o : Mpp D R)
    (ho : o ∈ (Multi.run ops).objs) (hc : o.check = false) :
    ∃ o', (reloadMulti (Multi.run ops) o).2 = .ok o' ∧
      (reloadMulti (Multi.run ops) o).1.items o' = (Multi.run ops).items o ∧ o'.obs = o.obs ∧ o'.rets = o.rets := by
  obtain ⟨o', h1, h2, h3, h4, -⟩ := (C99_multi (Multi.run ops) o (C26_concatenation_partial ops hops o ho)).1 (by simp [hc])
  exact ⟨o', h1, h2, h3, h4⟩

end multi

/-! ### Instances and findings -/

/-- Two assets, three days. -/
def panel : Arith.Panel ℚ := ⟨2, [[some (1/10), some (-1/20)], [some 0, some (1/5)], [some (1/4), some 0]], by simp⟩

/-- The array after the caller has overwritten one entry. -/
def panel' : Arith.Panel ℚ := ⟨2, [[some (1/2), some (-1/20)], [some 0, some (1/5)], [some (1/4), some 0]], by simp⟩

/-- A portfolio with costs. -/
def args : Arith.Args ℚ (Other → ℤ) :=
  { X := panel, weights := [3/4, 1/4], previousWeights := none, transactionCosts := some (.scalar (1/100)),
    managementFees := some (.vector [0, 1/50]), params := fun _ => 7, name := "ptf", tag := "" }

/-- The hypothesis of `C99_portfolio` holds for it. -/
example : ((Arith.construct args).toOption.map fun p => p.returns) = some [19/400, 7/200, 69/400] := by decide +kernel

/-- C99, finding: the portfolio keeps the caller's array and not a copy.  When the caller overwrites an entry after the
portfolio was built, the portfolio keeps its returns but the reloaded portfolio has others. -/
theorem C99_overwritten_data_false :
    ∃ p, Arith.construct args = .ok p ∧ (reload (callerChangesX p panel')).toOption.map (·.returns) ≠ some p.returns := by
  have h : ∃ p, (Arith.construct args).toOption = some p ∧
      (reload (callerChangesX p panel')).toOption.map (·.returns) ≠ some p.returns := by
    have hs : (Arith.construct args).toOption.isSome := by decide +kernel
    obtain ⟨p, hp⟩ := Option.isSome_iff_exists.mp hs
    refine ⟨p, hp, ?_⟩
    have : ((Arith.construct args).toOption.map fun p =>
        decide ((reload (callerChangesX p panel')).toOption.map (·.returns) ≠ some p.returns)) = some true := by
      decide +kernel
    rw [hp] at this
    simpa using this
  obtain ⟨p, hp, hne⟩ := h
  refine ⟨p, ?_, hne⟩
  cases hc : Arith.construct args with
  | error e => rw [hc] at hp; cases hp
  | ok q => rw [hc] at hp; simp only [Except.toOption, Option.some.injEq] at hp; rw [hp]

/-- C99, finding: a measure the user assigned (which the object accepts and then returns, `C25_assigned_measure_is_kept`) is
lost by reloading. -/
theorem C99_assigned_measure_lost {V : Type} (L : Lib V) (P : Param → V) (m : Measure) (v : V)
    (hv : v ≠ value L P m) :
    let s := (construct P none).store (.measure m) v
    (∃ s', readMeasure L s m = .ok (v, s')) ∧
      ∃ t', readMeasure L (reloadState s) m = .ok (value L P m, t') ∧ value L P m ≠ v := by
  intro s
  constructor
  · refine ⟨s, ?_⟩
    cases m <;> simp [s, readMeasure, readBase, State.store]
  · have hf : Fresh L (reloadState s) := by
      intro k v hk
      simp [reloadState, construct] at hk
    obtain ⟨t', ht, -⟩ := readMeasure_spec hf m
    exact ⟨t', ht, hv.symm⟩

/-- C99, finding: `append` accepts a period that starts on the last date of the previous one, the constructor does not
(`C26_append_accepts_equal_date`).  A multi-period portfolio with such a period can be used but not pickled and reloaded, nor
deep-copied: it raises `ValueError`. -/
theorem C99_append_then_reload_false :
    let w := Multi.run [.construct (.fresh [Multi.day 0]) true, .append 0 (Multi.day 1)]
    ∃ o, w.objs[0]? = some o ∧ o.obs = [0, 1, 1, 2] ∧ (reloadMulti w o).2.toOption = none := by
  exact ⟨⟨0, [0, 1, 1, 2], [0, -1, 1, -1], true⟩, by decide, rfl, by decide⟩

/-- Reloading is possible in a non-trivial case, with the order checked. -/
example : (reloadMulti (Multi.run [.construct (.fresh [Multi.day 0]) true, .append 0 (Multi.day 2)])
    ⟨0, [0, 1, 2, 3], [0, -1, 2, -1], true⟩).2.toOption = some ⟨1, [0, 1, 2, 3], [0, -1, 2, -1], true⟩ := by decide

end Skfolio.Portfolio.Pickle
