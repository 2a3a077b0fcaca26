import Verif.Convex.Diversification
import Verif.Convex.RiskBudgetingModel
import Verif.Naive.Model
import Mathlib.Data.List.Forall2
import Mathlib.Tactic.Linarith
import Mathlib.Tactic.Ring
import Mathlib.Tactic.FinCases
import Mathlib.Tactic.FieldSimp
import Mathlib.Tactic.Positivity
import Mathlib.Data.Fin.VecNotation

/-!
C108: the order of the assets does not matter. If the columns of the data are permuted, together with the parameters that have one entry per asset, then the optimal
solutions of `MeanRisk` are the permuted ones, for every objective, risk measure and set of limits, and so are the weights of the naive optimisers.
-/
set_option autoImplicit false

namespace Skfolio.Convex

section
variable {n T : Nat}

/-! ### Specification: the same problem with the assets in another order -/

/-- The data with asset `s i` in column `i`. -/
def relabelData (s : Equiv.Perm (Fin n)) (d : Data ℝ n T) : Data ℝ n T where
  returns := fun t i => d.returns t (s i)
  mu := fun i => d.mu (s i)
  previousWeights := fun i => d.previousWeights (s i)
  transactionCosts := fun i => d.transactionCosts (s i)
  managementFees := fun i => d.managementFees (s i)
  riskFreeRate := d.riskFreeRate

/-- A value per asset. -/
def relabelOpt {A : Type} (s : Equiv.Perm (Fin n)) (v : Option (Fin n → A)) : Option (Fin n → A) := v.map fun f i => f (s i)

/-- Rows with one coefficient per asset. -/
def relabelRows {A B : Type} (s : Equiv.Perm (Fin n)) (rows : List ((Fin n → A) × B)) : List ((Fin n → A) × B) := rows.map fun r => (fun i => r.1 (s i), r.2)

/-- The limits on the weights. -/
def relabelParams (s : Equiv.Perm (Fin n)) (p : Params ℝ n) : Params ℝ n :=
  { p with
    minWeights := relabelOpt s p.minWeights
    maxWeights := relabelOpt s p.maxWeights
    groupCardinalities := p.groupCardinalities.map (relabelRows s)
    thresholdLong := relabelOpt s p.thresholdLong
    thresholdShort := relabelOpt s p.thresholdShort
    eqRows := relabelRows s p.eqRows
    ineqRows := relabelRows s p.ineqRows
    inequality := p.inequality.map (relabelRows s) }

/-- The minimum acceptable return. -/
def relabelMar (s : Equiv.Perm (Fin n)) : Mar ℝ n → Mar ℝ n
  | .default => .default
  | .scalar c => .scalar c
  | .vector v => .vector fun i => v (s i)

/-- The problem `m'` is the problem `m` with the assets in another order. The factors of the covariance and of the shape of the uncertainty set are computed anew from the permuted
matrices: only the matrices correspond. -/
structure Relabelled (s : Equiv.Perm (Fin n)) (m m' : MeanRisk n T) : Prop where
  data : m'.data = relabelData s m.data
  covariance : ∀ i j, covarianceOf m' i j = covarianceOf m (s i) (s j)
  weights : m'.weights = relabelParams s m.weights
  mar : m'.minAcceptableReturn = relabelMar s m.minAcceptableReturn
  uncertainty : (m.uncertainty = none ∧ m'.uncertainty = none) ∨
    ∃ kappa R R', m.uncertainty = some (kappa, R) ∧ m'.uncertainty = some (kappa, R') ∧ ∀ i j, ∑ l, R' l i * R' l j = ∑ l, R l (s i) * R l (s j)
  overwrite : m'.overwrite = relabelOpt s m.overwrite
  objective : m'.objective = m.objective
  riskMeasure : m'.riskMeasure = m.riskMeasure
  betas : m'.cvarBeta = m.cvarBeta ∧ m'.evarBeta = m.evarBeta ∧ m'.cdarBeta = m.cdarBeta ∧ m'.edarBeta = m.edarBeta
  coefficients : m'.riskAversion = m.riskAversion ∧ m'.l1Coef = m.l1Coef ∧ m'.l2Coef = m.l2Coef
  tracking : m'.maxTrackingError = m.maxTrackingError ∧ m'.benchmark = m.benchmark
  turnover : m'.maxTurnover = m.maxTurnover
  minReturns : m'.minReturns = m.minReturns
  riskLimits : m'.riskLimits = m.riskLimits
  scales : m'.scale = m.scale ∧ m'.scaleObjective = m.scaleObjective

/-- The weights in the new order. -/
def relabelWeights (s : Equiv.Perm (Fin n)) (w : Fin n → ℝ) : Fin n → ℝ := fun i => w (s i)

/-! ### The data -/

section
variable (s : Equiv.Perm (Fin n))

theorem ptfReturns_relabel (d : Data ℝ n T) (w : Fin n → ℝ) : ptfReturns (relabelData s d) (relabelWeights s w) = ptfReturns d w := by
  funext t
  exact Equiv.sum_comp s fun i => d.returns t i * w i

theorem transactionCost_relabel (d : Data ℝ n T) (w : Fin n → ℝ) (k : ℝ) : transactionCost (relabelData s d) (relabelWeights s w) k = transactionCost d w k :=
  Equiv.sum_comp s fun i => |d.transactionCosts i * (d.previousWeights i * k - w i)|

theorem managementFee_relabel (d : Data ℝ n T) (w : Fin n → ℝ) : managementFee (relabelData s d) (relabelWeights s w) = managementFee d w :=
  Equiv.sum_comp s fun i => d.managementFees i * w i

theorem marOf_relabel (d : Data ℝ n T) (m : Mar ℝ n) (i : Fin n) : marOf (relabelData s d) (relabelMar s m) i = marOf d m (s i) := by
  cases m <;> rfl

theorem ptfMar_relabel (d : Data ℝ n T) (w : Fin n → ℝ) (m : Mar ℝ n) : ptfMar (relabelData s d) (relabelWeights s w) (relabelMar s m) = ptfMar d w m := by
  funext t
  unfold ptfMar
  rw [← Equiv.sum_comp s fun i => (d.returns t i - marOf d m i) * w i]
  exact Finset.sum_congr rfl fun i _ => by rw [marOf_relabel]; rfl

theorem drawdown_relabel (d : Data ℝ n T) (w : Fin n → ℝ) (k c : ℝ) :
    drawdownFeasible (relabelData s d) (relabelWeights s w) k c = drawdownFeasible d w k c := by
  funext v
  unfold drawdownFeasible
  rw [ptfReturns_relabel, transactionCost_relabel, managementFee_relabel]

/-- The quadratic form of a factorised matrix. -/
theorem norm_relabel (R R' : Fin n → Fin n → ℝ) (h : ∀ i j, ∑ l, R' l i * R' l j = ∑ l, R l (s i) * R l (s j)) (w : Fin n → ℝ) :
    ∑ l, (∑ i, R' l i * relabelWeights s w i) ^ 2 = ∑ l, (∑ i, R l i * w i) ^ 2 := by
  have key : ∀ (Q : Fin n → Fin n → ℝ) (v : Fin n → ℝ), ∑ l, (∑ i, Q l i * v i) ^ 2 = ∑ i, ∑ j, v i * v j * ∑ l, Q l i * Q l j := by
    intro Q v
    have h1 : ∀ l, (∑ i, Q l i * v i) ^ 2 = ∑ i, ∑ j, v i * v j * (Q l i * Q l j) := by
      intro l
      rw [sq, Finset.sum_mul_sum]
      exact Finset.sum_congr rfl fun i _ => Finset.sum_congr rfl fun j _ => by ring
    simp only [h1]
    rw [Finset.sum_comm]
    refine Finset.sum_congr rfl fun i _ => ?_
    rw [Finset.sum_comm]
    exact Finset.sum_congr rfl fun j _ => by rw [Finset.mul_sum]
  rw [key, key, ← Equiv.sum_comp s fun i => ∑ j, w i * w j * ∑ l, R l i * R l j]
  refine Finset.sum_congr rfl fun i _ => ?_
  rw [← Equiv.sum_comp s fun j => w (s i) * w j * ∑ l, R l (s i) * R l j]
  exact Finset.sum_congr rfl fun j _ => by rw [h]; rfl

theorem norm_scale_relabel (z z' : Fin n → Fin n → ℝ) (h : ∀ i j, ∑ l, z' i l * z' j l = ∑ l, z (s i) l * z (s j) l) (w : Fin n → ℝ) (c : ℝ) :
    ∑ j, ((∑ i, z' i j * relabelWeights s w i) * c) ^ 2 = ∑ j, ((∑ i, z i j * w i) * c) ^ 2 := by
  have h1 := norm_relabel s (fun l i => z i l) (fun l i => z' i l) h w
  have h2 : ∀ (z : Fin n → Fin n → ℝ) (w : Fin n → ℝ), ∑ j, ((∑ i, z i j * w i) * c) ^ 2 = (∑ j, (∑ i, z i j * w i) ^ 2) * c ^ 2 := by
    intro z w
    rw [Finset.sum_mul]
    exact Finset.sum_congr rfl fun j _ => by rw [mul_pow]
  rw [h2, h2, h1]

end

/-! ### The weight constraints -/

/-- The constraint `c'` on weights in the new order says what `c` says on weights in the old order. -/
def SameConstraint (s : Equiv.Perm (Fin n)) (c' c : Constraint ℝ n) : Prop := ∀ w k, c' (relabelWeights s w) k ↔ c w k

/-- The same list of constraints up to the order of the assets, or the same refusal. -/
def SameOutcome (s : Equiv.Perm (Fin n)) (a b : Except Err (List (Constraint ℝ n))) : Prop :=
  match a, b with
  | .ok x, .ok y => List.Forall₂ (SameConstraint s) x y
  | .error e, .error e' => e = e'
  | _, _ => False

section
variable (s : Equiv.Perm (Fin n))

theorem SameOutcome.bind {a b : Except Err (List (Constraint ℝ n))} (h : SameOutcome s a b) {f g : List (Constraint ℝ n) → Except Err (List (Constraint ℝ n))}
    (hf : ∀ x y, List.Forall₂ (SameConstraint s) x y → SameOutcome s (f x) (g y)) : SameOutcome s (a >>= f) (b >>= g) := by
  cases a with
  | error e =>
    cases b with
    | error e' => exact h
    | ok y => exact h.elim
  | ok x =>
    cases b with
    | error e' => exact h.elim
    | ok y => exact hf x y h

theorem SameOutcome.ok {x y : List (Constraint ℝ n)} (h : List.Forall₂ (SameConstraint s) x y) : SameOutcome s (.ok x) (.ok y) := h

theorem forall₂_one {c c' : Constraint ℝ n} (h : SameConstraint s c' c) : List.Forall₂ (SameConstraint s) [c'] [c] := .cons h .nil

theorem append_same {x y x' y' : List (Constraint ℝ n)} (h : List.Forall₂ (SameConstraint s) x y) (h' : List.Forall₂ (SameConstraint s) x' y') :
    List.Forall₂ (SameConstraint s) (x ++ x') (y ++ y') := List.rel_append h h'

theorem exists_relabel (q : Fin n → Prop) : (∃ i, q (s i)) ↔ ∃ i, q i :=
  ⟨fun ⟨i, h⟩ => ⟨s i, h⟩, fun ⟨i, h⟩ => ⟨s.symm i, by rwa [Equiv.apply_symm_apply]⟩⟩

theorem forall_relabel (q : Fin n → Prop) : (∀ i, q (s i)) ↔ ∀ i, q i :=
  ⟨fun h i => by have := h (s.symm i); rwa [Equiv.apply_symm_apply] at this, fun h i => h _⟩

theorem sum_relabel (f : Fin n → ℝ) : ∑ i, f (s i) = ∑ i, f i := Equiv.sum_comp s f

theorem min_same (p : Params ℝ n) (an : Bool) (c : ℝ) : SameOutcome s (minConstraint (relabelParams s p) an c) (minConstraint p an c) := by
  unfold minConstraint relabelParams
  cases hm : p.minWeights with
  | none => exact SameOutcome.ok s .nil
  | some m =>
    simp only [relabelOpt, Option.map_some]
    have he : (∃ i, m (s i) < 0) ↔ ∃ i, m i < 0 := exists_relabel s fun i => m i < 0
    by_cases h : (!an && decide (∃ i, m i < 0)) = true
    · have h' : (!an && decide (∃ i, m (s i) < 0)) = true := by simpa only [he] using h
      rw [if_pos h, if_pos h']
      rfl
    · have h' : ¬ (!an && decide (∃ i, m (s i) < 0)) = true := by simpa only [he] using h
      rw [if_neg h, if_neg h']
      exact SameOutcome.ok s (forall₂_one s fun w k => forall_relabel s fun i => w i * c ≥ m i * k * c)

theorem max_same (p : Params ℝ n) (c : ℝ) : List.Forall₂ (SameConstraint s) (maxConstraint (relabelParams s p) c) (maxConstraint p c) := by
  unfold maxConstraint relabelParams
  cases hm : p.maxWeights with
  | none => exact .nil
  | some m => exact forall₂_one s fun w k => forall_relabel s fun i => w i * c ≤ m i * k * c

theorem long_same (p : Params ℝ n) (c : ℝ) : SameOutcome s (longConstraint (relabelParams s p) c) (longConstraint p c) := by
  unfold longConstraint relabelParams
  cases p.maxLong with
  | none => exact SameOutcome.ok s .nil
  | some m =>
    simp only
    split
    · rfl
    · refine SameOutcome.ok s (forall₂_one s fun w k => ?_)
      rw [show ∑ i, max (relabelWeights s w i) 0 = ∑ i, max (w i) 0 from sum_relabel s fun i => max (w i) 0]

theorem short_same (p : Params ℝ n) (c : ℝ) : SameOutcome s (shortConstraint (relabelParams s p) c) (shortConstraint p c) := by
  unfold shortConstraint relabelParams
  cases p.maxShort with
  | none => exact SameOutcome.ok s .nil
  | some m =>
    simp only
    split
    · rfl
    · refine SameOutcome.ok s (forall₂_one s fun w k => ?_)
      rw [show ∑ i, max (-relabelWeights s w i) 0 = ∑ i, max (-w i) 0 from sum_relabel s fun i => max (-w i) 0]

theorem bounds_same (p : Params ℝ n) (c : ℝ) : List.Forall₂ (SameConstraint s) (budgetBounds (relabelParams s p) c) (budgetBounds p c) := by
  unfold budgetBounds relabelParams
  have hs : ∀ w : Fin n → ℝ, ∑ i, relabelWeights s w i = ∑ i, w i := fun w => sum_relabel s w
  refine append_same s ?_ ?_
  · cases p.minBudget with
    | none => exact .nil
    | some m => exact forall₂_one s fun w k => by rw [hs]
  · cases p.maxBudget with
    | none => exact .nil
    | some m => exact forall₂_one s fun w k => by rw [hs]

theorem budget_same (p : Params ℝ n) (c : ℝ) : SameOutcome s (budgetConstraint (relabelParams s p) c) (budgetConstraint p c) := by
  unfold budgetConstraint relabelParams
  have hs : ∀ w : Fin n → ℝ, ∑ i, relabelWeights s w i = ∑ i, w i := fun w => sum_relabel s w
  cases p.budget with
  | none => exact SameOutcome.ok s .nil
  | some b =>
    simp only
    split
    · rfl
    · split
      · rfl
      · exact SameOutcome.ok s (forall₂_one s fun w k => by rw [hs])

theorem rows_same (rows : List ((Fin n → ℝ) × ℝ)) (w : Fin n → ℝ) (q : ℝ → ℝ → Prop) :
    (∀ row ∈ relabelRows s rows, q (∑ i, row.1 i * relabelWeights s w i) row.2) ↔ ∀ row ∈ rows, q (∑ i, row.1 i * w i) row.2 := by
  unfold relabelRows
  simp only [List.mem_map, forall_exists_index, and_imp, forall_apply_eq_imp_iff₂]
  refine forall_congr' fun row => forall_congr' fun _ => ?_
  rw [show ∑ i, row.1 (s i) * relabelWeights s w i = ∑ i, row.1 i * w i from sum_relabel s fun i => row.1 i * w i]

theorem linear_same (p : Params ℝ n) (c : ℝ) : List.Forall₂ (SameConstraint s) (linearConstraints (relabelParams s p) c) (linearConstraints p c) := by
  unfold linearConstraints
  refine append_same s (.cons (fun w k => ?_) (.cons (fun w k => ?_) .nil)) ?_
  · exact rows_same s p.eqRows w fun x y => x * c - y * k * c = 0
  · exact rows_same s p.ineqRows w fun x y => x * c - y * k * c ≤ 0
  · simp only [relabelParams]
    cases p.inequality with
    | none => exact .nil
    | some rows => exact forall₂_one s fun w k => rows_same s rows w fun x y => x * c - y * k * c ≤ 0

theorem simple_same (p : Params ℝ n) (an : Bool) (c : ℝ) : SameOutcome s (simpleConstraints (relabelParams s p) an c) (simpleConstraints p an c) := by
  unfold simpleConstraints
  refine (min_same s p an c).bind s fun a a' ha => ?_
  refine (long_same s p c).bind s fun b b' hb => ?_
  refine (short_same s p c).bind s fun d d' hd => ?_
  refine (budget_same s p c).bind s fun e e' he => ?_
  exact SameOutcome.ok s (append_same s (append_same s (append_same s (append_same s (append_same s ha (max_same s p c)) hb) hd) (bounds_same s p c)) he)

theorem cardinality_same (p : Params ℝ n) (b : Fin n → ℝ) : cardinalityConstraints (relabelParams s p) (fun i => b (s i)) ↔ cardinalityConstraints p b := by
  unfold cardinalityConstraints
  refine and_congr ?_ ?_
  · rw [show ∑ i, b (s i) = ∑ i, b i from sum_relabel s b]
    rfl
  · simp only [relabelParams]
    cases p.groupCardinalities with
    | none => simp
    | some rows =>
      simp only [Option.map_some, Option.some.injEq, forall_eq', relabelRows, List.mem_map, forall_exists_index, and_imp, forall_apply_eq_imp_iff₂]
      refine forall_congr' fun row => forall_congr' fun _ => ?_
      rw [show ∑ i, ind (row.1 (s i)) * b (s i) = ∑ i, (ind (row.1 i) : ℝ) * b i from sum_relabel s fun i => ind (row.1 i) * b i]

theorem linearised_same (fv : Bool) (k : ℝ) (b : Fin n → Bool) (x : Fin n → ℝ) :
    linearised fv k (fun i => b (s i)) (fun i => x (s i)) ↔ linearised fv k b x := by
  unfold linearised
  cases fv with
  | false => exact forall_relabel s fun i => x i = ind (b i)
  | true =>
    simp only [if_true]
    exact and_congr (forall_relabel s fun i => 0 ≤ x i) (and_congr (forall_relabel s fun i => x i ≤ k)
      (and_congr (forall_relabel s fun i => x i ≤ bigM * ind (b i)) (forall_relabel s fun i => x i ≥ k - bigM * (1 - ind (b i)))))

/-- A quantifier over vectors does not mind the order. -/
theorem exists_vector {A : Type} (q : (Fin n → A) → Prop) : (∃ b, q b) ↔ ∃ b : Fin n → A, q fun i => b (s i) :=
  ⟨fun ⟨b, h⟩ => ⟨fun i => b (s.symm i), by simpa using h⟩, fun ⟨b, h⟩ => ⟨_, h⟩⟩

theorem noShort_same (p : Params ℝ n) (lo hi : Fin n → ℝ) (th : Option (Fin n → ℝ)) (fv : Bool) (c : ℝ) :
    SameConstraint s (mipNoShort (relabelParams s p) (fun i => lo (s i)) (fun i => hi (s i)) (relabelOpt s th) fv c) (mipNoShort p lo hi th fv c) := by
  intro w k
  unfold mipNoShort
  rw [exists_vector s]
  refine exists_congr fun b => ?_
  rw [exists_vector s]
  refine exists_congr fun x => ?_
  refine and_congr (cardinality_same s p fun i => ind (b i)) (and_congr (linearised_same s fv k b x) (and_congr ?_ (and_congr ?_ ?_)))
  · cases th with
    | none => simp [relabelOpt]
    | some t =>
      simp only [relabelOpt, Option.map_some, Option.some.injEq, forall_eq']
      exact forall_relabel s fun i => w i * c ≥ x i * t i * c
  · exact forall_relabel s fun i => w i * c ≤ x i * hi i * c
  · exact imp_congr (exists_relabel s fun i => lo i < 0) (forall_relabel s fun i => w i * c ≥ x i * lo i * c)

theorem short_mip_same (p : Params ℝ n) (lo hi tl ts : Fin n → ℝ) (fv : Bool) (c : ℝ) :
    SameConstraint s (mipShort (relabelParams s p) (fun i => lo (s i)) (fun i => hi (s i)) (fun i => tl (s i)) (fun i => ts (s i)) fv c)
      (mipShort p lo hi tl ts fv c) := by
  intro w k
  unfold mipShort
  rw [exists_vector s]
  refine exists_congr fun bs => ?_
  rw [exists_vector s]
  refine exists_congr fun bl => ?_
  rw [exists_vector s]
  refine exists_congr fun xs => ?_
  rw [exists_vector s]
  refine exists_congr fun xl => ?_
  refine and_congr (cardinality_same s p fun i => ind (bs i) + ind (bl i)) (and_congr (linearised_same s fv k bs xs) (and_congr (linearised_same s fv k bl xl)
    (and_congr ?_ (and_congr ?_ (and_congr ?_ (and_congr ?_ ?_))))))
  · exact forall_relabel s fun i => (ind (bs i) + ind (bl i) : ℝ) ≤ 1
  · exact forall_relabel s fun i => w i * c ≤ xl i * hi i * c
  · exact forall_relabel s fun i => w i * c ≥ xs i * lo i * c
  · exact forall_relabel s fun i => w i * c ≥ xl i * tl i * c - bigM * (1 - ind (bl i)) * c
  · exact forall_relabel s fun i => w i * c ≤ xs i * ts i * c + bigM * (1 - ind (bs i)) * c

theorem effective_same (th : Option (Fin n → ℝ)) : effective (relabelOpt s th) = relabelOpt s (effective th) := by
  cases th with
  | none => rfl
  | some t =>
    simp only [effective, relabelOpt, Option.map_some]
    have he : (∀ i, t (s i) = 0) ↔ ∀ i, t i = 0 := forall_relabel s fun i => t i = 0
    by_cases h : ∀ i, t i = 0
    · rw [if_pos h, if_pos (he.2 h)]
      rfl
    · rw [if_neg h, if_neg fun h' => h (he.1 h')]
      rfl

theorem isSome_relabel {A : Type} (v : Option (Fin n → A)) : (relabelOpt s v).isSome = v.isSome := by
  cases v <;> rfl

theorem isMip_same (p : Params ℝ n) : isMip (relabelParams s p) = isMip p := by
  unfold isMip
  simp only [relabelParams, isSome_relabel]
  cases p.groupCardinalities <;> rfl

theorem mip_same (p : Params ℝ n) (fv : Bool) (c : ℝ) : SameOutcome s (mipConstraint (relabelParams s p) fv c) (mipConstraint p fv c) := by
  have e1 : (relabelParams s p).thresholdLong = relabelOpt s p.thresholdLong := rfl
  have e2 : (relabelParams s p).thresholdShort = relabelOpt s p.thresholdShort := rfl
  have e3 : (relabelParams s p).minWeights = relabelOpt s p.minWeights := rfl
  have e4 : (relabelParams s p).maxWeights = relabelOpt s p.maxWeights := rfl
  unfold mipConstraint
  simp only [e1, e2, e3, e4, isSome_relabel, effective_same]
  cases p.minWeights with
  | none =>
    cases p.maxWeights <;> rfl
  | some lo =>
    cases p.maxWeights with
    | none => rfl
    | some hi =>
      simp only [relabelOpt, Option.map_some]
      have h1 : (∀ i, 0 < lo (s i)) ↔ ∀ i, 0 < lo i := forall_relabel s fun i => 0 < lo i
      have h2 : (∃ i, lo (s i) < 0) ↔ ∃ i, lo i < 0 := exists_relabel s fun i => lo i < 0
      simp only [h1, h2]
      split
      · rfl
      · split
        · rfl
        · split
          · rfl
          · split
            · cases effective p.thresholdLong with
              | none => rfl
              | some tl =>
                cases effective p.thresholdShort with
                | none => rfl
                | some ts => exact SameOutcome.ok s (forall₂_one s (short_mip_same s p lo hi tl ts fv c))
            · exact SameOutcome.ok s (forall₂_one s (noShort_same s p lo hi _ fv c))

/-- **C108.** The weight constraints of the permuted problem say of the permuted weights what those of the problem say of the weights; and the permuted problem is
refused, with the same error, exactly if the problem is. -/
theorem C108_weight_constraints (p : Params ℝ n) (fv an : Bool) (c : ℝ) :
    SameOutcome s (getWeightConstraints (relabelParams s p) fv an c) (getWeightConstraints p fv an c) := by
  unfold getWeightConstraints
  rw [isMip_same]
  have hm : (relabelParams s p).mixedIntegerSolver = p.mixedIntegerSolver := rfl
  rw [hm]
  split
  · rfl
  · refine (simple_same s p an c).bind s fun a a' ha => ?_
    refine SameOutcome.bind s ?_ fun b b' hb => ?_
    · unfold mipPart
      rw [isMip_same]
      split
      · exact mip_same s p fv c
      · exact SameOutcome.ok s .nil
    · exact SameOutcome.ok s (append_same s (append_same s ha hb) (linear_same s p c))

end

/-! ### The whole problem -/

section
variable (s : Equiv.Perm (Fin n)) (m m' : MeanRisk n T) (h : Relabelled s m m')
include h

theorem riskProgram_relabel (r : RiskMeasure) (w : Fin n → ℝ) (k : ℝ) : riskProgram m' r (relabelWeights s w) k = riskProgram m r w k := by
  obtain ⟨c1, c2, c3, c4⟩ := h.betas
  have hsc := h.scales.1
  have hcov : ∀ i j, ∑ l, m'.cholesky i l * m'.cholesky j l = ∑ l, m.cholesky (s i) l * m.cholesky (s j) l := h.covariance
  cases r <;> simp only [riskProgram, h.data, h.mar, c1, c2, c3, c4, hsc]
  · unfold madRisk
    rw [ptfMar_relabel]
  · unfold flpmRisk
    rw [ptfMar_relabel]
    rfl
  · unfold standardDeviationRisk
    rw [norm_scale_relabel s _ _ hcov w _]
  · unfold varianceRisk standardDeviationRisk
    simp only
    rw [norm_scale_relabel s _ _ hcov w _]
  · unfold semiVarianceRisk
    rw [ptfMar_relabel]
  · unfold semiDeviationRisk
    rw [ptfMar_relabel]
  · unfold worstRealizationRisk
    rw [ptfReturns_relabel, transactionCost_relabel, managementFee_relabel]
  · unfold cvarRisk
    rw [ptfReturns_relabel, transactionCost_relabel, managementFee_relabel]
  · unfold evarRisk
    rw [ptfReturns_relabel, managementFee_relabel]
  · unfold maxDrawdownRisk
    rw [drawdown_relabel]
  · unfold averageDrawdownRisk
    rw [drawdown_relabel]
  · unfold cdarRisk
    rw [drawdown_relabel]
  · unfold edarRisk
    rw [drawdown_relabel]
  · unfold ulcerIndexRisk
    rw [drawdown_relabel]
  · unfold giniRisk
    rw [ptfReturns_relabel, transactionCost_relabel, managementFee_relabel]

theorem expectedReturn_relabel (w : Fin n → ℝ) (k : ℝ) : expectedReturn m' (relabelWeights s w) k = expectedReturn m w k := by
  unfold expectedReturn
  rw [h.data, transactionCost_relabel, managementFee_relabel]
  have h1 : ∑ i, returnVector m' i * relabelWeights s w i = ∑ i, returnVector m i * w i := by
    rw [← sum_relabel s fun i => returnVector m i * w i]
    refine Finset.sum_congr rfl fun i _ => ?_
    unfold returnVector
    rw [h.overwrite, h.data]
    cases m.overwrite <;> rfl
  have h2 : muUncertainty m' (relabelWeights s w) = muUncertainty m w := by
    unfold muUncertainty
    rcases h.uncertainty with ⟨e1, e2⟩ | ⟨kappa, R, R', e1, e2, e3⟩
    · rw [e1, e2]
    · rw [e1, e2]
      simp only
      rw [norm_relabel s R R' e3 w]
  rw [h1, h2]

theorem regularization_relabel (w : Fin n → ℝ) : regularization m' (relabelWeights s w) = regularization m w := by
  unfold regularization
  rw [h.coefficients.2.1, h.coefficients.2.2, show ∑ i, |relabelWeights s w i| = ∑ i, |w i| from sum_relabel s fun i => |w i|,
    show ∑ i, relabelWeights s w i ^ 2 = ∑ i, w i ^ 2 from sum_relabel s fun i => w i ^ 2]

theorem ratio_relabel (w : Fin n → ℝ) (k : ℝ) : ratioConstraint m' (relabelWeights s w) k ↔ ratioConstraint m w k := by
  have ha : isAffine m' ↔ isAffine m := by
    unfold isAffine
    rw [h.data]
    refine and_congr (forall_relabel s fun i => m.data.transactionCosts i = 0) ?_
    rcases h.uncertainty with ⟨e1, e2⟩ | ⟨kappa, R, R', e1, e2, -⟩ <;> simp [e1, e2]
  have hh : homogenizationFactor m'.data.mu = homogenizationFactor m.data.mu := by
    unfold homogenizationFactor
    rw [h.data]
    simp only [relabelData]
    rw [sum_relabel s fun i => |m.data.mu i|]
  have hr : m'.data.riskFreeRate = m.data.riskFreeRate := by rw [h.data]; rfl
  unfold ratioConstraint
  rw [h.objective, expectedReturn_relabel s m m' h, h.scales.1, hh, hr, ha]

omit h in
/-- The auxiliary variables of equal programs correspond. -/
theorem aux_transport {p q : Program ℝ} (e : p = q) (a : q.Aux) : ∃ b : p.Aux, (p.feasible b ↔ q.feasible a) ∧ p.risk b = q.risk a := by
  subst e
  exact ⟨a, Iff.rfl, rfl⟩

theorem feasible_relabel (cs cs' : List (Constraint ℝ n)) (hcs : List.Forall₂ (SameConstraint s) cs' cs) (w : Fin n → ℝ) (k : ℝ)
    (a : (riskProgram m m.riskMeasure w k).Aux) (b : (riskProgram m' m'.riskMeasure (relabelWeights s w) k).Aux)
    (hab : (riskProgram m' m'.riskMeasure (relabelWeights s w) k).feasible b ↔ (riskProgram m m.riskMeasure w k).feasible a) :
    Feasible m' cs' (relabelWeights s w) k b ↔ Feasible m cs w k a := by
  have hf : factorConstraint m' k ↔ factorConstraint m k := by unfold factorConstraint; rw [h.objective]
  have ht : trackingConstraint m' (relabelWeights s w) k ↔ trackingConstraint m w k := by
    unfold trackingConstraint trackingError
    rw [h.tracking.1, h.tracking.2, h.scales.1, h.data, ptfReturns_relabel]
  have hu : turnoverConstraint m' (relabelWeights s w) k ↔ turnoverConstraint m w k := by
    unfold turnoverConstraint
    rw [h.turnover, h.scales.1, h.data]
    exact forall_congr' fun x => forall_congr' fun _ => forall_relabel s fun i => |w i - m.data.previousWeights i * k| * m.scale ≤ x * k * m.scale
  have hw : (∀ c ∈ cs', c (relabelWeights s w) k) ↔ ∀ c ∈ cs, c w k := by
    clear hab
    induction hcs with
    | nil => simp
    | cons h1 _ ih => simp only [List.mem_cons, forall_eq_or_imp, h1 w k, ih]
  have hret : returnConstraint m' (relabelWeights s w) k ↔ returnConstraint m w k := by
    unfold returnConstraint
    rw [h.minReturns, expectedReturn_relabel s m m' h, h.scales.1]
  have hrisk : riskConstraint m' (relabelWeights s w) k ↔ riskConstraint m w k := by
    unfold riskConstraint
    rw [h.riskLimits, h.scales.1]
    refine forall_congr' fun r => forall_congr' fun x => forall_congr' fun _ => ?_
    rw [riskProgram_relabel s m m' h r w k]
  have hratio := ratio_relabel s m m' h w k
  constructor
  · rintro ⟨h1, h2, h3, h4, h5, h6, h7, h8⟩
    exact ⟨hf.1 h1, ht.1 h2, hu.1 h3, hw.1 h4, hret.1 h5, hrisk.1 h6, hab.1 h7, hratio.1 h8⟩
  · rintro ⟨h1, h2, h3, h4, h5, h6, h7, h8⟩
    exact ⟨hf.2 h1, ht.2 h2, hu.2 h3, hw.2 h4, hret.2 h5, hrisk.2 h6, hab.2 h7, hratio.2 h8⟩

theorem objective_relabel (w : Fin n → ℝ) (k : ℝ) (a : (riskProgram m m.riskMeasure w k).Aux) (b : (riskProgram m' m'.riskMeasure (relabelWeights s w) k).Aux)
    (hab : (riskProgram m' m'.riskMeasure (relabelWeights s w) k).risk b = (riskProgram m m.riskMeasure w k).risk a) :
    objectiveValue m' (relabelWeights s w) k b = objectiveValue m w k a := by
  unfold objectiveValue
  rw [h.objective, hab, expectedReturn_relabel s m m' h, regularization_relabel s m m' h, h.scales.2, h.coefficients.1]

/-- **C108.** The optimal solutions of the permuted problem are the permuted optimal solutions of the problem, for every objective, risk measure and limits; the
scale `k` is the same, and so the returned weights are the permuted ones. -/
theorem C108_mean_risk (cs cs' : List (Constraint ℝ n)) (hcs : getWeightConstraints m.weights (factorIsVariable m) true m.scale = .ok cs)
    (hcs' : getWeightConstraints m'.weights (factorIsVariable m') true m'.scale = .ok cs') (w : Fin n → ℝ) (k : ℝ) :
    ((∃ b, IsOptimum m' cs' (relabelWeights s w) k b) ↔ ∃ a, IsOptimum m cs w k a) ∧
    returnedWeights (relabelWeights s w) k = relabelWeights s (returnedWeights w k) := by
  refine ⟨?_, rfl⟩
  have hc : List.Forall₂ (SameConstraint s) cs' cs := by
    have := C108_weight_constraints s m.weights (factorIsVariable m) true m.scale
    rw [← h.weights] at this
    have e : factorIsVariable m' = factorIsVariable m := by unfold factorIsVariable; rw [h.objective]
    rw [hcs] at this
    rw [e, h.scales.1] at hcs'
    rw [hcs'] at this
    exact this
  have hp : ∀ w k, riskProgram m' m'.riskMeasure (relabelWeights s w) k = riskProgram m m.riskMeasure w k := by
    intro w k
    rw [h.riskMeasure]
    exact riskProgram_relabel s m m' h _ w k
  have hsurj : ∀ w' : Fin n → ℝ, ∃ w, w' = relabelWeights s w := fun w' => ⟨fun i => w' (s.symm i), by funext i; simp [relabelWeights]⟩
  constructor
  · rintro ⟨b, hb, hmin⟩
    obtain ⟨a, ha1, ha2⟩ := aux_transport (hp w k).symm b
    refine ⟨a, (feasible_relabel s m m' h cs cs' hc w k a b ha1.symm).1 hb, fun w1 k1 a1 h1 => ?_⟩
    obtain ⟨b1, hb1, hb2⟩ := aux_transport (hp w1 k1) a1
    have := hmin _ k1 b1 ((feasible_relabel s m m' h cs cs' hc w1 k1 a1 b1 hb1).2 h1)
    rwa [objective_relabel s m m' h w k a b ha2.symm, objective_relabel s m m' h w1 k1 a1 b1 hb2] at this
  · rintro ⟨a, ha, hmin⟩
    obtain ⟨b, hb1, hb2⟩ := aux_transport (hp w k) a
    refine ⟨b, (feasible_relabel s m m' h cs cs' hc w k a b hb1).2 ha, fun w' k1 b1 h1 => ?_⟩
    obtain ⟨w1, rfl⟩ := hsurj w'
    obtain ⟨a1, ha1, ha2⟩ := aux_transport (hp w1 k1).symm b1
    have := hmin w1 k1 a1 ((feasible_relabel s m m' h cs cs' hc w1 k1 a1 b1 ha1.symm).1 h1)
    rwa [objective_relabel s m m' h w k a b hb2, objective_relabel s m m' h w1 k1 a1 b1 ha2.symm]

/-- **C108.** The permuted problem is refused, with the same error, exactly if the problem is. -/
theorem C108_refused (e : Err) : getWeightConstraints m'.weights (factorIsVariable m') true m'.scale = .error e ↔
    getWeightConstraints m.weights (factorIsVariable m) true m.scale = .error e := by
  have hv : factorIsVariable m' = factorIsVariable m := by unfold factorIsVariable; rw [h.objective]
  have := C108_weight_constraints s m.weights (factorIsVariable m) true m.scale
  rw [← h.weights, ← h.scales.1, ← hv] at this
  have e1 : getWeightConstraints m.weights (factorIsVariable m) true m.scale = getWeightConstraints m.weights (factorIsVariable m') true m'.scale := by
    rw [hv, h.scales.1]
  rw [e1]
  generalize getWeightConstraints m'.weights (factorIsVariable m') true m'.scale = x at this ⊢
  generalize getWeightConstraints m.weights (factorIsVariable m') true m'.scale = y at this ⊢
  cases x with
  | ok x =>
    cases y with
    | ok y => simp
    | error e' => exact this.elim
  | error e' =>
    cases y with
    | ok y => exact this.elim
    | error e'' =>
      have : e' = e'' := this
      rw [this]

end

/-- **C108.** The same for `MaximumDiversification`: it is a problem of `MeanRisk`, and that of the permuted assets is the permuted one. -/
theorem C108_maximum_diversification (s : Equiv.Perm (Fin n)) (m m' : MeanRisk n T) (h : Relabelled s m m') (cov : Fin n → Fin n → ℝ) (cs cs' : List (Constraint ℝ n))
    (hcs : getWeightConstraints (maximumDiversification cov m).weights true true m.scale = .ok cs)
    (hcs' : getWeightConstraints (maximumDiversification (fun i j => cov (s i) (s j)) m').weights true true m'.scale = .ok cs') (w : Fin n → ℝ) (k : ℝ) :
    (∃ b, IsOptimum (maximumDiversification (fun i j => cov (s i) (s j)) m') cs' (relabelWeights s w) k b) ↔ ∃ a, IsOptimum (maximumDiversification cov m) cs w k a := by
  refine (C108_mean_risk s (maximumDiversification cov m) (maximumDiversification (fun i j => cov (s i) (s j)) m') ?_ cs cs' hcs hcs' w k).1
  exact {
    data := h.data
    covariance := h.covariance
    weights := by
      simp only [maximumDiversification, h.weights, relabelParams]
      rfl
    mar := h.mar
    uncertainty := Or.inl ⟨rfl, rfl⟩
    overwrite := rfl
    objective := rfl
    riskMeasure := rfl
    betas := h.betas
    coefficients := h.coefficients
    tracking := h.tracking
    turnover := h.turnover
    minReturns := h.minReturns
    riskLimits := rfl
    scales := h.scales }

/-- **C108.** The same for `RiskBudgeting`, the budgets being permuted with the assets. -/
theorem C108_risk_budgeting (s : Equiv.Perm (Fin n)) (m m' : RiskBudgeting n T) (h : Relabelled s m.base m'.base) (hb : m'.budget = relabelOpt s m.budget)
    (hr : m'.minReturn = m.minReturn) (cs cs' : List (Constraint ℝ n)) (hcs : getWeightConstraints m.base.weights true false m.base.scale = .ok cs)
    (hcs' : getWeightConstraints m'.base.weights true false m'.base.scale = .ok cs') (w : Fin n → ℝ) (k c : ℝ) :
    (∃ b, BudgetOptimum m' cs' (relabelWeights s w) k c b) ↔ ∃ a, BudgetOptimum m cs w k c a := by
  have hc : List.Forall₂ (SameConstraint s) cs' cs := by
    have := C108_weight_constraints s m.base.weights true false m.base.scale
    rw [← h.weights, hcs] at this
    rw [h.scales.1] at hcs'
    rw [hcs'] at this
    exact this
  have hp : ∀ w k, riskProgram m'.base m'.base.riskMeasure (relabelWeights s w) (riskFactor m'.base.riskMeasure k) =
      riskProgram m.base m.base.riskMeasure w (riskFactor m.base.riskMeasure k) := by
    intro w k
    rw [h.riskMeasure]
    exact riskProgram_relabel s m.base m'.base h _ w _
  have hsurj : ∀ w' : Fin n → ℝ, ∃ w, w' = relabelWeights s w := fun w' => ⟨fun i => w' (s.symm i), by funext i; simp [relabelWeights]⟩
  have hbud : ∀ i, riskBudget m' i = riskBudget m (s i) := by
    intro i
    unfold riskBudget
    rw [hb]
    cases m.budget <;> rfl
  have hlog : ∀ w : Fin n → ℝ, ∑ i, riskBudget m' i * Real.log (relabelWeights s w i) = ∑ i, riskBudget m i * Real.log (w i) := by
    intro w
    rw [← sum_relabel s fun i => riskBudget m i * Real.log (w i)]
    exact Finset.sum_congr rfl fun i _ => by rw [hbud]; rfl
  have hret : ∀ (w : Fin n → ℝ) (k : ℝ), budgetReturn m'.base (relabelWeights s w) k = budgetReturn m.base w k := by
    intro w k
    unfold budgetReturn
    rw [h.data, transactionCost_relabel, managementFee_relabel]
    rw [← sum_relabel s fun i => m.base.data.mu i * w i]
    rfl
  have hfeas : ∀ w k c a b, ((riskProgram m'.base m'.base.riskMeasure (relabelWeights s w) (riskFactor m'.base.riskMeasure k)).feasible b ↔
      (riskProgram m.base m.base.riskMeasure w (riskFactor m.base.riskMeasure k)).feasible a) →
      (BudgetFeasible m' cs' (relabelWeights s w) k c b ↔ BudgetFeasible m cs w k c a) := by
    intro w k c a b hab
    have h1 : (∀ i, 0 < relabelWeights s w i) ↔ ∀ i, 0 < w i := forall_relabel s fun i => 0 < w i
    have hw : (∀ c ∈ cs', c (relabelWeights s w) k) ↔ ∀ c ∈ cs, c w k := by
      clear hcs hcs' hab
      induction hc with
      | nil => simp
      | cons h1 _ ih => simp only [List.mem_cons, forall_eq_or_imp, h1 w k, ih]
    constructor
    · rintro ⟨p1, p2, p3, p4, p5, p6⟩
      rw [hlog, h.scales.1] at p2
      rw [hr, hret, h.scales.1] at p5
      exact ⟨h1.1 p1, p2, p3, hw.1 p4, p5, hab.1 p6⟩
    · rintro ⟨p1, p2, p3, p4, p5, p6⟩
      refine ⟨h1.2 p1, ?_, p3, hw.2 p4, ?_, hab.2 p6⟩
      · rw [hlog, h.scales.1]
        exact p2
      · rw [hr, hret, h.scales.1]
        exact p5
  constructor
  · rintro ⟨b, hb', hmin⟩
    obtain ⟨a, ha1, ha2⟩ := aux_transport (hp w k).symm b
    refine ⟨a, (hfeas w k c a b ha1.symm).1 hb', fun w1 k1 c1 a1 h1 => ?_⟩
    obtain ⟨b1, hb1, hb2⟩ := aux_transport (hp w1 k1) a1
    have := hmin _ k1 c1 b1 ((hfeas w1 k1 c1 a1 b1 hb1).2 h1)
    rwa [← ha2, hb2, h.scales.2] at this
  · rintro ⟨a, ha, hmin⟩
    obtain ⟨b, hb1, hb2⟩ := aux_transport (hp w k) a
    refine ⟨b, (hfeas w k c a b hb1).2 ha, fun w' k1 c1 b1 h1 => ?_⟩
    obtain ⟨w1, rfl⟩ := hsurj w'
    obtain ⟨a1, ha1, ha2⟩ := aux_transport (hp w1 k1).symm b1
    have := hmin w1 k1 c1 a1 ((hfeas w1 k1 c1 a1 b1 ha1.symm).1 h1)
    rwa [hb2, ← ha2, h.scales.2]

/-- **C108.** So are the weights of `InverseVolatility` and `EqualWeighted`. -/
theorem C108_naive (s : Equiv.Perm (Fin n)) (cov : Matrix (Fin n) (Fin n) ℝ) :
    Naive.inverseVolatility (fun i j => cov (s i) (s j)) = (Naive.inverseVolatility cov).map (relabelWeights s) ∧
    Naive.equalWeighted n = (Naive.equalWeighted n).map (relabelWeights s) := by
  constructor
  · unfold Naive.inverseVolatility
    have he : (∀ i, 0 < cov (s i) (s i)) ↔ ∀ i, 0 < cov i i := forall_relabel s fun i => 0 < cov i i
    by_cases hv : ∀ i, 0 < cov i i
    · refine (if_pos (he.2 hv)).trans ?_
      rw [if_pos hv]
      unfold Naive.normalise
      have hs : ∑ i, 1 / √(cov (s i) (s i)) = ∑ i, 1 / √(cov i i) := sum_relabel s fun i => 1 / √(cov i i)
      simp only [hs]
      split <;> rfl
    · refine (if_neg fun h' => hv (he.1 h')).trans ?_
      rw [if_neg hv]
      rfl
  · unfold Naive.equalWeighted
    split <;> rfl

end

/-! ### A case that meets the hypotheses: two assets exchanged, the Cholesky factor computed anew -/

/-- Two assets with covariance `[[1, 1], [1, 2]]`; the first one is limited to one half. -/
noncomputable def unlike : MeanRisk 2 2 :=
  { twoAssets (1 / 10) (2 / 10) { longOnly with maxWeights := some ![1 / 2, 1] } with cholesky := ![![1, 0], ![1, 1]], objective := .minimizeRisk }

/-- The same assets in the other order: covariance `[[2, 1], [1, 1]]`. -/
noncomputable def unlikeSwapped : MeanRisk 2 2 :=
  { twoAssets (2 / 10) (1 / 10) { longOnly with maxWeights := some ![1, 1 / 2] } with
    data := { returns := fun t i => if i = 0 then 0 else (if t = 0 then 3 / 100 else 4 / 100), mu := ![2 / 10, 1 / 10],
              previousWeights := fun _ => 0, transactionCosts := fun _ => 0, managementFees := fun _ => 0, riskFreeRate := 0 }
    cholesky := ![![√2, 0], ![1 / √2, 1 / √2]], objective := .minimizeRisk }

example : Relabelled (Equiv.swap 0 1) unlike unlikeSwapped := by
  have h2 : √2 * √2 = (2 : ℝ) := Real.mul_self_sqrt (by norm_num)
  have h3 : √2 ≠ (0 : ℝ) := by positivity
  refine
    { data := ?_, covariance := ?_, weights := ?_, mar := rfl, uncertainty := Or.inl ⟨rfl, rfl⟩, overwrite := rfl, objective := rfl, riskMeasure := rfl,
      betas := ⟨rfl, rfl, rfl, rfl⟩, coefficients := ⟨rfl, rfl, rfl⟩, tracking := ⟨rfl, rfl⟩, turnover := rfl, minReturns := rfl, riskLimits := rfl,
      scales := ⟨rfl, rfl⟩ }
  · have e1 : (fun (t i : Fin 2) => if i = 0 then 0 else (if t = 0 then (3 / 100 : ℝ) else 4 / 100)) = fun t i => unlike.data.returns t (Equiv.swap 0 1 i) := by
      funext t i
      fin_cases i <;> simp [unlike, twoAssets]
    have e2 : (![2 / 10, 1 / 10] : Fin 2 → ℝ) = fun i => unlike.data.mu (Equiv.swap 0 1 i) := by
      funext i
      fin_cases i <;> simp [unlike, twoAssets]
    unfold relabelData unlikeSwapped
    simp only
    rw [e1, e2]
    rfl
  · intro i j
    fin_cases i <;> fin_cases j <;> simp [covarianceOf, unlike, unlikeSwapped, Fin.sum_univ_two, h3]
    · norm_num
    · field_simp
      nlinarith
  · have e : (some ![1, 1 / 2] : Option (Fin 2 → ℝ)) = relabelOpt (Equiv.swap 0 1) (some ![1 / 2, 1]) := by
      simp only [relabelOpt, Option.map_some]
      congr 1
      funext i
      fin_cases i <;> simp
    change ({ longOnly with maxWeights := some ![1, 1 / 2] } : Params ℝ 2) = relabelParams _ { longOnly with maxWeights := some ![1 / 2, 1] }
    rw [e]
    rfl

end Skfolio.Convex
