import Verif.Clone.Model
import Mathlib.Data.List.Forall2
import Mathlib.Tactic.Push

/-!
**C122.** Fitting leaves what it was given unchanged: the estimators passed as parameters are copied, and the copies are fitted. The exception is the splitter of a stacking or a nested optimization.
-/
set_option autoImplicit false

namespace Skfolio.Clone

/-! ### Specification -/

/-- Addresses that are not in use hold nothing. -/
def Wf (H : Heap) : Prop := ∀ b, H.next ≤ b → H.get b = none

/-- An object without what was learned. -/
def Obj.unfitted (o : Obj) : Obj := { o with attrs := [] }

/-- The splitter that an optimization with cross-validation refers to, if its random state is `None`. -/
def splitterOf (H : Heap) (a c : Addr) : Prop :=
  ∃ o s, H.get a = some o ∧ (o.kind = .stacking ∨ o.kind = .nestedClusters) ∧ o.param "cv" = .ref c ∧ H.get c = some s ∧ s.kind = .splitter ∧ s.params.lookup "random_state" = some .none

/-- Two objects are of the same class and have equal parameters, down to the depth `d`, and the second one is not fitted. -/
def Alike (H : Heap) : Nat → Addr → Addr → Prop
  | 0, _, _ => True
  | d + 1, a, b => ∃ o o', H.get a = some o ∧ H.get b = some o' ∧ o'.kind = o.kind ∧ (o.kind ≠ .splitter → o'.attrs = []) ∧ (o.kind = .splitter → o'.attrs = o.attrs) ∧
      List.Forall₂ (fun p q => p.1 = q.1 ∧ match p.2, q.2 with
        | .none, .none => True
        | .const x, .const y => x = y
        | .ref x, .ref y => Alike H d x y
        | .refs l, .refs l' => List.Forall₂ (fun u v => u.1 = v.1 ∧ Alike H d u.2 v.2) l l'
        | _, _ => False) o.params o'.params

/-! ### Invariants -/

/-- The addresses a value refers to are new (at least `N`). -/
def NewVal (N : Addr) : Val → Prop
  | .ref a => N ≤ a
  | .refs l => ∀ p ∈ l, N ≤ p.2
  | _ => True

/-- New objects refer, by their parameters, to new objects only. -/
def Closed (N : Addr) (H : Heap) : Prop := ∀ b, N ≤ b → ∀ o, H.get b = some o → ∀ p ∈ o.params, NewVal N p.2

/-- What is true during the `fit` of `a` that began with `H₀`, of which the addresses below `N` are looked at. -/
structure Inv (H₀ : Heap) (N a : Addr) (H : Heap) : Prop where
  wf : Wf H
  le : N ≤ H.next
  closed : Closed N H
  others : ∀ b, b < N → b ≠ a → ¬splitterOf H₀ a b → H.get b = H₀.get b
  self : a < N → (H.get a).map Obj.unfitted = (H₀.get a).map Obj.unfitted

/-- A computation keeps a property of the memory, also if it raises, and what it returns has the property `Q`. -/
def Safe {α : Type} (I : Heap → Prop) (m : M α) (Q : α → Prop) : Prop := ∀ H, I H → I (m H).1 ∧ ∀ x, (m H).2 = .ok x → Q x

section
variable {α β : Type} {I : Heap → Prop}

theorem safe_ret (x : α) (Q : α → Prop) (h : Q x) : Safe I (ret x) Q := fun H hI => ⟨hI, fun y hy => by cases hy; exact h⟩

theorem safe_raise (e : Err) (Q : α → Prop) : Safe I (raise e) Q := fun H hI => ⟨hI, fun y hy => by cases hy⟩

theorem safe_bind {m : M α} {k : α → M β} {Q : α → Prop} {R : β → Prop} (h : Safe I m Q) (hk : ∀ x, Q x → Safe I (k x) R) : Safe I (andThen m k) R := by
  intro H hI
  obtain ⟨h1, h2⟩ := h H hI
  unfold andThen
  generalize m H = r at h1 h2
  obtain ⟨H', r⟩ := r
  cases r with
  | error e => exact ⟨h1, fun y hy => by cases hy⟩
  | ok x => exact hk x (h2 x rfl) H' h1

theorem safe_here {m : M α} {Q : α → Prop} (h : ∀ H, I H → Safe I m Q) : Safe I m Q := fun H hI => h H hI H hI

theorem safe_times {m : M Unit} (h : Safe I m fun _ => True) : ∀ n, Safe I (times n m) fun _ => True
  | 0 => safe_ret _ _ trivial
  | n + 1 => safe_bind h fun _ _ => safe_times h n

theorem safe_forEach {f : Addr → M Unit} (h : ∀ b, Safe I (f b) fun _ => True) : ∀ l, Safe I (forEach l f) fun _ => True
  | [] => safe_ret _ _ trivial
  | (_, b) :: l => safe_bind (h b) fun _ _ => safe_forEach h l

end

section
variable {H₀ : Heap} {N a : Addr}

/-- Loading: nothing is known of the object here, see `safe_load_self`. -/
theorem safe_load (b : Addr) : Safe (Inv H₀ N a) (load b) fun _ => True := by
  intro H hI
  unfold load
  cases H.get b with
  | none => exact ⟨hI, fun y hy => by cases hy⟩
  | some o => exact ⟨hI, fun _ _ => trivial⟩

/-- The class and the parameters of `a` are those at the beginning if `a` is not new; if it is new, they refer to new objects. -/
def SelfLike (H₀ : Heap) (N a : Addr) (o : Obj) : Prop := (a < N → ∃ o₀, H₀.get a = some o₀ ∧ o.unfitted = o₀.unfitted) ∧ (N ≤ a → ∀ p ∈ o.params, NewVal N p.2)

theorem safe_load_self : Safe (Inv H₀ N a) (load a) (SelfLike H₀ N a) := by
  intro H hI
  unfold load
  cases h : H.get a with
  | none => exact ⟨hI, fun y hy => by cases hy⟩
  | some o =>
    refine ⟨hI, fun y hy => ?_⟩
    cases hy
    refine ⟨fun ha => ?_, fun ha => hI.closed a ha _ h⟩
    have := hI.self ha
    rw [h] at this
    cases h0 : H₀.get a with
    | none => rw [h0] at this; cases this
    | some o₀ =>
      rw [h0] at this
      exact ⟨o₀, rfl, Option.some.inj this⟩

theorem inv_alloc {H : Heap} (hI : Inv H₀ N a H) (o : Obj) (ho : ∀ p ∈ o.params, NewVal N p.2) : Inv H₀ N a (H.alloc o) := by
  have hlt : ∀ b, b < N → (H.alloc o).get b = H.get b := fun b hb => if_neg (by have := hI.le; omega)
  refine ⟨fun b hb => ?_, Nat.le_succ_of_le hI.le, fun b hb o' ho' => ?_, fun b hb => ?_, fun ha => ?_⟩
  · have hb : H.next + 1 ≤ b := hb
    have : (H.alloc o).get b = H.get b := if_neg (by omega)
    rw [this]
    exact hI.wf b (by omega)
  · by_cases e : b = H.next
    · subst e
      have : (H.alloc o).get H.next = some o := if_pos rfl
      rw [this] at ho'
      cases ho'
      exact ho
    · have : (H.alloc o).get b = H.get b := if_neg e
      rw [this] at ho'
      exact hI.closed b hb o' ho'
  · rw [hlt b hb]
    exact hI.others b hb
  · rw [hlt a ha]
    exact hI.self ha

theorem safe_new (o : Obj) (ho : ∀ p ∈ o.params, NewVal N p.2) : Safe (Inv H₀ N a) (new o) fun b => N ≤ b := by
  intro H hI
  refine ⟨inv_alloc hI o ho, fun x hx => ?_⟩
  cases hx
  exact hI.le

/-- Writing to a new object, parameters that refer to new objects only. -/
theorem inv_set_new {H : Heap} (hI : Inv H₀ N a H) (b : Addr) (hb : N ≤ b) (h : H.get b ≠ none) (o : Obj) (ho : ∀ p ∈ o.params, NewVal N p.2) : Inv H₀ N a (H.set b o) := by
  have hlt : ∀ c, c < N → (H.set b o).get c = H.get c := fun c hc => if_neg (by omega)
  refine ⟨fun c hc => ?_, hI.le, fun c hc o' ho' => ?_, fun c hc => ?_, fun ha => ?_⟩
  · have hc : H.next ≤ c := hc
    by_cases e : c = b
    · subst e
      exact absurd (hI.wf c hc) h
    · have : (H.set b o).get c = H.get c := if_neg e
      rw [this]
      exact hI.wf c hc
  · by_cases e : c = b
    · subst e
      have : (H.set c o).get c = some o := if_pos rfl
      rw [this] at ho'
      cases ho'
      exact ho
    · have : (H.set b o).get c = H.get c := if_neg e
      rw [this] at ho'
      exact hI.closed c hc o' ho'
  · rw [hlt c hc]
    exact hI.others c hc
  · rw [hlt a ha]
    exact hI.self ha

/-- Writing attributes of `a` itself. -/
theorem inv_set_self {H : Heap} (hI : Inv H₀ N a H) (o : Obj) (h : H.get a = some o) (l : List (String × Val)) : Inv H₀ N a (H.set a { o with attrs := l }) := by
  by_cases ha : N ≤ a
  · exact inv_set_new hI a ha (by rw [h]; simp) _ (hI.closed a ha o h)
  · have hne : ∀ c, c ≠ a → (H.set a { o with attrs := l }).get c = H.get c := fun c hc => if_neg hc
    have ha' : a < N := by omega
    refine ⟨fun c hc => ?_, hI.le, fun c hc o' ho' => ?_, fun c hc h1 => ?_, fun _ => ?_⟩
    · have hc : H.next ≤ c := hc
      have := hI.le
      rw [hne c (by omega)]
      exact hI.wf c hc
    · rw [hne c (by omega)] at ho'
      exact hI.closed c hc o' ho'
    · rw [hne c h1]
      exact hI.others c hc h1
    · have : (H.set a { o with attrs := l }).get a = some { o with attrs := l } := if_pos rfl
      rw [this, ← hI.self ha', h]
      rfl

theorem safe_setAttr (s : String) (v : Val) : Safe (Inv H₀ N a) (setAttr a s v) fun _ => True := by
  intro H hI
  unfold setAttr andThen load
  cases h : H.get a with
  | none => exact ⟨hI, fun _ _ => trivial⟩
  | some o => exact ⟨inv_set_self hI o h _, fun _ _ => trivial⟩

theorem safe_setAttrs : ∀ l, Safe (Inv H₀ N a) (setAttrs a l) fun _ => True
  | [] => safe_ret _ _ trivial
  | (s, x) :: l => safe_bind (safe_setAttr s (.const x)) fun _ _ => safe_setAttrs l

theorem safe_setParam (b : Addr) (hb : N ≤ b) (s : String) (v : Val) (hv : NewVal N v) : Safe (Inv H₀ N a) (setParam b s v) fun _ => True := by
  intro H hI
  unfold setParam andThen load
  cases h : H.get b with
  | none => exact ⟨hI, fun _ _ => trivial⟩
  | some o =>
    refine ⟨inv_set_new hI b hb (by rw [h]; simp) _ fun p hp => ?_, fun _ _ => trivial⟩
    rcases List.mem_cons.1 hp with rfl | hp
    · exact hv
    · exact hI.closed b hb o h p hp

/-! ### Copies are new -/

theorem safe_cloneRefs {copy : Addr → M Addr} (h : ∀ b, Safe (Inv H₀ N a) (copy b) fun c => N ≤ c) : ∀ l, Safe (Inv H₀ N a) (cloneRefs copy l) fun l' => ∀ p ∈ l', N ≤ p.2
  | [] => safe_ret _ _ (by simp)
  | (s, b) :: l => safe_bind (h b) fun c hc => safe_bind (safe_cloneRefs h l) fun l' hl' => safe_ret _ _ fun p hp => by
      rcases List.mem_cons.1 hp with rfl | hp
      · exact hc
      · exact hl' p hp

theorem safe_cloneVal {copy : Addr → M Addr} (h : ∀ b, Safe (Inv H₀ N a) (copy b) fun c => N ≤ c) : ∀ v, Safe (Inv H₀ N a) (cloneVal copy v) (NewVal N)
  | .none => safe_ret _ _ trivial
  | .const _ => safe_ret _ _ trivial
  | .ref b => safe_bind (h b) fun c hc => safe_ret _ _ hc
  | .refs l => safe_bind (safe_cloneRefs h l) fun l' hl' => safe_ret _ _ hl'

theorem safe_cloneVals {copy : Addr → M Addr} (h : ∀ b, Safe (Inv H₀ N a) (copy b) fun c => N ≤ c) : ∀ l, Safe (Inv H₀ N a) (cloneVals copy l) fun l' => ∀ p ∈ l', NewVal N p.2
  | [] => safe_ret _ _ (by simp)
  | (s, v) :: l => safe_bind (safe_cloneVal h v) fun v' hv' => safe_bind (safe_cloneVals h l) fun l' hl' => safe_ret _ _ fun p hp => by
      rcases List.mem_cons.1 hp with rfl | hp
      · exact hv'
      · exact hl' p hp

theorem safe_clone : ∀ n b, Safe (Inv H₀ N a) (clone n b) fun c => N ≤ c
  | 0, _ => safe_raise _ _
  | n + 1, b => safe_bind (safe_load b) fun o _ => safe_bind (safe_cloneVals (safe_clone n) o.params) fun _ hps => safe_new _ hps

theorem safe_construct (d : Default) : Safe (Inv H₀ N a) (construct d) fun c => N ≤ c := by
  unfold construct
  cases d.inner with
  | none => exact safe_new _ (by simp)
  | some q =>
    refine safe_bind (safe_new _ (by simp)) fun b hb => safe_new _ fun p hp => ?_
    rcases List.mem_singleton.1 hp with rfl
    exact hb

theorem safe_check (n : Nat) (v : Val) (d : Default) (b : Option Base) : Safe (Inv H₀ N a) (checkEstimator n v d b) fun c => N ≤ c := by
  refine safe_bind (safe_construct d) fun c hc => ?_
  cases v with
  | none => exact safe_ret _ _ hc
  | const _ => exact safe_raise _ _
  | refs _ => exact safe_raise _ _
  | ref x =>
    refine safe_bind (safe_load x) fun o _ => ?_
    split
    · exact safe_clone n x
    · exact safe_raise _ _

/-! ### The steps -/

theorem param_mem {o : Obj} {s : String} {v : Val} (h : o.param s = v) (hv : v ≠ .none) : (∃ p ∈ o.params, p.2 = v) := by
  unfold Obj.param at h
  cases e : o.params.lookup s with
  | none => rw [e] at h; exact absurd h.symm hv
  | some u =>
    rw [e] at h
    obtain ⟨l₁, l₂, h2, -⟩ := List.lookup_eq_some_iff.1 e
    exact ⟨(s, u), by rw [h2]; simp, h⟩

theorem safe_cv (w : World) (hk : ∀ o, H₀.get a = some o → o.kind = .stacking ∨ o.kind = .nestedClusters) (hN : Inv H₀ N a H₀) : Safe (Inv H₀ N a) (cvStep w a) fun _ => True := by
  refine safe_bind safe_load_self fun self hs => ?_
  cases hv : self.param "cv" with
  | none => exact safe_ret _ _ trivial
  | const _ => exact safe_ret _ _ trivial
  | refs _ => exact safe_ret _ _ trivial
  | ref c =>
    simp only
    intro H hI
    unfold andThen load
    cases hc : H.get c with
    | none => exact ⟨hI, fun _ h => by cases h⟩
    | some o =>
      simp only
      split
      · rename_i hsp
        refine ⟨?_, fun _ _ => trivial⟩
        obtain ⟨q, hq, e⟩ := param_mem hv (by simp)
        change Inv H₀ N a (H.set c _)
        by_cases hcN : N ≤ c
        · refine inv_set_new hI c hcN (by rw [hc]; simp) _ fun p hp => ?_
          rcases List.mem_cons.1 hp with rfl | hp
          · exact trivial
          · exact hI.closed c hcN o hc p hp
        · have hcN : c < N := by omega
          have haN : a < N := by
            by_contra hcon
            have := hs.2 (by omega) q hq
            rw [e] at this
            exact absurd this (by simp only [NewVal]; omega)
          obtain ⟨o₀, h0, hu⟩ := hs.1 haN
          have hpar : o₀.param "cv" = .ref c := by
            have : o₀.params = self.params := (congrArg Obj.params hu).symm
            unfold Obj.param at hv ⊢
            rw [this]
            exact hv
          have hca : c ≠ a := by
            rintro rfl
            have h1 := hI.self haN
            rw [hc, h0] at h1
            have h3 : o.unfitted = o₀.unfitted := Option.some.inj h1
            have h4 : o.unfitted.kind = o₀.unfitted.kind := by rw [h3]
            have h2 : o.kind = o₀.kind := h4
            rcases hk o₀ h0 with h3 | h3 <;> rw [← h2, hsp.1] at h3 <;> cases h3
          have hsplit : splitterOf H₀ a c := by
            by_contra hcon
            have h1 := hI.others c hcN hca hcon
            rw [hc] at h1
            exact hcon ⟨o₀, o, h0, hk o₀ h0, hpar, h1.symm, hsp⟩
          have hne : ∀ d, d ≠ c → (H.set c { o with params := ("random_state", .const w.seed) :: o.params }).get d = H.get d := fun d hd => if_neg hd
          have hle := hI.le
          refine ⟨fun d hd => ?_, hI.le, fun d hd o' ho' => ?_, fun d hd h1 h2 => ?_, fun _ => ?_⟩
          · have hd : H.next ≤ d := hd
            rw [hne d (by omega)]
            exact hI.wf d hd
          · rw [hne d (by omega)] at ho'
            exact hI.closed d hd o' ho'
          · rw [hne d (by rintro rfl; exact h2 hsplit)]
            exact hI.others d hd h1 h2
          · rw [hne a hca.symm]
            exact hI.self haN
      · exact ⟨hI, fun _ _ => trivial⟩

theorem lookup_mem {l : List (String × Addr)} {s : String} {c : Addr} (h : l.lookup s = some c) (hl : ∀ p ∈ l, N ≤ p.2) : N ≤ c := by
  obtain ⟨l₁, l₂, h2, -⟩ := List.lookup_eq_some_iff.1 h
  exact hl (s, c) (by rw [h2]; simp)

theorem safe_step (w : World) (n : Nat) (fitOf : Addr → M Unit) (hf : ∀ c, N ≤ c → Safe (Inv H₀ N a) (fitOf c) fun _ => True) (hN : Inv H₀ N a H₀) (env : List (String × Addr)) (he : ∀ p ∈ env, N ≤ p.2) (s : Step)
    (hk : s = .cv → ∀ o, H₀.get a = some o → o.kind = .stacking ∨ o.kind = .nestedClusters) : Safe (Inv H₀ N a) (step w n fitOf a env s) fun e => ∀ p ∈ e, N ≤ p.2 := by
  cases s with
  | check p attr d b =>
    refine safe_bind safe_load_self fun self _ => safe_bind (safe_check n _ d b) fun c hc => safe_bind (safe_setAttr attr _) fun _ _ => safe_ret _ _ fun q hq => ?_
    rcases List.mem_cons.1 hq with rfl | hq
    · exact hc
    · exact he q hq
  | cloneFit p attr =>
    refine safe_bind safe_load_self fun self _ => ?_
    cases self.param p with
    | ref b => exact safe_bind (safe_clone n b) fun c hc => safe_bind (safe_setAttr attr _) fun _ _ => safe_bind (hf c hc) fun _ _ => safe_ret _ _ he
    | none => exact safe_ret _ _ he
    | const _ => exact safe_raise _ _
    | refs _ => exact safe_raise _ _
  | fit attr =>
    simp only [step]
    cases h : env.lookup attr with
    | none => exact safe_raise _ _
    | some c => exact safe_bind (hf c (lookup_mem h he)) fun _ _ => safe_ret _ _ he
  | fitCopies attr =>
    simp only [step]
    cases h : env.lookup attr with
    | none => exact safe_raise _ _
    | some c =>
      exact fun H hI => safe_bind (safe_times (safe_bind (safe_clone n c) fun d hd => hf d hd) (w.count H a)) (fun _ _ => safe_ret _ _ he) H hI
  | fitEach p =>
    refine safe_bind safe_load_self fun self _ => ?_
    cases self.param p with
    | refs l => exact fun H hI => safe_bind (safe_times (safe_forEach (fun b => safe_bind (safe_clone n b) fun d hd => hf d hd) l) (w.count H a)) (fun _ _ => safe_ret _ _ he) H hI
    | none => exact safe_ret _ _ he
    | const _ => exact safe_ret _ _ he
    | ref _ => exact safe_ret _ _ he
  | cv => exact safe_bind (safe_cv w (hk rfl) hN) fun _ _ => safe_ret _ _ he
  | frontier =>
    refine safe_bind safe_load_self fun self _ => ?_
    split
    · exact safe_ret _ _ he
    · exact safe_bind (safe_clone n a) fun c hc => safe_bind (safe_setParam c hc _ _ trivial) fun _ _ => safe_bind (safe_setParam c hc _ _ trivial) fun _ _ =>
        safe_bind (hf c hc) fun _ _ => safe_bind (safe_setParam c hc _ _ trivial) fun _ _ => safe_bind (hf c hc) fun _ _ => safe_ret _ _ he
  | learn =>
    intro H hI
    simp only [step]
    cases w.learned H a with
    | error e => exact ⟨hI, fun _ h => by cases h⟩
    | ok l => exact safe_bind (safe_setAttrs l) (fun _ _ => safe_ret _ _ he) H hI

theorem safe_steps (w : World) (n : Nat) (fitOf : Addr → M Unit) (hf : ∀ c, N ≤ c → Safe (Inv H₀ N a) (fitOf c) fun _ => True) (hN : Inv H₀ N a H₀) : ∀ (l : List Step) (env : List (String × Addr)), (∀ p ∈ env, N ≤ p.2) →
    (∀ s ∈ l, s = .cv → ∀ o, H₀.get a = some o → o.kind = .stacking ∨ o.kind = .nestedClusters) → Safe (Inv H₀ N a) (steps w n fitOf a env l) fun _ => True
  | [], _, _, _ => safe_ret _ _ trivial
  | s :: l, env, he, hk => safe_bind (safe_step w n fitOf hf hN env he s (hk s (by simp))) fun env' he' => safe_steps w n fitOf hf hN l env' he' fun s hs => hk s (by simp [hs])

theorem cv_plan (k : Kind) (h : Step.cv ∈ plan k) : k = .stacking ∨ k = .nestedClusters := by
  cases k <;> simp [plan, checkPrior, checkCovariance] at h ⊢

end

theorem inv_start {H : Heap} {N : Addr} (a : Addr) (hw : Wf H) (hN : N ≤ H.next) (hc : Closed N H) : Inv H N a H := ⟨hw, hN, hc, fun _ _ _ _ => rfl, fun _ => rfl⟩

/-- The fit of `a` changes nothing below `N` but what `Inv` allows. -/
theorem fit_inv (w : World) : ∀ (n : Nat) (H : Heap) (N a : Addr), Wf H → N ≤ H.next → Closed N H → Inv H N a (fit w n a H).1
  | 0, H, N, a, hw, hN, hc => inv_start a hw hN hc
  | n + 1, H, N, a, hw, hN, hc => by
    have hs := inv_start a hw hN hc
    have hf : ∀ c, N ≤ c → Safe (Inv H N a) (fit w n c) fun _ => True := by
      intro c hcN H₁ h1
      have h2 := fit_inv w n H₁ N c h1.wf h1.le h1.closed
      have same : ∀ b, b < N → (fit w n c H₁).1.get b = H₁.get b := by
        intro b hb
        refine h2.others b hb (by omega) ?_
        rintro ⟨o, s, ho, -, hp, -⟩
        obtain ⟨q, hq, e⟩ := param_mem hp (by simp)
        have := h1.closed c hcN o ho q hq
        rw [e] at this
        exact absurd this (by simp only [NewVal]; omega)
      refine ⟨⟨h2.wf, h2.le, h2.closed, fun b hb e1 e2 => ?_, fun ha => ?_⟩, fun _ _ => trivial⟩
      · rw [same b hb]
        exact h1.others b hb e1 e2
      · rw [same a ha]
        exact h1.self ha
    unfold fit andThen load
    cases h : H.get a with
    | none => exact hs
    | some o =>
      refine (safe_steps w n (fit w n) hf hs (plan o.kind) [] (by simp) ?_ H hs).1
      rintro s hs' rfl o' ho'
      rw [h] at ho'
      cases ho'
      exact cv_plan _ hs'

theorem closed_top {H : Heap} (hw : Wf H) : Closed H.next H := by
  intro b hb o ho
  rw [hw b hb] at ho
  cases ho

/-! ### C122 -/

/-- **C122.** `fit` changes no object that existed before, other than the fitted one and the splitter, without random state, of a stacking or nested optimization — in particular none of the estimators passed to it, at any
depth; also if `fit` raises. Of the fitted object it changes no parameter. -/
theorem C122_given (w : World) (n : Nat) (H : Heap) (hw : Wf H) (a : Addr) :
    (∀ b, b < H.next → b ≠ a → ¬splitterOf H a b → (fit w n a H).1.get b = H.get b) ∧ (a < H.next → ((fit w n a H).1.get a).map Obj.unfitted = (H.get a).map Obj.unfitted) :=
  have h := fit_inv w n H H.next a hw (Nat.le_refl _) (closed_top hw)
  ⟨h.others, h.self⟩

/-- **C122.** `cross_val_predict` changes nothing that existed before: not the estimator either, nor its splitter. -/
theorem C122_cross_val (w : World) (n : Nat) (H : Heap) (hw : Wf H) (a : Addr) (folds : Nat) (b : Addr) (hb : b < H.next) : (crossVal w n a folds H).1.get b = H.get b := by
  have hs : Inv H H.next H.next H := inv_start _ hw (Nat.le_refl _) (closed_top hw)
  have hf : ∀ c, H.next ≤ c → Safe (Inv H H.next H.next) (fit w n c) fun _ => True := by
    intro c hcN H₁ h1
    have h2 := fit_inv w n H₁ H.next c h1.wf h1.le h1.closed
    have same : ∀ b, b < H.next → (fit w n c H₁).1.get b = H₁.get b := by
      intro b hb
      refine h2.others b hb (by omega) ?_
      rintro ⟨o, s, ho, -, hp, -⟩
      obtain ⟨q, hq, e⟩ := param_mem hp (by simp)
      have := h1.closed c hcN o ho q hq
      rw [e] at this
      exact absurd this (by simp only [NewVal]; omega)
    refine ⟨⟨h2.wf, h2.le, h2.closed, fun b hb e1 e2 => ?_, fun ha => absurd ha (Nat.lt_irrefl _)⟩, fun _ _ => trivial⟩
    · rw [same b hb]
      exact h1.others b hb e1 e2
  have h := (safe_times (safe_bind (safe_clone n a) fun d hd => hf d hd) folds H hs).1
  refine h.others b hb (by omega) ?_
  rintro ⟨o, s, ho, -⟩
  rw [hw _ (Nat.le_refl _)] at ho
  cases ho

/-! ### Copies are alike -/

/-- What is there stays as it is. -/
def Extends (H H' : Heap) : Prop := Wf H' ∧ ∀ b o, H.get b = some o → H'.get b = some o

theorem Extends.trans {H H' H'' : Heap} (h : Extends H H') (h' : Extends H' H'') : Extends H H'' := ⟨h'.1, fun b o ho => h'.2 b o (h.2 b o ho)⟩

theorem forall₂_mono {α β : Type} {R S : α → β → Prop} {l : List α} {l' : List β} (h : ∀ x y, R x y → S x y) (hl : List.Forall₂ R l l') : List.Forall₂ S l l' := List.Forall₂.imp (fun {x y} hxy => h x y hxy) hl

/-- Two values alike, see `Alike`. -/
def AlikeVal (H : Heap) (d : Nat) : Val → Val → Prop
  | .none, .none => True
  | .const x, .const y => x = y
  | .ref x, .ref y => Alike H d x y
  | .refs l, .refs l' => List.Forall₂ (fun u v => u.1 = v.1 ∧ Alike H d u.2 v.2) l l'
  | _, _ => False

theorem alike_succ (H : Heap) (d : Nat) (a b : Addr) : Alike H (d + 1) a b ↔ ∃ o o', H.get a = some o ∧ H.get b = some o' ∧ o'.kind = o.kind ∧ (o.kind ≠ .splitter → o'.attrs = []) ∧
    (o.kind = .splitter → o'.attrs = o.attrs) ∧ List.Forall₂ (fun p q => p.1 = q.1 ∧ AlikeVal H d p.2 q.2) o.params o'.params := by
  rw [Alike]
  constructor
  · rintro ⟨o, o', h1, h2, h3, h4, h5, h6⟩
    refine ⟨o, o', h1, h2, h3, h4, h5, forall₂_mono ?_ h6⟩
    rintro ⟨s, x⟩ ⟨t, y⟩ ⟨h, h'⟩
    refine ⟨h, ?_⟩
    cases x <;> cases y <;> simpa only [AlikeVal] using h'
  · rintro ⟨o, o', h1, h2, h3, h4, h5, h6⟩
    refine ⟨o, o', h1, h2, h3, h4, h5, forall₂_mono ?_ h6⟩
    rintro ⟨s, x⟩ ⟨t, y⟩ ⟨h, h'⟩
    refine ⟨h, ?_⟩
    cases x <;> cases y <;> simpa only [AlikeVal] using h'

theorem alike_mono {H H' : Heap} (h : Extends H H') : ∀ (d : Nat) {a b : Addr}, Alike H d a b → Alike H' d a b
  | 0, _, _, _ => trivial
  | d + 1, a, b, hA => by
    rw [alike_succ] at hA ⊢
    obtain ⟨o, o', h1, h2, h3, h4, h5, h6⟩ := hA
    refine ⟨o, o', h.2 _ _ h1, h.2 _ _ h2, h3, h4, h5, forall₂_mono ?_ h6⟩
    rintro ⟨s, x⟩ ⟨t, y⟩ ⟨e, e'⟩
    refine ⟨e, ?_⟩
    cases x <;> cases y <;> simp only [AlikeVal] at e' ⊢
    · exact e'
    · exact alike_mono h d e'
    · exact forall₂_mono (fun u v huv => ⟨huv.1, alike_mono h d huv.2⟩) e'

theorem alikeVal_mono {H H' : Heap} (h : Extends H H') (d : Nat) {x y : Val} (hA : AlikeVal H d x y) : AlikeVal H' d x y := by
  cases x <;> cases y <;> simp only [AlikeVal] at hA ⊢
  · exact hA
  · exact alike_mono h d hA
  · exact forall₂_mono (fun u v huv => ⟨huv.1, alike_mono h d huv.2⟩) hA

theorem andThen_ok {α β : Type} {m : M α} {k : α → M β} {H H' : Heap} {y : β} (h : andThen m k H = (H', .ok y)) : ∃ H₁ x, m H = (H₁, .ok x) ∧ k x H₁ = (H', .ok y) := by
  unfold andThen at h
  generalize m H = r at h
  obtain ⟨H₁, r⟩ := r
  cases r with
  | error e => cases h
  | ok x => exact ⟨H₁, x, rfl, h⟩

/-- What a copying function has to do. -/
def Copies (copy : Addr → M Addr) : Prop := ∀ a H H' b, Wf H → copy a H = (H', .ok b) → Extends H H' ∧ ∀ d, Alike H' d a b

theorem copies_refs {copy : Addr → M Addr} (hc : Copies copy) : ∀ (l : List (String × Addr)) (H H' : Heap) (l' : List (String × Addr)), Wf H → cloneRefs copy l H = (H', .ok l') →
    Extends H H' ∧ ∀ d, List.Forall₂ (fun u v => u.1 = v.1 ∧ Alike H' d u.2 v.2) l l'
  | [], H, H', l', hw, h => by
    cases h
    exact ⟨⟨hw, fun _ _ h => h⟩, fun _ => .nil⟩
  | (s, a) :: l, H, H', l', hw, h => by
    obtain ⟨H₁, b, h1, h⟩ := andThen_ok h
    obtain ⟨H₂, m, h2, h⟩ := andThen_ok h
    cases h
    obtain ⟨e1, a1⟩ := hc a H H₁ b hw h1
    obtain ⟨e2, a2⟩ := copies_refs hc l H₁ H' m e1.1 h2
    exact ⟨e1.trans e2, fun d => .cons ⟨rfl, alike_mono e2 d (a1 d)⟩ (a2 d)⟩

theorem copies_val {copy : Addr → M Addr} (hc : Copies copy) (v : Val) (H H' : Heap) (v' : Val) (hw : Wf H) (h : cloneVal copy v H = (H', .ok v')) : Extends H H' ∧ ∀ d, AlikeVal H' d v v' := by
  cases v with
  | none =>
    cases h
    exact ⟨⟨hw, fun _ _ h => h⟩, fun _ => trivial⟩
  | const n =>
    cases h
    exact ⟨⟨hw, fun _ _ h => h⟩, fun _ => rfl⟩
  | ref a =>
    obtain ⟨H₁, b, h1, h⟩ := andThen_ok h
    cases h
    exact hc a H H' b hw h1
  | refs l =>
    obtain ⟨H₁, b, h1, h⟩ := andThen_ok h
    cases h
    exact copies_refs hc l H H' b hw h1

theorem copies_vals {copy : Addr → M Addr} (hc : Copies copy) : ∀ (l : List (String × Val)) (H H' : Heap) (l' : List (String × Val)), Wf H → cloneVals copy l H = (H', .ok l') →
    Extends H H' ∧ ∀ d, List.Forall₂ (fun p q => p.1 = q.1 ∧ AlikeVal H' d p.2 q.2) l l'
  | [], H, H', l', hw, h => by
    cases h
    exact ⟨⟨hw, fun _ _ h => h⟩, fun _ => .nil⟩
  | (s, v) :: l, H, H', l', hw, h => by
    obtain ⟨H₁, b, h1, h⟩ := andThen_ok h
    obtain ⟨H₂, m, h2, h⟩ := andThen_ok h
    cases h
    obtain ⟨e1, a1⟩ := copies_val hc v H H₁ b hw h1
    obtain ⟨e2, a2⟩ := copies_vals hc l H₁ H' m e1.1 h2
    exact ⟨e1.trans e2, fun d => .cons ⟨rfl, alikeVal_mono e2 d (a1 d)⟩ (a2 d)⟩

theorem extends_alloc {H : Heap} (hw : Wf H) (o : Obj) : Extends H (H.alloc o) := by
  refine ⟨fun b hb => ?_, fun b o' ho' => ?_⟩
  · have hb : H.next + 1 ≤ b := hb
    have : (H.alloc o).get b = H.get b := if_neg (by omega)
    rw [this]
    exact hw b (by omega)
  · have : (H.alloc o).get b = H.get b := if_neg (by
      rintro rfl
      rw [hw _ (Nat.le_refl _)] at ho'
      cases ho')
    rw [this]
    exact ho'

theorem copies_clone : ∀ n, Copies (clone n)
  | 0, _, _, _, _, _, h => by cases h
  | n + 1, a, H, H', b, hw, h => by
    obtain ⟨H₁, o, h1, h'⟩ := andThen_ok h
    clear h
    obtain ⟨H₂, ps, h2, h⟩ := andThen_ok h'
    clear h'
    unfold load at h1
    cases ho : H.get a with
    | none => rw [ho] at h1; cases h1
    | some o₁ =>
      rw [ho] at h1
      cases h1
      obtain ⟨e1, a1⟩ := copies_vals (copies_clone n) _ _ _ _ hw h2
      cases h
      have e2 := extends_alloc e1.1 { kind := o.kind, params := ps, attrs := if o.kind = .splitter then o.attrs else [] }
      refine ⟨e1.trans e2, fun d => ?_⟩
      cases d with
      | zero => trivial
      | succ d =>
        rw [alike_succ]
        refine ⟨o, _, (e1.trans e2).2 _ _ ho, if_pos rfl, rfl, fun hk => if_neg hk, fun hk => if_pos hk, forall₂_mono ?_ (a1 d)⟩
        exact fun p q hpq => ⟨hpq.1, alikeVal_mono e2 d hpq.2⟩

/-- **C122.** A clone is a new object of the same class, with parameters equal at every depth, and is not fitted, whether the original is or not; the memory is otherwise as before. -/
theorem C122_clone (n : Nat) (H H' : Heap) (hw : Wf H) (a b : Addr) (h : clone n a H = (H', .ok b)) :
    H.get b = none ∧ (∀ c o, H.get c = some o → H'.get c = some o) ∧ ∀ d, Alike H' d a b := by
  obtain ⟨h1, h2⟩ := copies_clone n a H H' b hw h
  refine ⟨?_, h1.2, h2⟩
  have := (safe_clone n a H (inv_start (N := H.next) a hw (Nat.le_refl _) (closed_top hw))).2 b (by rw [h])
  exact hw b this

/-- **C122.** `check_estimator`: without an estimator the default, for an object of another class a `TypeError`, else a clone. -/
theorem C122_check (n : Nat) (H : Heap) (hw : Wf H) (d : Default) (t : Option Base) :
    (∃ H' c o, checkEstimator n .none d t H = (H', .ok c) ∧ H'.get c = some o ∧ o.kind = d.kind ∧ o.attrs = [] ∧ H.get c = none) ∧
    (∀ a o, H.get a = some o → o.kind.isA t = false → (checkEstimator n (.ref a) d t H).2 = .error .typeError) ∧
    (∀ a c H', checkEstimator n (.ref a) d t H = (H', .ok c) → H.get c = none ∧ (∀ o, H.get a = some o → o.kind.isA t = true) ∧ ∀ k, Alike H' k a c) := by
  have hcons : ∃ H' c o, construct d H = (H', .ok c) ∧ H'.get c = some o ∧ o.kind = d.kind ∧ o.attrs = [] ∧ H.get c = none ∧ Extends H H' := by
    unfold construct
    cases d.inner with
    | none => exact ⟨_, _, _, rfl, if_pos rfl, rfl, rfl, hw _ (Nat.le_refl _), extends_alloc hw _⟩
    | some q =>
      have e := extends_alloc hw { kind := q.2, params := [], attrs := [] }
      exact ⟨_, _, _, rfl, if_pos rfl, rfl, rfl, hw _ (Nat.le_succ _), e.trans (extends_alloc e.1 _)⟩
  obtain ⟨H₁, c₁, o₁, h1, h2, h3, h4, h5, h6⟩ := hcons
  refine ⟨⟨H₁, c₁, o₁, ?_, h2, h3, h4, h5⟩, fun a o ho ht => ?_, fun a c H' h => ?_⟩
  · unfold checkEstimator andThen
    rw [h1]
    rfl
  · have : H₁.get a = some o := h6.2 _ _ ho
    unfold checkEstimator andThen load
    rw [h1]
    simp only [this, ht]
    rfl
  · obtain ⟨H₂, x, g1, h⟩ := andThen_ok h
    rw [h1] at g1
    cases g1
    obtain ⟨H₃, o, g2, h⟩ := andThen_ok h
    unfold load at g2
    cases ho : H₁.get a with
    | none => rw [ho] at g2; cases g2
    | some o' =>
      rw [ho] at g2
      cases g2
      by_cases ht : o.kind.isA t = true
      · rw [if_pos ht] at h
        obtain ⟨k1, k2, k3⟩ := C122_clone n _ H' h6.1 a c h
        refine ⟨?_, fun o' ho' => ?_, k3⟩
        · cases hc : H.get c with
          | none => rfl
          | some z => rw [h6.2 _ _ hc] at k1; cases k1
        · have := h6.2 _ _ ho'
          rw [ho] at this
          cases this
          exact ht
      · rw [if_neg ht] at h
        cases h

end Skfolio.Clone
