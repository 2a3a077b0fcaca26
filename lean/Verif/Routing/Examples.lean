import Verif.Routing.Theorems

set_option autoImplicit false

namespace Skfolio.Routing

variable {V : Type} [DecidableEq V]

/-! How the hypotheses of `C91_delivered_partial` are met by an estimator built from others. -/

theorem Exists_mk (c : Option Cls) (req : List (String × String)) (kids : Kids) (h1 : (kids.toList.map Prod.fst).Nodup) (h2 : (req.map Prod.fst).Nodup)
    (h3 : c = none → kids.toList = []) (h4 : ∀ c', c = some c' → ∀ l, slots c' = some l → ∀ s ∈ kids.toList.map Prod.fst, s ∈ l)
    (hk : ∀ s e, (s, e) ∈ kids.toList → e.Exists) : (Est.mk c req kids).Exists := by
  intro p c' req' kids' hp
  cases p with
  | nil => rw [at_nil] at hp; cases hp; exact ⟨h1, h2, h3, h4⟩
  | cons s p =>
    cases hg : (Est.mk c req kids).get? s with
    | none => rw [at_cons, hg] at hp; cases hp
    | some e =>
      rw [at_cons_of _ _ s hg] at hp
      exact hk s e (lookup_mem _ _ _ hg) p c' req' kids' hp

theorem Plain_mk (c : Option Cls) (req : List (String × String)) (kids : Kids)
    (h1 : ∀ s e, (s, e) ∈ kids.toList → passedTwice c s → ∀ r ∈ e.asksFor, r.1 = r.2)
    (h2 : c = some .implied → ∀ r ∈ req, r.1 = r.2)
    (hk : ∀ s e, (s, e) ∈ kids.toList → e.PlainNames) : (Est.mk c req kids).PlainNames := by
  refine ⟨?_, ?_⟩
  · intro p e s e' hp
    cases p with
    | nil =>
      rw [at_nil] at hp; cases hp
      intro hg ht
      exact h1 s e' (lookup_mem _ _ _ hg) ht
    | cons q p =>
      cases hg : (Est.mk c req kids).get? q with
      | none => rw [at_cons, hg] at hp; cases hp
      | some a =>
        rw [at_cons_of _ _ q hg] at hp
        exact (hk q a (lookup_mem _ _ _ hg)).1 p e s e' hp
  · intro p e hp
    cases p with
    | nil =>
      rw [at_nil] at hp; cases hp
      intro hc r hr _
      simp only [Est.cls] at hc
      subst hc
      exact h2 rfl r hr
    | cons q p =>
      cases hg : (Est.mk c req kids).get? q with
      | none => rw [at_cons, hg] at hp; cases hp
      | some a =>
        rw [at_cons_of _ _ q hg] at hp
        exact (hk q a (lookup_mem _ _ _ hg)).2 p e hp

omit [DecidableEq V] in
theorem NoSynthetic_mk (c : Option Cls) (req : List (String × String)) (kids : Kids) (kw : Kw V) (h : c ≠ some .syntheticData)
    (hk : ∀ s e, (s, e) ∈ kids.toList → e.NoSynthetic kw) : (Est.mk c req kids).NoSynthetic kw := by
  intro p e hp hr hc
  cases p with
  | nil => rw [at_nil] at hp; cases hp; exact absurd hc h
  | cons q p =>
    cases hg : (Est.mk c req kids).get? q with
    | none => rw [at_cons, hg] at hp; cases hp
    | some a =>
      rw [at_cons_of _ _ q hg] at hp
      rw [reached_cons _ _ q hg] at hr
      exact hk q a (lookup_mem _ _ _ hg) p e hp hr.2 hc

/-- The implied covariance, whose volatilities the user passes as `implied_vol`. -/
def impliedCov : Est := .mk (some .implied) [("implied_vol", "implied_vol")] (.cons "prior_covariance_estimator" (.mk none [] .nil) .nil)

/-- `MeanRisk(prior_estimator=EmpiricalPrior(covariance_estimator=ImpliedCovariance().set_fit_request(implied_vol=True), mu_estimator=M), ...)`, where `M` has asked for its keyword `weights` under the name `w`. -/
def meanRiskImplied : Est :=
  .mk (some .meanRisk) [] (.cons "prior_estimator" (.mk (some .empiricalPrior) [] (.cons "mu_estimator" (.mk none [("weights", "w")] .nil) (.cons "covariance_estimator" impliedCov .nil)))
    (.cons "mu_uncertainty_set_estimator" (.mk (some .uncertainty) [] (.cons "prior_estimator" (.mk none [] .nil) .nil)) .nil))

theorem leaf_ok (req : List (String × String)) (kw : Kw V) (h : (req.map Prod.fst).Nodup) :
    (Est.mk none req .nil).Exists ∧ (Est.mk none req .nil).PlainNames ∧ (Est.mk none req .nil).NoSynthetic kw :=
  ⟨Exists_mk _ _ _ (by simp [Kids.toList]) h (fun _ => rfl) (by simp) (by simp [Kids.toList]), Plain_mk _ _ _ (by simp [Kids.toList]) (by simp) (by simp [Kids.toList]),
    NoSynthetic_mk _ _ _ _ (by simp) (by simp [Kids.toList])⟩

theorem impliedCov_ok (kw : Kw V) : impliedCov.Exists ∧ impliedCov.PlainNames ∧ impliedCov.NoSynthetic kw := by
  obtain ⟨a, b, c⟩ := leaf_ok (V := V) [] kw (by simp)
  refine ⟨Exists_mk _ _ _ (by simp [Kids.toList]) (by simp) (by simp) (by simp [Kids.toList, slots]) ?_,
    Plain_mk _ _ _ (by simp [Kids.toList, passedTwice]) (by simp) ?_, NoSynthetic_mk _ _ _ _ (by simp) ?_⟩ <;>
  · intro s e h
    simp only [Kids.toList, List.mem_cons, List.not_mem_nil, or_false, Prod.mk.injEq] at h
    obtain ⟨-, rfl⟩ := h
    assumption

theorem meanRiskImplied_ok (kw : Kw V) : meanRiskImplied.Exists ∧ meanRiskImplied.PlainNames ∧ meanRiskImplied.NoSynthetic kw := by
  obtain ⟨a1, a2, a3⟩ := leaf_ok (V := V) [] kw (by simp)
  obtain ⟨b1, b2, b3⟩ := leaf_ok (V := V) [("weights", "w")] kw (by simp)
  obtain ⟨c1, c2, c3⟩ := impliedCov_ok kw
  have hp : (Est.mk (some .empiricalPrior) [] (.cons "mu_estimator" (.mk none [("weights", "w")] .nil) (.cons "covariance_estimator" impliedCov .nil))).Exists ∧
      (Est.mk (some .empiricalPrior) [] (.cons "mu_estimator" (.mk none [("weights", "w")] .nil) (.cons "covariance_estimator" impliedCov .nil))).PlainNames ∧
      (Est.mk (some .empiricalPrior) [] (.cons "mu_estimator" (.mk none [("weights", "w")] .nil) (.cons "covariance_estimator" impliedCov .nil))).NoSynthetic kw := by
    refine ⟨Exists_mk _ _ _ (by simp [Kids.toList]) (by simp) (by simp) (by simp [Kids.toList, slots]) ?_,
      Plain_mk _ _ _ (by simp [Kids.toList, passedTwice]) (by simp) ?_, NoSynthetic_mk _ _ _ _ (by simp) ?_⟩ <;>
    · intro s e h
      simp only [Kids.toList, List.mem_cons, List.not_mem_nil, or_false, Prod.mk.injEq] at h
      obtain ⟨-, rfl⟩ | ⟨-, rfl⟩ := h <;> assumption
  have hu : (Est.mk (some .uncertainty) [] (.cons "prior_estimator" (.mk none [] .nil) .nil)).Exists ∧
      (Est.mk (some .uncertainty) [] (.cons "prior_estimator" (.mk none [] .nil) .nil)).PlainNames ∧
      (Est.mk (some .uncertainty) [] (.cons "prior_estimator" (.mk none [] .nil) .nil)).NoSynthetic kw := by
    refine ⟨Exists_mk _ _ _ (by simp [Kids.toList]) (by simp) (by simp) (by simp [Kids.toList, slots]) ?_,
      Plain_mk _ _ _ (by simp [Kids.toList, passedTwice]) (by simp) ?_, NoSynthetic_mk _ _ _ _ (by simp) ?_⟩ <;>
    · intro s e h
      simp only [Kids.toList, List.mem_cons, List.not_mem_nil, or_false, Prod.mk.injEq] at h
      obtain ⟨-, rfl⟩ := h
      assumption
  obtain ⟨d1, d2, d3⟩ := hp
  obtain ⟨e1, e2, e3⟩ := hu
  refine ⟨Exists_mk _ _ _ (by simp [Kids.toList]) (by simp) (by simp) (by simp [Kids.toList, slots]) ?_,
    Plain_mk _ _ _ (by simp [Kids.toList, passedTwice]) (by simp) ?_, NoSynthetic_mk _ _ _ _ (by simp) ?_⟩ <;>
  · intro s e h
    simp only [Kids.toList, List.mem_cons, List.not_mem_nil, or_false, Prod.mk.injEq] at h
    obtain ⟨-, rfl⟩ | ⟨-, rfl⟩ := h <;> assumption

/-- The two keywords of the example are both asked for below. -/
theorem meanRiskImplied_wants (n : String) (h : n = "implied_vol" ∨ n = "w") : meanRiskImplied.WantsBelow n := by
  refine (kidNames_below .meanRisk [] _ (meanRiskImplied_ok (V := Unit) []).1 n).1 ?_
  rcases h with rfl | rfl <;> decide

/-- `C91_delivered_partial` applies to `MeanRisk` with an implied covariance. -/
example (v w : V) : ∃ log, fit meanRiskImplied [("w", w), ("implied_vol", v)] = .ok log ∧ (∀ p, (∃ d, (p, d) ∈ log) ↔ (meanRiskImplied.at? p).isSome) ∧
    ∀ p d e, p ≠ [] → (p, d) ∈ log → meanRiskImplied.at? p = some e → (meanRiskImplied.reached p → Delivered e [("w", w), ("implied_vol", v)] d) ∧ (¬ meanRiskImplied.reached p → d = []) := by
  obtain ⟨h1, h2, h3⟩ := meanRiskImplied_ok [("w", w), ("implied_vol", v)]
  refine C91_delivered_partial _ _ (by simp [meanRiskImplied, Est.cls]) h1 h2 h3 ?_
  intro k hk
  simp only [List.map_cons, List.map_nil, List.mem_cons, List.not_mem_nil, or_false] at hk
  rcases hk with rfl | rfl
  · exact .inl (meanRiskImplied_wants _ (.inr rfl))
  · exact .inl (meanRiskImplied_wants _ (.inl rfl))

/-- The calls of the example in full. -/
example : fit meanRiskImplied [("w", 1), ("implied_vol", 2)] = .ok
    [([], [("w", 1), ("implied_vol", 2)]), (["prior_estimator"], [("w", 1), ("implied_vol", 2)]), (["prior_estimator", "mu_estimator"], [("weights", 1)]),
     (["prior_estimator", "covariance_estimator"], [("implied_vol", 2)]), (["prior_estimator", "covariance_estimator", "prior_covariance_estimator"], []),
     (["mu_uncertainty_set_estimator"], []), (["mu_uncertainty_set_estimator", "prior_estimator"], [])] := by rfl

/-! What is false of the claim. -/

/-- **C91.** A keyword asked for by the regressor of the loading matrix cannot be passed to a factor model. -/
theorem C91_loading_matrix (v : V) :
    fit (.mk (some .factorModel) [] (.cons "factor_prior_estimator" (.mk (some .empiricalPrior) [] .nil)
      (.cons "loading_matrix_estimator" (.mk (some .loadingRegression) [] (.cons "linear_regressor" (.mk none [("sample_weight", "sample_weight")] .nil) .nil)) .nil)))
      [("sample_weight", v)] = .error .unexpected := by rfl

/-- `EmpiricalPrior(covariance_estimator=ImpliedCovariance().set_fit_request(implied_vol=True))`. -/
def impliedPrior : Est := .mk (some .empiricalPrior) [] (.cons "covariance_estimator" impliedCov .nil)

/-- **C91.** Nor can one asked for by the final estimator of a stacking or by the outer estimator of the nested clusters. If another nested estimator has asked for it as well, `fit` succeeds and the final estimator does not get it: the volatilities go to the stacked estimator only. -/
theorem C91_final_estimator (v : V) :
    fit (.mk (some .stacking) [] (.cons "a" (.mk (some .inverseVolatility) [] .nil) (.cons "final_estimator" (.mk (some .convex) [] (.cons "prior_estimator" impliedPrior .nil)) .nil)))
      [("implied_vol", v)] = .error .unexpected ∧
    fit (.mk (some .nestedClusters) [] (.cons "outer_estimator" (.mk (some .convex) [] (.cons "prior_estimator" impliedPrior .nil)) .nil))
      [("implied_vol", v)] = .error .unexpected ∧
    (∃ log, fit (.mk (some .stacking) [] (.cons "a" (.mk (some .convex) [] (.cons "prior_estimator" impliedPrior .nil))
        (.cons "final_estimator" (.mk (some .convex) [] (.cons "prior_estimator" impliedPrior .nil)) .nil))) [("implied_vol", v)] = .ok log ∧
      (["a", "prior_estimator", "covariance_estimator"], [("implied_vol", v)]) ∈ log ∧ (["final_estimator", "prior_estimator", "covariance_estimator"], []) ∈ log) := by
  refine ⟨rfl, rfl, _, rfl, ?_, ?_⟩
  · simp only [List.map_cons, List.map_nil, List.cons_append, List.nil_append, List.mem_cons, Prod.mk.injEq, List.cons.injEq]
    simp
    exact .inl rfl
  · simp

/-- **C91.** A synthetic prior refuses the keyword its distribution estimator has asked for, and accepts it no more if it is nested. -/
theorem C91_synthetic_data (v : V) :
    fit (.mk (some .syntheticData) [] (.cons "distribution_estimator" (.mk none [("sample_weight", "sample_weight")] .nil) .nil)) [("sample_weight", v)] = .error .attribute ∧
    fit (.mk (some .meanRisk) [] (.cons "prior_estimator" (.mk (some .syntheticData) [] (.cons "distribution_estimator" (.mk none [("sample_weight", "sample_weight")] .nil) .nil)) .nil))
      [("sample_weight", v)] = .error .attribute := ⟨rfl, rfl⟩

/-- **C91.** A regressor of the loading matrix that has asked for its keyword under another name cannot be given it: the name is translated before the keywords are passed on a second time. -/
theorem C91_renamed_twice (v : V) :
    fit (.mk (some .loadingRegression) [] (.cons "linear_regressor" (.mk none [("sample_weight", "w")] .nil) .nil)) [("w", v)] = .error .unexpected := rfl

/-- **C91.** An implied covariance that has asked for its volatilities under the name `vol`, around one that has asked for them as `implied_vol`: the inner one is given the volatilities of the outer one, and passing both is an error. -/
theorem C91_shadowed (v w : V) :
    (∃ log, fit (.mk (some .empiricalPrior) [] (.cons "covariance_estimator" (.mk (some .implied) [("implied_vol", "vol")] (.cons "prior_covariance_estimator" impliedCov .nil)) .nil)) [("vol", v)] = .ok log ∧
      (["covariance_estimator", "prior_covariance_estimator"], [("implied_vol", v)]) ∈ log) ∧
    (v ≠ w → fit (.mk (some .empiricalPrior) [] (.cons "covariance_estimator" (.mk (some .implied) [("implied_vol", "vol")] (.cons "prior_covariance_estimator" impliedCov .nil)) .nil))
      [("vol", v), ("implied_vol", w)] = .error .conflict) := by
  refine ⟨⟨_, rfl, ?_⟩, ?_⟩
  · simp
    rfl
  · intro h
    have hd : decide (w = v) = false := by simpa using fun e : w = v => h e.symm
    simp [fit, processRouting, routeAll, routeTo, routeName, selfRequest, consume, childParams, kidNames, names, allowed, impliedCov, List.lookup_cons, Except.map, hd, Ne.symm h]

end Skfolio.Routing
