import Verif.Vine.Structure

/-! A spanning forest always exists, so that every number of assets and every depth has a vine. -/
set_option autoImplicit false

namespace Skfolio.Vine

open Classical in
/-- The edges of a graph, ordered by rows. -/
noncomputable def rowsOf {m : ℕ} (F : SimpleGraph (Fin m)) : List (ℕ × ℕ) :=
  (List.range m).flatMap fun a => ((List.range m).filter fun b => decide (a < b ∧ ∃ (ha : a < m) (hb : b < m), F.Adj ⟨a, ha⟩ ⟨b, hb⟩)).map fun b => (a, b)

theorem mem_rowsOf {m : ℕ} {F : SimpleGraph (Fin m)} {p : ℕ × ℕ} : p ∈ rowsOf F ↔ p.1 < p.2 ∧ ∃ (ha : p.1 < m) (hb : p.2 < m), F.Adj ⟨p.1, ha⟩ ⟨p.2, hb⟩ := by
  obtain ⟨a, b⟩ := p
  simp only [rowsOf, List.mem_flatMap, List.mem_range, List.mem_map, List.mem_filter, decide_eq_true_eq, Prod.mk.injEq]
  constructor
  · rintro ⟨a', _, b', ⟨_, h⟩, rfl, rfl⟩
    exact h
  · rintro ⟨h, ha, hb, e⟩
    exact ⟨a, ha, b, ⟨hb, h, ha, hb, e⟩, rfl, rfl⟩

theorem graph_rowsOf {m : ℕ} (F : SimpleGraph (Fin m)) : graph m (rowsOf F) = F := by
  ext a b
  rw [graph_adj, mem_rowsOf, mem_rowsOf]
  constructor
  · rintro ⟨_, ⟨_, _, _, h⟩ | ⟨_, _, _, h⟩⟩
    · exact h
    · exact h.symm
  · intro h
    refine ⟨h.ne, ?_⟩
    rcases lt_or_gt_of_ne h.ne with hl | hl
    · exact Or.inl ⟨hl, a.2, b.2, h⟩
    · exact Or.inr ⟨hl, b.2, a.2, h.symm⟩

/-- A forest of eligible pairs that joins as much as the eligible pairs do, as the list of its edges. -/
theorem forest_rowsOf {level : ℕ} {nodes : List Node} {F : SimpleGraph (Fin nodes.length)} (hle : F ≤ SimpleGraph.fromRel fun a b : Fin nodes.length => a < b ∧ eligible level nodes a b) (hac : F.IsAcyclic)
    (hr : F.Reachable = (SimpleGraph.fromRel fun a b : Fin nodes.length => a < b ∧ eligible level nodes a b).Reachable) : IsSpanningForest level nodes (rowsOf F) := by
  refine ⟨?_, ?_, ?_, ?_, ?_⟩
  · intro p hp
    obtain ⟨h1, ha, hb, h2⟩ := mem_rowsOf.1 hp
    refine ⟨h1, hb, ?_⟩
    have := (SimpleGraph.fromRel_adj _ _ _).1 (hle h2)
    rcases this.2 with h | h
    · exact h.2
    · exact absurd h.1 (by simp [Fin.lt_def]; omega)
  · rw [rowsOf, List.nodup_flatMap]
    refine ⟨fun a _ => (List.nodup_range.filter _).map (fun b c h => (Prod.mk.inj h).2), List.nodup_range.imp ?_⟩
    intro a b hab p h1 h2
    obtain ⟨_, _, rfl⟩ := List.mem_map.1 h1
    obtain ⟨_, _, e⟩ := List.mem_map.1 h2
    exact hab (Prod.mk.inj e).1.symm
  · rw [rowsOf, List.pairwise_flatMap]
    refine ⟨fun a _ => List.pairwise_map.2 (List.pairwise_iff_getElem.2 fun _ _ _ _ _ => le_rfl), ?_⟩
    have : (List.range nodes.length).Pairwise (· < ·) := List.pairwise_lt_range
    refine this.imp ?_
    intro a b hab p h1 q h2
    obtain ⟨_, _, rfl⟩ := List.mem_map.1 h1
    obtain ⟨_, _, rfl⟩ := List.mem_map.1 h2
    exact hab.le
  · rw [graph_rowsOf]
    exact hac
  · intro a b hab he
    rw [graph_rowsOf, hr]
    exact SimpleGraph.Adj.reachable ((SimpleGraph.fromRel_adj _ _ _).2 ⟨hab.ne, Or.inl ⟨hab, he⟩⟩)

theorem exists_forest (level : ℕ) (nodes : List Node) : ∃ pairs, IsSpanningForest level nodes pairs := by
  obtain ⟨F, hle, hac, hr⟩ := (SimpleGraph.fromRel fun a b : Fin nodes.length => a < b ∧ eligible level nodes a b).exists_isAcyclic_reachable_eq_le
  exact ⟨rowsOf F, forest_rowsOf hle hac hr⟩

theorem exists_built (n k : ℕ) : ∃ nodes, Built n k nodes := by
  induction k with
  | zero => exact ⟨_, .roots⟩
  | succ k ih =>
    obtain ⟨nodes, h⟩ := ih
    obtain ⟨pairs, hp⟩ := exists_forest k nodes
    exact ⟨_, .next k nodes pairs h hp⟩

end Skfolio.Vine
