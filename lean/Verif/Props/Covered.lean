import Verif.Props.Sample
import Verif.Proof.Reversals

/-! # C21, C22, C47, C48: covered arcs, reversals, imsets -/

namespace Props

open Model Model.DAG Spec Relation
universe u
variable {α : Type u} [DecidableEq α]

/-- C21. An arc is listed by `reversible_arcs()` iff replacing it by its reversal gives an acyclic graph with the same
v-structures. -/
theorem C21_reversible_arcs (G : DAG α) (hG : G.Valid) (i j : α) :
    (i, j) ∈ G.reversibleArcs ↔ (i, j) ∈ G.arcs ∧ Acyclic (Reverse G.E i j) ∧
      ∀ a c b, VStruct G.E a c b ↔ VStruct (Reverse G.E i j) a c b := by
  rw [mem_reversibleArcs hG]
  constructor
  · intro h; exact ⟨h.1, (covered_iff hG.acyclic h.1).1 h⟩
  · rintro ⟨h1, h2⟩; exact (covered_iff hG.acyclic h1).2 h2

example : Sample.diamond.reversibleArcs = {(0, 1), (0, 2)} := by decide

/-- C22. Two graphs with the same nodes, skeleton and v-structures are connected by calls of `reverse_arc` on arcs listed
by `reversible_arcs()`, one call per arc that is oriented differently; none of these calls raises, with or without the cycle check. -/
theorem C22_covered_reversals (G H : DAG α) (hG : G.Valid) (hH : H.Valid) (hn : G.nodes = H.nodes)
    (h : SameSkelV G.E H.E) (o : SetOrder (Option α) α) (check : Bool) :
    ∃ K, Reversals check o (G.arcs \ H.arcs).card G K ∧ K.Valid ∧ K.nodes = H.nodes ∧ K.arcs = H.arcs := by
  obtain ⟨K, h1, h2, h3, h4⟩ := exists_reversals hH o check _ G hG h rfl
  exact ⟨K, h1, h2, h3.trans hn, h4⟩

/-- `0 → 1 → 2` and `2 → 1 → 0`. -/
def Sample.right : DAG (Fin 3) := Sample.graph {(0, 1), (1, 2)}
def Sample.left : DAG (Fin 3) := Sample.graph {(1, 0), (2, 1)}

theorem Sample.right_valid : Sample.right.Valid := Sample.graph_valid (by decide)

theorem Sample.left_valid : Sample.left.Valid := by
  refine ⟨Sample.graph_consistent _, ?_⟩
  intro v hv
  have h1 : ∀ a b, Sample.left.E a b → b < a := by decide
  have hlt : ∀ a b, Path Sample.left.E a b → b < a := by
    intro a b hab
    induction hab with
    | single h => exact h1 _ _ h
    | tail _ h ih => exact lt_trans (h1 _ _ h) ih
  exact lt_irrefl _ (hlt v v hv)

theorem Sample.left_right : SameSkelV Sample.right.E Sample.left.E := by
  constructor
  · unfold Adj; decide
  · unfold VStruct Adj; decide

example : ∃ K, Reversals true Sample.order 2 Sample.right K ∧ K.Valid ∧ K.nodes = Sample.left.nodes ∧ K.arcs = Sample.left.arcs :=
  C22_covered_reversals Sample.right Sample.left Sample.right_valid Sample.left_valid rfl Sample.left_right
    Sample.order true

/-- C47. The arcs returned by `compute_covered_edges()` form a forest: as an undirected graph they contain no cycle, so
that graph is bipartite; and each node is the target of at most one of them. -/
theorem C47_covered_forest (G : DAG α) (hG : G.Valid) :
    (SimpleGraph.fromRel fun i j => (i, j) ∈ G.coveredEdges).IsAcyclic ∧
    (SimpleGraph.fromRel fun i j => (i, j) ∈ G.coveredEdges).IsBipartite ∧
    (∀ u u' v, (u, v) ∈ G.coveredEdges → (u', v) ∈ G.coveredEdges → u = u') ∧
    G.coveredEdges = G.reversibleArcs := by
  have heq : (fun i j => (i, j) ∈ G.coveredEdges) = Covered G.E := by
    funext i j; exact propext mem_coveredEdges
  have hf := covered_forest hG
  rw [heq]
  refine ⟨hf, hf.isBipartite, ?_, ?_⟩
  · intro u u' v h h'
    exact covered_unique hG.acyclic (mem_coveredEdges.1 h) (mem_coveredEdges.1 h')
  · ext ⟨i, j⟩; rw [mem_coveredEdges, mem_reversibleArcs hG]

example : Sample.diamond.coveredEdges = {(0, 1), (0, 2)} := by decide

/-- C48. Graphs with the same nodes, skeleton and v-structures have the same standard imset. -/
theorem C48_imset (G H : DAG α) (hG : G.Valid) (hH : H.Valid) (hn : G.nodes = H.nodes)
    (h : SameSkelV G.E H.E) : standardImset G ∅ = standardImset H ∅ := by
  have o : SetOrder (Option α) α := ⟨fun _ s => s.toList, fun _ s => s.nodup_toList, by simp⟩
  obtain ⟨K, h1, h2, h3, h4⟩ := exists_reversals hH o false _ G hG h rfl
  rw [imset_reversals h1 hG, imset_congr h2 hH (h3.trans hn) h4]

example : standardImset Sample.right ∅ = standardImset Sample.left ∅ ∧ standardImset Sample.right ∅ {1} = -1 :=
  ⟨C48_imset _ _ Sample.right_valid Sample.left_valid rfl Sample.left_right, by decide⟩

end Props
