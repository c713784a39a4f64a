import Verif.Spec.Digraph
import Verif.Model.PDAG

/-! # When the redundant views of a `PDAG` object describe one and the same graph -/

namespace Model.PDAG

universe u
variable {α : Type u} [DecidableEq α]

/-- The adjacency views agree with the sets of arcs and edges, edges are two-element sets, arcs and edges only mention
nodes. -/
structure Consistent (P : PDAG α) : Prop where
  parents_iff : ∀ i j, i ∈ P.parents j ↔ (i, j) ∈ P.arcs
  children_iff : ∀ i j, j ∈ P.children i ↔ (i, j) ∈ P.arcs
  undirected_iff : ∀ i j, i ∈ P.undirected j ↔ {i, j} ∈ P.edges
  neighbors_iff : ∀ i j, i ∈ P.neighbors j ↔ (i, j) ∈ P.arcs ∨ (j, i) ∈ P.arcs ∨ {i, j} ∈ P.edges
  edge_pair : ∀ e ∈ P.edges, ∃ i j, i ≠ j ∧ e = {i, j}
  arc_mem : ∀ i j, (i, j) ∈ P.arcs → i ∈ P.nodes ∧ j ∈ P.nodes
  edge_mem : ∀ e ∈ P.edges, e ⊆ P.nodes

/-- No pair of nodes carries two arcs, or an arc and an edge; no arc is a loop. -/
structure Simple (P : PDAG α) : Prop where
  one_arc : ∀ i j, (i, j) ∈ P.arcs → (j, i) ∉ P.arcs
  no_edge : ∀ i j, (i, j) ∈ P.arcs → {i, j} ∉ P.edges

end Model.PDAG
