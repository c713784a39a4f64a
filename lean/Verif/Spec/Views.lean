import Verif.Spec.Digraph
import Verif.Model.DAG

/-! # When the redundant views of a `DAG` object describe one and the same graph -/

namespace Model.DAG

universe u
variable {α : Type u}

/-- The adjacency views agree with the arc set, and arcs only mention nodes. -/
structure Consistent (G : DAG α) : Prop where
  parents_iff : ∀ i j, i ∈ G.parents j ↔ (i, j) ∈ G.arcs
  children_iff : ∀ i j, j ∈ G.children i ↔ (i, j) ∈ G.arcs
  neighbors_iff : ∀ i j, i ∈ G.neighbors j ↔ (i, j) ∈ G.arcs ∨ (j, i) ∈ G.arcs
  fst_mem : ∀ i j, (i, j) ∈ G.arcs → i ∈ G.nodes
  snd_mem : ∀ i j, (i, j) ∈ G.arcs → j ∈ G.nodes

/-- Consistent views of an acyclic graph: what `DAG` objects are meant to be. -/
structure Valid [DecidableEq α] (G : DAG α) : Prop extends Consistent G where
  acyclic : Spec.Acyclic G.E

end Model.DAG
