import Verif.Model.Gauss
import Verif.Spec.Digraph

/-! # Graphs with a node list -/

namespace Model

open Spec

/-- Parents and children agree with the arcs, endpoints of arcs are nodes, no directed cycle. (Nothing is said about the
stored neighbors, which a failed `add_arc` may spoil.) -/
structure DAG.Sortable {α : Type} [DecidableEq α] (G : DAG α) : Prop where
  parents_iff : ∀ i j, i ∈ G.parents j ↔ (i, j) ∈ G.arcs
  children_iff : ∀ i j, j ∈ G.children i ↔ (i, j) ∈ G.arcs
  fst_mem : ∀ i j, (i, j) ∈ G.arcs → i ∈ G.nodes
  snd_mem : ∀ i j, (i, j) ∈ G.arcs → j ∈ G.nodes
  acyclic : Acyclic G.E

/-- A graph whose nodes are the entries of the node list, without repetition. -/
structure Listed {α : Type} [DecidableEq α] {n : ℕ} (G : DAG α) (names : Fin n → α) : Prop where
  valid : G.Sortable
  inj : Function.Injective names
  range : ∀ v, v ∈ G.nodes ↔ ∃ a, names a = v

/-- A `GaussDAG` whose arcs are the nonzero weights. -/
structure Gauss.Sound {n : ℕ} {K : Type} [Zero K] (G : Gauss n K) : Prop where
  listed : Listed G.dag G.names
  arcs_iff : ∀ a b : Fin n, (G.names a, G.names b) ∈ G.dag.arcs ↔ G.weight a b ≠ 0

/-- A `GaussDAG` on the node list `0, …, n-1` whose arcs are the nonzero weights. -/
structure Gauss.Plain {n : ℕ} {K : Type} [Zero K] (G : Gauss n K) : Prop extends G.Sound where
  names : ∀ a, G.names a = a.val

end Model
