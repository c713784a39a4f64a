import Verif.Spec.Mixed
import Verif.Model.AG

/-! # When an `AncestralGraph` object describes one mixed graph -/

namespace Model.AG

universe u
variable {α : Type u} [DecidableEq α]

/-- The mixed graph described by the three edge sets. -/
def mixed (A : AG α) : Spec.Mixed α :=
  ⟨fun i j => (i, j) ∈ A.directed, fun i j => ({i, j} : Finset α) ∈ A.bidirected,
    fun i j => ({i, j} : Finset α) ∈ A.undirected⟩

/-- The adjacency views agree with the edge sets, edges join two different nodes. -/
structure Consistent (A : AG α) : Prop where
  parents_iff : ∀ i j, i ∈ A.parents j ↔ (i, j) ∈ A.directed
  children_iff : ∀ i j, j ∈ A.children i ↔ (i, j) ∈ A.directed
  spouses_iff : ∀ i j, i ∈ A.spouses j ↔ {i, j} ∈ A.bidirected
  neighbors_iff : ∀ i j, i ∈ A.neighbors j ↔ {i, j} ∈ A.undirected
  adjacent_iff : ∀ i j, i ∈ A.adjacent j ↔
    (i, j) ∈ A.directed ∨ (j, i) ∈ A.directed ∨ {i, j} ∈ A.bidirected ∨ {i, j} ∈ A.undirected
  dir_ne : ∀ i, (i, i) ∉ A.directed
  bi_pair : ∀ e ∈ A.bidirected, ∃ i j, i ≠ j ∧ e = {i, j}
  un_pair : ∀ e ∈ A.undirected, ∃ i j, i ≠ j ∧ e = {i, j}
  dir_mem : ∀ i j, (i, j) ∈ A.directed → i ∈ A.nodes ∧ j ∈ A.nodes
  bi_mem : ∀ e ∈ A.bidirected, e ⊆ A.nodes
  un_mem : ∀ e ∈ A.undirected, e ⊆ A.nodes

/-- At most one edge per pair of nodes; no arrowhead at a node with an undirected edge. -/
structure Simple (A : AG α) : Prop where
  dir_dir : ∀ i j, (i, j) ∈ A.directed → (j, i) ∉ A.directed
  dir_bi : ∀ i j, (i, j) ∈ A.directed → {i, j} ∉ A.bidirected
  dir_un : ∀ i j, (i, j) ∈ A.directed → {i, j} ∉ A.undirected
  bi_un : ∀ e ∈ A.bidirected, e ∉ A.undirected
  tails : ∀ i j k, {i, j} ∈ A.undirected → (k, i) ∉ A.directed ∧ {k, i} ∉ A.bidirected

/-- A mutator call with its arguments. -/
inductive Op (α : Type u)
  | addNode (v : α)
  | addDirected (i j : α)
  | addBidirected (i j : α)
  | addUndirected (i j : α)
  | removeDirected (ignoreError : Bool) (i j : α)
  | removeBidirected (ignoreError : Bool) (i j : α)
  | removeUndirected (ignoreError : Bool) (i j : α)
  | removeEdge (ignoreError : Bool) (i j : α)
  | removeNode (ignoreError : Bool) (v : α)

/-- What is nondeterministic in one call. -/
structure Orders (α : Type u) where
  children : SetOrder (Option α) α
  spouses : SetOrder (Option α) α
  del : SetOrder (Fin 4) α
  adjKey : Bool

/-- Execution of one call. -/
def Op.exec (w : Orders α) (A : AG α) : Op α → Option (Step α)
  | .addNode v => some ({ A with nodes := insert v A.nodes }, none)
  | .addDirected i j => A.addDirected w.children w.spouses i j
  | .addBidirected i j => some (A.addBidirected i j)
  | .addUndirected i j => some (A.addUndirected i j)
  | .removeDirected ig i j => some (A.removeDirected ig i j)
  | .removeBidirected ig i j => some (A.removeBidirected ig i j)
  | .removeUndirected ig i j => some (A.removeUndirected ig i j)
  | .removeEdge ig i j => some (A.removeEdge ig i j)
  | .removeNode ig v => some (A.removeNode ig w.adjKey w.del v)

/-- An edge is added between two different nodes. -/
def Op.Distinct : Op α → Prop
  | .addDirected i j => i ≠ j
  | .addBidirected i j => i ≠ j
  | .addUndirected i j => i ≠ j
  | _ => True

/-- The states an `AncestralGraph` object can be in: built by the constructor from pairs of different nodes, then any
calls that add edges between different nodes only or remove edges or nodes, whether they raise or not. -/
inductive Reachable : AG α → Prop
  | new (o : SetOrder (Fin 3) (α × α)) (nodes : Finset α) (d b u : Finset (α × α)) (A : AG α) :
      (∀ e ∈ d ∪ b ∪ u, e.1 ≠ e.2) → AG.new o nodes d b u = (A, none) → Reachable A
  | call (A : AG α) (w : Orders α) (op : Op α) (A' : AG α) (e) :
      Reachable A → op.Distinct → op.exec w A = some (A', e) → Reachable A'

end Model.AG
