import Verif.Model.Undirected

/-! # When the redundant views of an `UndirectedGraph` object describe one and the same graph -/

namespace Model.UG

universe u
variable {α : Type u} [DecidableEq α]

/-- Edges are two-element sets, `neighbors` lists exactly the other endpoints, `degrees` counts them. -/
structure Consistent (U : UG α) : Prop where
  edge_pair : ∀ e ∈ U.edges, ∃ i j, i ≠ j ∧ e = {i, j}
  neighbors_iff : ∀ i j, j ∈ U.neighbors i ↔ {i, j} ∈ U.edges
  degree : ∀ i, U.degrees i = (U.neighbors i).card

/-- Every endpoint of an edge is a node. -/
def Closed (U : UG α) : Prop := ∀ e ∈ U.edges, e ⊆ U.nodes

/-- A mutator call with its arguments. -/
inductive Op (α : Type u)
  | addEdge (i j : α)
  | deleteEdge (i j : α)
  | deleteNode (v : α)

/-- Execution of one call. -/
def Op.exec (on : SetOrder Unit α) (U : UG α) : Op α → Step α
  | .addEdge i j => (U.addEdge i j, none)
  | .deleteEdge i j => U.deleteEdge i j
  | .deleteNode v => U.deleteNode on v

/-- The states an `UndirectedGraph` object can be in: built by the constructor, then any calls allowed by `ok`, whether
they raise or not. -/
inductive Reachable (ok : UG α → Op α → Prop) : UG α → Prop
  | new (oe : SetOrder Unit (Finset α)) (ou : SetOrder Unit α) (nodes edges) : Reachable ok (UG.new oe ou nodes edges)
  | call (U : UG α) (on : SetOrder Unit α) (op : Op α) : Reachable ok U → ok U op → Reachable ok (op.exec on U).1

end Model.UG
