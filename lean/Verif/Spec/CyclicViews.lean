import Verif.Spec.AGViews
import Verif.Model.Cyclic

/-! # The states of the objects of `cyclic_graph.py` -/

namespace Model.CyclicG

universe u
variable {α : Type u} [DecidableEq α]

/-- A call with its arguments; `read l` is a query that looks at `_parents` for the nodes of `l`. -/
inductive Op (α : Type u)
  | read (l : List α)
  | addNode (v : α)
  | addDirected (i j : α)
  | addBidirected (i j : α)
  | addUndirected (i j : α)
  | removeDirected (ignoreError : Bool) (i j : α)
  | removeBidirected (ignoreError : Bool) (i j : α)
  | removeUndirected (ignoreError : Bool) (i j : α)
  | removeNode (ignoreError : Bool) (v : α)

/-- Execution of one call. -/
def Op.exec (w : AG.Orders α) (C : CyclicG α) : Op α → Option (Step α)
  | .read l => some (C.read l, none)
  | .addNode v => some (C.addNode v, none)
  | .addDirected i j => C.addDirected w.children w.spouses i j
  | .addBidirected i j => some (C.addBidirected i j)
  | .addUndirected i j => some (C.addUndirected i j)
  | .removeDirected ig i j => some (C.removeDirected ig i j)
  | .removeBidirected ig i j => some (C.removeBidirected ig i j)
  | .removeUndirected ig i j => some (C.removeUndirected ig i j)
  | .removeNode ig v => some (C.removeNode ig w.adjKey w.del v)

/-- An edge is added between two different nodes. -/
def Op.Distinct : Op α → Prop
  | .addDirected i j => i ≠ j
  | .addBidirected i j => i ≠ j
  | .addUndirected i j => i ≠ j
  | _ => True

/-- The states of an object built by the constructor from pairs of different nodes, on which nothing but queries has been
called. -/
inductive Built : CyclicG α → Prop
  | new (o : SetOrder (Fin 3) (α × α)) (nodes : Finset α) (d b u : Finset (α × α)) (C : CyclicG α) :
      (∀ e ∈ d ∪ b ∪ u, e.1 ≠ e.2) → CyclicG.new o nodes d b u = (C, none) → Built C
  | read (C : CyclicG α) (l : List α) : Built C → Built (C.read l)

/-- The states an object can be in: built by the constructor from pairs of different nodes, then any calls that add edges
between different nodes only or remove edges or nodes, whether they raise or not. -/
inductive Reachable : CyclicG α → Prop
  | new (o : SetOrder (Fin 3) (α × α)) (nodes : Finset α) (d b u : Finset (α × α)) (C : CyclicG α) :
      (∀ e ∈ d ∪ b ∪ u, e.1 ≠ e.2) → CyclicG.new o nodes d b u = (C, none) → Reachable C
  | call (C : CyclicG α) (w : AG.Orders α) (op : Op α) (C' : CyclicG α) (e) :
      Reachable C → op.Distinct → op.exec w C = some (C', e) → Reachable C'

/-- The parents and spouses of every node are iterated in the order of `sorted`. -/
def Increasing (o : SetOrder α α) (srt : Unpack α) (C : CyclicG α) : Prop :=
  ∀ v, ∀ p ∈ DAG.pairs (o.ord v (C.base.parents v ∪ C.base.spouses v)), srt.fn {p.1, p.2} = p

end Model.CyclicG
