import Verif.Model.UGHeap

/-! # The same steps on values: every object is a value of its own, sets in the hands of the caller do not matter -/

namespace Model.Heap

universe u
variable {α : Type u} [DecidableEq α]

/-- Something is done with the `k`-th graph, if there is one. -/
def onVal (k : ℕ) (P : List (UG α)) (f : UG α → List (UG α) × Out α) : List (UG α) × Out α :=
  match P[k]? with
  | some U => f U
  | none => (P, .done)

/-- One step of the caller. -/
def execV (w : UOrders α) (P : List (UG α)) : Act α → List (UG α) × Out α
  | .new nodes edges => (P ++ [UG.new w.oe w.ou nodes edges], .done)
  | .copy k => onVal k P fun U =>
      match UG.copy w.oe w.ou U with
      | .ok V => (P ++ [V], .done)
      | .error e => (P, .raised e)
  | .addEdge k i j => onVal k P fun U => (P.set k (U.addEdge i j), .done)
  | .deleteEdge k i j => onVal k P fun U => (P.set k (U.deleteEdge i j).1, .of (U.deleteEdge i j).2)
  | .deleteNode k v => onVal k P fun U => (P.set k (U.deleteNode w.on v).1, .of (U.deleteNode w.on v).2)
  | .nodes k => onVal k P fun U => (P, .nodeSet U.nodes)
  | .edges k => onVal k P fun U => (P, .edgeSet U.edges)
  | .neighborsOf k v => onVal k P fun U => (P, .nodeSet (U.neighbors v))
  | .neighbors k => onVal k P fun U => (P, .dict ((w.on.ord () U.nodes).map fun v => (v, U.neighbors v)))
  | .change _ _ | .changeE _ _ | .changeLent _ _ => (P, .done)

/-- All steps. -/
def runV : List (UOrders α × Act α) → List (UG α) → List (UG α) × List (Out α)
  | [], P => (P, [])
  | (w, a) :: l, P => ((runV l (execV w P a).1).1, (execV w P a).2 :: (runV l (execV w P a).1).2)

/-- The graphs in the memory, as values. -/
def views (h : Heap α) : List (UG α) := (List.range h.count).map h.view

/-- The step does not change a set that the property `neighbors` has returned. -/
def Act.Discreet : Act α → Prop
  | .changeLent _ _ => False
  | _ => True

end Model.Heap
