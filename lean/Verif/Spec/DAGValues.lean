import Verif.Model.DAGHeap

/-! # The same steps on values: every `DAG` object is a value of its own, sets in the hands of the caller do not matter -/

namespace Model.DHeap

universe u
variable {α : Type u} [DecidableEq α]

/-- Something is done with the `k`-th graph, if there is one. -/
def onVal (k : ℕ) (P : List (DAG α)) (f : DAG α → Option (List (DAG α) × Out α)) : Option (List (DAG α) × Out α) :=
  match P[k]? with
  | some G => f G
  | none => some (P, .done)

/-- One step of the caller. -/
def stepV (w : DAG.Orders α) (P : List (DAG α)) : Act α → Option (List (DAG α) × Out α)
  | .new nodes arcs =>
      match DAG.new w.top w.arcs nodes arcs with
      | none => none
      | some (G, none) => some (P ++ [G], .done)
      | some (_, some e) => some (P, .raised e)
  | .copy k => onVal k P fun G => some (P ++ [G], .done)
  | .call k op => onVal k P fun G =>
      match op.exec w G with
      | none => none
      | some (G', e) => some (P.set k G', .of e)
  | .nodes k => onVal k P fun G => some (P, .nodeSet G.nodes)
  | .arcs k => onVal k P fun G => some (P, .arcSet G.arcs)
  | .parents k => onVal k P fun G => some (P, .dict G.parents)
  | .children k => onVal k P fun G => some (P, .dict G.children)
  | .neighbors k => onVal k P fun G => some (P, .dict G.neighbors)
  | .parentsOf k v => onVal k P fun G => some (P, .nodeSet (G.parents v))
  | .childrenOf k v => onVal k P fun G => some (P, .nodeSet (G.children v))
  | .neighborsOf k v => onVal k P fun G => some (P, .nodeSet (G.neighbors v))
  | .change _ _ | .changeArcs _ _ => some (P, .done)

/-- All steps. -/
def runV : List (DAG.Orders α × Act α) → List (DAG α) → Option (List (DAG α) × List (Out α))
  | [], P => some (P, [])
  | (w, a) :: l, P =>
      match stepV w P a with
      | none => none
      | some (P', x) => (runV l P').map fun r => (r.1, x :: r.2)

/-- The graphs in the memory, as values. -/
def views (h : DHeap α) : List (DAG α) := (List.range h.count).map h.view

end Model.DHeap
