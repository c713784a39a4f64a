import Verif.Model.Queries

/-! # `dag.py`: `resolved_sinks` and the skeleton confusion matrix -/

namespace Model

universe u
variable {α : Type u} [DecidableEq α]

namespace DAG

/-- `_is_resolved_sink` (dag.py:2324-2328). -/
def isResolvedSink (G H : DAG α) (v : α) (res : Finset α) : Bool :=
  decide (G.children v \ res = ∅) && decide (H.children v \ res = ∅) && decide (G.parents v = H.parents v)

/-- The nodes found in one round (dag.py:2354). -/
def newlyResolved (G H : DAG α) (res : Finset α) : Finset α :=
  (G.nodes \ res).filter fun v => G.isResolvedSink H v res

/-- The `while True` loop of `resolved_sinks` (dag.py:2353-2357). -/
def resolvedLoop (G H : DAG α) (res : Finset α) : Option (Finset α) :=
  if newlyResolved G H res = ∅ then some (res ∪ newlyResolved G H res)
  else resolvedLoop G H (res ∪ newlyResolved G H res)
partial_fixpoint

/-- `resolved_sinks` (dag.py:2352-2359). -/
def resolvedSinks (G H : DAG α) : Option (Finset α) := resolvedLoop G H ∅

end DAG

end Model
