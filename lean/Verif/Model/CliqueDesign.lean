import Verif.Model.CliqueTree
import Verif.Model.Design

/-!
# `dag.py`: `optimal_fully_orienting_single_node_interventions` with `new=True`

The result is a set to which every component adds nodes, so the order of the components, of the cliques of a component and of the pairs of
cliques is left out. `max_intersection` (dag.py:2892) is not used by the code.
-/

namespace Model

universe u
variable {α : Type u}

/-- The slice `l[::2]`. -/
def everyOther : List α → List α
  | [] => []
  | [a] => [a]
  | a :: _ :: l => a :: everyOther l

variable [DecidableEq α]

/-- The loop over `sorted_common_head` (dag.py:2913-2921), which counts nodes that are not intervened on. -/
def fillHead : List α → ℕ → Finset α → Finset α
  | [], _, s => s
  | v :: l, n, s => if v ∈ s then fillHead l 0 s else if n + 1 = 2 then fillHead l 0 (insert v s) else fillHead l (n + 1) s

namespace DAG

/-- `self.induced_subgraph(nodes).topological_sort()` (dag.py:2882, 2885). -/
def sortedNodes (o : SetOrder (Option α) α) (oa : SetOrder Bool (α × α)) (G : DAG α) (nodes : Finset α) : Run α (List α) :=
  ExceptT.mk ((inducedSubgraph o oa G nodes).bind fun
    | (H, none) => (H.topologicalSort o).run
    | (_, some x) => some (.error x))

open scoped Classical in
/-- `_verification_optimal_helper` (dag.py:2876-2922). -/
noncomputable def verificationOptimalHelper (o : SetOrder (Option α) α) (oa : SetOrder Bool (α × α)) (G : DAG α)
    (k : Finset (Finset α)) (parent : Finset α) : Run α (Finset α) :=
  if k.card = 1 then do
    let l ← sortedNodes o oa G (k.sup id \ parent)
    return (everyOther (l.drop 1)).toFinset
  else do
    let l ← sortedNodes o oa G (k.sup id)
    let common := (k.biUnion fun c => k.biUnion fun d => if c = d then ∅ else c ∩ d) \ parent
    let sel := fun s : Finset α => l.filter fun v => decide (v ∈ s)
    let s := k.biUnion fun c =>
      let head := sel (c ∩ common)
      let tail := sel ((c \ common) \ parent)
      (everyOther (tail.reverse.drop 1)).toFinset ∪ (if tail.length % 2 = 1 then head.getLast?.toFinset else ∅)
    return fillHead (sel common) 0 s

/-- `optimal_fully_orienting_single_node_interventions` with `new=True` (dag.py:2754-2766), applied to the contracted tree. -/
noncomputable def optimalFromTree (on : SetOrder Unit (Finset (Finset α))) (op : SetOrder (Finset (Finset α)) (Finset (Finset α)))
    (o : SetOrder (Option α) α) (oa : SetOrder Bool (α × α)) (G : DAG α) (T : Contracted α) : Run α (Finset α) :=
  (on.ord () T.nodes).foldlM (fun s k => do
    let s' ← verificationOptimalHelper o oa G k (parentUnion op T k)
    return s ∪ s') ∅

/-- The whole of `optimal_fully_orienting_single_node_interventions(new=True)`; `cl` and `tie` are as in `directedCliqueTree`. -/
noncomputable def optimalNew (tie : Finset α → Finset α → Bool) (on : SetOrder Unit (Finset (Finset α)))
    (op : SetOrder (Finset (Finset α)) (Finset (Finset α))) (o : SetOrder (Option α) α) (oa : SetOrder Bool (α × α)) (G : DAG α)
    (cl : List (Finset α)) : Run α (Finset α) :=
  match directedCliqueTree tie G cl with
  | none => ExceptT.mk none
  | some T => optimalFromTree on op o oa G (contract cl T)

end DAG

end Model
