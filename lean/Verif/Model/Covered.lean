import Verif.Model.Queries

/-! # `dag.py`: covered edges, sequences of reversals -/

namespace Model

universe u
variable {α : Type u} [DecidableEq α]

namespace DAG

/-- `G.predecessors(v)` of the networkx graph built from the arcs (`to_nx`, dag.py:1773-1776). -/
def predecessors (G : DAG α) (v : α) : Finset α := (G.arcs.filter fun a => a.2 = v).image Prod.fst

/-- `compute_covered_edges` (dag.py:2675-2683). `v_parents.remove(u)` cannot raise, `u` being a predecessor of `v`. -/
def coveredEdges (G : DAG α) : Finset (α × α) :=
  G.arcs.filter fun a => G.predecessors a.1 = (G.predecessors a.2).erase a.1

/-- `n` calls of `reverse_arc`, each on an arc listed by `reversible_arcs()` of the current graph and each returning
normally, with the given `check_acyclic` and iteration orders. -/
inductive Reversals (check : Bool) (o : SetOrder (Option α) α) : ℕ → DAG α → DAG α → Prop
  | nil (G : DAG α) : Reversals check o 0 G G
  | cons {n : ℕ} {G G' H : DAG α} (i j : α) :
      (i, j) ∈ G.reversibleArcs → reverseArc false check o G i j = some (G', none) → Reversals check o n G' H →
      Reversals check o (n + 1) G H

end DAG

end Model
