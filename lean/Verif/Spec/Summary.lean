import Verif.Spec.Views
import Verif.Model.PDAG

/-! # Partially directed graphs as summaries of sets of graphs -/

namespace Spec

open Model

universe u
variable {α : Type u} [DecidableEq α]

/-- `P` shows what the graphs on the nodes of `G` with the property `Q` have in common: an arc if all of them have it, an edge if it is an
arc in one direction in some of them and in the other direction in others. -/
structure Summarises (P : PDAG α) (G : DAG α) (Q : DAG α → Prop) : Prop where
  arcs : ∀ i j, (i, j) ∈ P.arcs ↔ ∀ H : DAG α, H.Valid → H.nodes = G.nodes → Q H → (i, j) ∈ H.arcs
  edges : ∀ i j, P.hasEdge i j = true ↔ (∃ H : DAG α, H.Valid ∧ H.nodes = G.nodes ∧ Q H ∧ (i, j) ∈ H.arcs) ∧
    ∃ H : DAG α, H.Valid ∧ H.nodes = G.nodes ∧ Q H ∧ (j, i) ∈ H.arcs

end Spec
