import Verif.Model.DiscreteInherited
import Verif.Spec.Discrete

/-! # Calls that add arcs to a `DiscreteDAG` -/

namespace Model.DiscreteDAG

variable {α : Type} [DecidableEq α]

/-- The second object is the first one after calls of `add_arc` and `add_arcs_from` with nodes of the graph, none of which raised. -/
inductive Grown (D : DiscreteDAG α) : DiscreteDAG α → Prop
  | refl : Grown D D
  | addArc {D₁ D₂ : DiscreteDAG α} (o : SetOrder (Option α) α) {i j : α} (h : Grown D D₁) (hi : i ∈ D.dag.nodes) (hj : j ∈ D.dag.nodes)
      (hr : DiscreteDAG.addArc true o D₁ i j = some (D₂, none)) : Grown D D₂
  | addArcsFrom {D₁ D₂ : DiscreteDAG α} (o : SetOrder (Option α) α) (oa : SetOrder Bool (α × α)) {arcs : Finset (α × α)} (h : Grown D D₁)
      (ha : ∀ a ∈ arcs, a.1 ∈ D.dag.nodes ∧ a.2 ∈ D.dag.nodes) (hr : DiscreteDAG.addArcsFrom true o oa D₁ arcs = some (D₂, none)) :
      Grown D D₂

end Model.DiscreteDAG
