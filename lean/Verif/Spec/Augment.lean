import Verif.Spec.Digraph

/-! # A graph with one additional node that points at a set of targets -/

namespace Spec

universe u
variable {α : Type u}

/-- Arcs of the graph on `Option α` that consists of `E` and a fresh node `none` with children `I`. -/
inductive Augment (E : α → α → Prop) (I : Set α) : Option α → Option α → Prop
  | old {a b : α} : E a b → Augment E I (some a) (some b)
  | target {i : α} : i ∈ I → Augment E I none (some i)

end Spec
