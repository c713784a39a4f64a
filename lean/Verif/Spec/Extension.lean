import Verif.Spec.Digraph

/-! # Consistent extensions of a partially directed graph with arcs `A` and undirected edges `U` -/

namespace Spec

universe u
variable {α : Type u}

/-- The acyclic graph `F` orients the undirected edges without creating a v-structure. -/
structure Extends (A U F : α → α → Prop) : Prop where
  acyclic : Acyclic F
  adj : ∀ a b, Adj F a b ↔ Adj A a b ∨ U a b
  arcs : ∀ a b, A a b → F a b
  vstr : ∀ a c b, VStruct F a c b → A a c ∧ A b c

end Spec
