import Verif.Spec.Digraph

/-! # Separation in undirected graphs -/

namespace Spec

universe u
variable {α : Type u}

/-- `l` is a walk from `a` to `b` along undirected edges. -/
structure UWalk (adj : α → α → Prop) (a b : α) (l : List α) : Prop where
  head : l.head? = some a
  last : l.getLast? = some b
  chain : List.IsChain adj l

/-- Every walk from `A` to `B` meets `C`. -/
def USep (adj : α → α → Prop) (A B C : Set α) : Prop :=
  ∀ a ∈ A, ∀ b ∈ B, ∀ l, UWalk adj a b l → ∃ v ∈ l, v ∈ C

end Spec
