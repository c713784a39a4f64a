import Verif.Spec.Essential

/-! # What a partially directed graph shows of a class of graphs -/

namespace Spec

universe u
variable {α : Type u}

/-- The arcs are those that all members of the class of `E` under the targets `T` contain, the edges the pairs that
occur in both directions. -/
structure Represents (T : Set (Set α)) (E arc edge : α → α → Prop) : Prop where
  arcs : ∀ i j, arc i j ↔ ∀ F, EquivalentCut T E F → F i j
  edges : ∀ i j, edge i j ↔ (∃ F, EquivalentCut T E F ∧ F i j) ∧ ∃ F, EquivalentCut T E F ∧ F j i

/-- In `F`, the parents of `v` along the edges `edge` are the members of `s`. -/
def ParentsAre (edge F : α → α → Prop) (v : α) (s : Finset α) : Prop := ∀ i, i ∈ s ↔ edge i v ∧ F i v

end Spec
