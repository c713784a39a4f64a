import Verif.Spec.Digraph

/-! # Members of an equivalence class, forced orientations -/

namespace Spec

universe u
variable {α : Type u}

/-- `F` is acyclic and has the skeleton and the v-structures of `E`. -/
def Equivalent (E F : α → α → Prop) : Prop := Acyclic F ∧ SameSkelV E F

/-- Exactly one of `i`, `j` belongs to one of the targets in `T`. -/
def CutBy (T : Set (Set α)) (i j : α) : Prop := ∃ I ∈ T, ¬ (i ∈ I ↔ j ∈ I)

/-- `F` is equivalent to `E` and orients the pairs cut by a target as `E` does. -/
def EquivalentCut (T : Set (Set α)) (E F : α → α → Prop) : Prop :=
  Equivalent E F ∧ ∀ i j, CutBy T i j → (E i j ↔ F i j)

/-- The targets given as a list of sets. -/
def targets (iv : List (Finset α)) : Set (Set α) := {I | ∃ s ∈ iv, I = (s : Set α)}

/-- The graph with all arcs into the nodes of `I` removed. -/
def Mutilated (E : α → α → Prop) (I : Finset α) (a b : α) : Prop := E a b ∧ b ∉ I

end Spec
