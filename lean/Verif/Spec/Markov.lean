import Verif.Spec.Digraph

/-! # Comparing the separations of two directed graphs -/

namespace Spec

universe u
variable {α : Type u}

/-- All separations of `E` among nodes of `T` hold in `F`. -/
def SubModel (E F : α → α → Prop) (T : Set α) : Prop :=
  ∀ A B C : Set α, A ⊆ T → B ⊆ T → C ⊆ T → Disjoint A B → Disjoint A C → Disjoint B C →
    DSep E A B C → DSep F A B C

/-- `E` without the arc `i → j`. -/
def Without (E : α → α → Prop) (i j : α) (a b : α) : Prop := E a b ∧ ¬ (a = i ∧ b = j)

end Spec
