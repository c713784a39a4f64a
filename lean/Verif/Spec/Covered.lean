import Verif.Spec.Digraph

/-! # Covered arcs and their reversal -/

namespace Spec

universe u
variable {α : Type u}

/-- `i → j` is covered: apart from `i` itself, `j` has the same parents as `i`. -/
def Covered (E : α → α → Prop) (i j : α) : Prop := E i j ∧ ∀ p, E p i ↔ (E p j ∧ p ≠ i)

/-- `E` with the arc `i → j` replaced by `j → i`. -/
def Reverse (E : α → α → Prop) (i j : α) (a b : α) : Prop := (E a b ∧ ¬ (a = i ∧ b = j)) ∨ (a = j ∧ b = i)

end Spec
