import Verif.Spec.Essential

/-! # Compelled and undecided pairs of an equivalence class -/

namespace Spec

universe u
variable {α : Type u}

/-- Every graph of the class of `E` contains `i → j`. -/
def Compelled (E : α → α → Prop) (i j : α) : Prop := ∀ F, Equivalent E F → F i j

/-- The class of `E` contains graphs with `i → j` and graphs with `j → i`. -/
def Undecided (E : α → α → Prop) (i j : α) : Prop :=
  (∃ F, Equivalent E F ∧ F i j) ∧ ∃ F, Equivalent E F ∧ F j i

end Spec
