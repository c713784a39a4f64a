import Verif.Spec.Covered
import Verif.Spec.Markov

/-! # Single edge operations between directed graphs -/

namespace Spec

universe u
variable {α : Type u}

/-- `E` with the arc `x → t` added. -/
def WithArc (E : α → α → Prop) (x t : α) (a b : α) : Prop := E a b ∨ (a = x ∧ b = t)

/-- `E'` results from `E` by adding one arc between nodes of `V` that were not adjacent, or by reversing one
covered arc. -/
inductive EdgeOperation (V : Set α) (E : α → α → Prop) : (α → α → Prop) → Prop
  | add (x t : α) (hx : x ∈ V) (ht : t ∈ V) (h : ¬ Adj E x t) : EdgeOperation V E (WithArc E x t)
  | reverse (i j : α) (h : Covered E i j) : EdgeOperation V E (Reverse E i j)

end Spec
