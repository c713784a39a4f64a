import Mathlib.Order.Defs.LinearOrder

/-! # Keys with the largest or smallest value -/

namespace Spec

variable {κ V : Type} [LinearOrder V]

/-- The key `k` has the best value. -/
def Best (minimize : Bool) (d : List (κ × V)) (k : κ) : Prop :=
  ∃ v, (k, v) ∈ d ∧ ∀ e ∈ d, if minimize then v ≤ e.2 else e.2 ≤ v

end Spec
