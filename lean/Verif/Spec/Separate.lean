import Verif.Spec.SemiMarkovian

/-! # Factors that are independent of each other given some variables -/

namespace Spec

universe u v
variable {α : Type u} [DecidableEq α] [Fintype α] {β : Type v} [DecidableEq β] [Fintype β]

/-- The value of `F` does not depend on the variables in `D`. -/
def FreeOf (F : (α → β) → ℝ) (D : Finset α) : Prop := ∀ w x, (∀ v, v ∉ D → w v = x v) → F w = F x

/-- Two factors share no variable except those in `d`, and neither depends on the other variables of the other one. -/
def Separate (P : Finset α → (α → β) → ℝ) (d : Finset α) (t s : Model.Formula α) : Prop :=
  Disjoint (t.active \ d) (s.active \ d) ∧ FreeOf (meaning P t) (s.active \ d) ∧ FreeOf (meaning P s) (t.active \ d)

end Spec
