import Verif.Spec.CliqueTree
import Verif.Spec.PViews
import Mathlib.Data.Fin.Basic
import Mathlib.Logic.Function.Basic
import Mathlib.Data.ZMod.Defs

/-! # Chordal graphs -/

namespace Spec

universe u
variable {α : Type u} [DecidableEq α]

/-- Every cycle of at least four nodes has a chord: two nodes that are joined, but not next to each other on the cycle. -/
def Chordal (U : α → α → Prop) : Prop :=
  ∀ (n : ℕ) (c : Fin (n + 4) → α), Function.Injective c → (∀ i, U (c i) (c (i + 1))) →
    ∃ i j, j ≠ i ∧ j ≠ i + 1 ∧ i ≠ j + 1 ∧ U (c i) (c j)

/-- The nodes `i` and `j` are joined by one of the edges. -/
def Joined (edges : Finset (Finset α)) (i j : α) : Prop := {i, j} ∈ edges

end Spec
