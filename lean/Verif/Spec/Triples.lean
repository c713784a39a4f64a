import Mathlib.Data.Finset.Card
import Verif.Spec.Mixed

/-!
# Sets of nodes that no conditioning separates (Hu and Evans 2020, "Faster algorithms for Markov equivalence")
-/

namespace Spec

universe u
variable {α : Type u}

namespace Mixed

/-- No two members of `s` are m-separated by a set of nodes of `V` that contains all other members of `s`. -/
def Inseparable (M : Mixed α) (V : Set α) (s : Finset α) : Prop :=
  ∀ a ∈ s, ∀ b ∈ s, a ≠ b → ∀ Z ⊆ V, a ∉ Z → b ∉ Z → (∀ c ∈ s, c ≠ a → c ≠ b → c ∈ Z) → ¬ M.MSep {a} {b} Z

/-- Three nodes, some but not all of them adjacent, that are inseparable. -/
structure InsepTriple (M : Mixed α) (V : Set α) (s : Finset α) : Prop where
  card : s.card = 3
  sub : ∀ a ∈ s, a ∈ V
  edge : ∃ a ∈ s, ∃ b ∈ s, M.Adj a b
  gap : ∃ a ∈ s, ∃ b ∈ s, a ≠ b ∧ ¬ M.Adj a b
  insep : M.Inseparable V s

end Mixed

end Spec
