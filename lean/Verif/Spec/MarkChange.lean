import Verif.Spec.Equivalence

/-!
# Changing one mark of a mixed graph
-/

namespace Spec

universe u
variable {α : Type u}

namespace Mixed

/-- The edge `i → j` becomes `i ↔ j`. -/
def toBi (M : Mixed α) (i j : α) : Mixed α :=
  ⟨fun u v => M.dir u v ∧ ¬ (u = i ∧ v = j), fun u v => M.bi u v ∨ (u = i ∧ v = j) ∨ (u = j ∧ v = i), M.un⟩

/-- The edge `i ↔ j` becomes `i → j`. -/
def toDir (M : Mixed α) (i j : α) : Mixed α :=
  ⟨fun u v => M.dir u v ∨ (u = i ∧ v = j), fun u v => M.bi u v ∧ ¬ (u = i ∧ v = j) ∧ ¬ (u = j ∧ v = i), M.un⟩

/-- A directed maximal ancestral graph with the nodes `V`. -/
structure DMAG (M : Mixed α) (V : Set α) : Prop where
  no_un : ∀ u v, ¬ M.un u v
  anc : M.Ancestral
  max : M.Maximal V

/-- The same adjacencies and the same unshielded colliders. -/
def SameColliders (M N : Mixed α) : Prop :=
  (∀ u v, M.Adj u v ↔ N.Adj u v) ∧ ∀ u v w, M.VStruct u v w ↔ N.VStruct u v w

/-- `N` is a directed maximal ancestral graph, Markov equivalent to `M` and different from it in one mark. -/
def MarkStep (V : Set α) (M N : Mixed α) : Prop :=
  N.DMAG V ∧ M.MarkovEquiv N V ∧ ((∃ i j, M.dir i j ∧ N = M.toBi i j) ∨ ∃ i j, M.bi i j ∧ N = M.toDir i j)

end Mixed

end Spec
