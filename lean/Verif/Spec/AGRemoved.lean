import Verif.Spec.AGViews

/-! # The ancestral graph without a node -/

namespace Model.AG

universe u
variable {α : Type u} [DecidableEq α]

/-- `A'` is `A` without the node `v` and its edges, with consistent views. -/
def Removed (A A' : AG α) (v : α) : Prop :=
  A'.Consistent ∧ A'.nodes = A.nodes.erase v ∧
  (∀ i j, (i, j) ∈ A'.directed ↔ (i, j) ∈ A.directed ∧ i ≠ v ∧ j ≠ v) ∧
  (∀ e, e ∈ A'.bidirected ↔ e ∈ A.bidirected ∧ v ∉ e) ∧ (∀ e, e ∈ A'.undirected ↔ e ∈ A.undirected ∧ v ∉ e)

end Model.AG
