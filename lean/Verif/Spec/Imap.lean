import Verif.Spec.Mixed

/-! # I-maps among mixed graphs -/

namespace Spec.Mixed

universe u
variable {α : Type u}

/-- Every m-separation of `M` among the nodes `V` is one of `N`. -/
def Imap (M N : Mixed α) (V : Set α) : Prop := ∀ X Y Z, X ⊆ V → Y ⊆ V → Z ⊆ V → Disjoint X Y → Disjoint X Z → Disjoint Y Z →
  M.MSep X Y Z → N.MSep X Y Z

/-- `N` is `M` with some (maybe no) directed and bidirected edges taken away. -/
structure Sub (N M : Mixed α) : Prop where
  dir : ∀ x y, N.dir x y → M.dir x y
  bi : ∀ x y, N.bi x y → M.bi x y
  un : ∀ x y, N.un x y ↔ M.un x y
  bi_symm : ∀ x y, N.bi x y → N.bi y x

end Spec.Mixed
