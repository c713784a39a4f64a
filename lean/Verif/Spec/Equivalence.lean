import Verif.Spec.Mixed

/-!
# Markov equivalence of mixed graphs, discriminating paths (Spirtes and Richardson 1996)
-/

namespace Spec

universe u
variable {α : Type u}

namespace Mixed

/-- The two graphs have the same m-separations among the nodes of `V`. -/
def MarkovEquiv (M N : Mixed α) (V : Set α) : Prop :=
  ∀ A B C : Set α, A ⊆ V → B ⊆ V → C ⊆ V → Disjoint A B → Disjoint A C → Disjoint B C →
    (M.MSep A B C ↔ N.MSep A B C)

/-- `v` is a collider on any path through `u`, `v`, `w`. -/
def Collider (M : Mixed α) (u v w : α) : Prop := M.Into u v ∧ M.Into w v

/-- `u`, `v`, `w` is an unshielded collider. -/
def VStruct (M : Mixed α) (u v w : α) : Prop := u ≠ w ∧ M.Collider u v w ∧ ¬ M.Adj u w

/-- `x, qs, b, c` is a discriminating path for `b`: a path without repeated nodes, `x` and `c` not adjacent, at least one
node strictly between `x` and `b`, and each of these nodes a collider on the path and a parent of `c`. -/
structure Discriminating (M : Mixed α) (x : α) (qs : List α) (b c : α) : Prop where
  nonempty : qs ≠ []
  nodup : (x :: (qs ++ [b, c])).Nodup
  start : ¬ M.Adj x c
  parent : ∀ q ∈ qs, M.dir q c
  collider : ∀ u v w, [u, v, w] <:+: x :: (qs ++ [b]) → M.Collider u v w
  last : M.Adj b c

end Mixed

end Spec
