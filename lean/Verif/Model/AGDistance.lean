import Verif.Model.AGQueries

/-! # `graphical_models/classes/mags/ancestral_graph.py`: `shd_skeleton`, `as_hashed` -/

namespace Model.AG

universe u
variable {α : Type u} [DecidableEq α]

/-- `shd_skeleton(other)` (ancestral_graph.py:1625-1644). -/
def shdSkeleton (A B : AG α) : ℕ := ((A.skeleton \ B.skeleton) ∪ (B.skeleton \ A.skeleton)).card

/-- `as_hashed()` (ancestral_graph.py:1646-1654); as elsewhere an unordered pair stands for its sorted tuple. -/
def asHashed (A : AG α) : Finset (α × α) × Finset (Finset α) × Finset (Finset α) := (A.directed, A.bidirected, A.undirected)

end Model.AG
