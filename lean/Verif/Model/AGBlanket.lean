import Verif.Model.AG

/-! # `ancestral_graph.py`: `markov_blanket_of` -/

namespace Model.AG

universe u
variable {α : Type u} [DecidableEq α]

/-- `markov_blanket_of(node)` (ancestral_graph.py:1338-1339): the items of the dictionary. -/
def markovBlanketOf (A : AG α) (o : SetOrder (α × Finset α) α) (v : α) : Option (Finset (α × Finset α)) :=
  (A.districtOf o v).map fun D => D.image fun d => (d, A.parents d)

/-- `markov_blanket_of(node, flat=True)` (ancestral_graph.py:1340-1342). A district contains its node, so `set.union` has arguments. -/
def markovBlanketFlat (A : AG α) (o : SetOrder (α × Finset α) α) (v : α) : Option (Finset α) :=
  (A.districtOf o v).map fun D => D ∪ D.biUnion A.parents ∪ {v}

end Model.AG
