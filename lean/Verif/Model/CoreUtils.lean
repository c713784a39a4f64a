import Verif.Model.PDAG
import Verif.Model.Queries

/-! # `powerset`, `powerset_predicate` (core_utils.py) and their user `possible_parents` (pdag.py) -/

namespace Model

universe u
variable {α : Type u}

/-- `itertools.combinations(l, r)`, in the order of itertools. -/
def combinations : ℕ → List α → List (List α)
  | 0, _ => [[]]
  | _ + 1, [] => []
  | r + 1, x :: l => (combinations r l).map (x :: ·) ++ combinations (r + 1) l

variable [DecidableEq α]

/-- `powerset` (core_utils.py:64-66); `l` is the iteration order of the argument. -/
def powerset (l : List α) (rMin : ℕ) (rMax : Option ℕ) : List (Finset α) :=
  let rMax := rMax.getD l.length
  ((List.range' rMin (rMax + 1 - rMin)).flatMap fun r => combinations r l).map List.toFinset

/-- The loop over the set sizes in `powerset_predicate` (core_utils.py:70-77). -/
def powersetPredicateFrom (l : List α) (p : List α → Bool) : List ℕ → List (Finset α)
  | [] => []
  | r :: rs =>
      let found := (combinations r l).filter p
      if found.isEmpty then [] else found.map List.toFinset ++ powersetPredicateFrom l p rs

/-- `powerset_predicate` (core_utils.py:69-77). -/
def powersetPredicate (l : List α) (p : List α → Bool) : List (Finset α) :=
  powersetPredicateFrom l p (List.range (l.length + 1))

namespace PDAG

/-- `is_edge_clique` (pdag.py:828-832). -/
def isEdgeClique (P : PDAG α) (s : List α) : Bool := (DAG.pairs s).all fun a => P.hasEdge a.1 a.2

/-- `possible_parents` (pdag.py:834-835). -/
def possibleParents (o : SetOrder Unit α) (P : PDAG α) (v : α) : List (Finset α) :=
  powersetPredicate (o.ord () (P.undirected v)) P.isEdgeClique

end PDAG

end Model
