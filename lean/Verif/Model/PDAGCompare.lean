import Verif.Model.Complete

/-! # Comparison of PDAGs (pdag.py) -/

namespace Model.PDAG

universe u
variable {α : Type u} [DecidableEq α]

/-- `{frozenset({*arc}) for arc in self._arcs} | self._edges` (pdag.py:843), also `skeleton` (pdag.py:262-263). -/
def skeleton (P : PDAG α) : Finset (Finset α) := P.arcs.image (fun a => {a.1, a.2}) ∪ P.edges

/-- The condition on `i, j` in `diff_type` (pdag.py:849-851). -/
def diffCond (P Q : PDAG α) (i j : α) : Bool :=
  (decide ((i, j) ∈ P.arcs) && decide ((i, j) ∉ Q.arcs)) || (decide ((j, i) ∈ P.arcs) && decide ((j, i) ∉ Q.arcs)) ||
    (decide ({i, j} ∈ P.edges) && decide ({i, j} ∉ Q.edges))

/-- `shd` (pdag.py:838-853); `up` is the order in which the two elements of a frozenset are unpacked. -/
def shd (up : Unpack α) (P Q : PDAG α) : ℕ :=
  let numAdditions := (P.skeleton \ Q.skeleton).card
  let numDeletions := (Q.skeleton \ P.skeleton).card
  let diffType := ((P.skeleton ∩ Q.skeleton).image up.fn).filter fun a => P.diffCond Q a.1 a.2
  numAdditions + numDeletions + diffType.card

/-- `shd_skeleton` (pdag.py:855-856). -/
def shdSkeleton (P Q : PDAG α) : ℕ := (symmDiff P.skeleton Q.skeleton).card

end Model.PDAG
