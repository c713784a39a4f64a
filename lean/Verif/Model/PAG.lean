import Verif.Model.UGConvert

/-!
# `graphical_models/classes/mags/pag.py`

Labels are natural numbers: `to_amat` uses them as indices. The three mutators (pag.py:51-64) do nothing; `__eq__`, `__str__`, `copy` and
`circles` raise `NotImplementedError`.
-/

namespace Model

/-- pag.py:5-9. -/
@[ext]
structure PAG where
  nodes : Finset ℕ
  adjacencies : Finset (Finset ℕ)
  arrowheads : Finset (ℕ × ℕ)
  tails : Finset (ℕ × ℕ)

namespace PAG

/-- Body of the loop of `from_amat` (pag.py:31-38) for the entry `val` at `i, j`. -/
def readEntry (i j : ℕ) (val : ℤ) (P : PAG) : PAG :=
  let P := if val = 1 then { P with adjacencies := insert {i, j} P.adjacencies } else P
  let P := if val = 2 then
    { P with arrowheads := insert (i, j) P.arrowheads, adjacencies := insert {i, j} P.adjacencies } else P
  if val = 3 then { P with tails := insert (i, j) P.tails, adjacencies := insert {i, j} P.adjacencies } else P

/-- `np.ndenumerate` of a square matrix, as indices: row by row. -/
def indices (n : ℕ) : List (ℕ × ℕ) := (List.range n).flatMap fun i => (List.range n).map fun j => (i, j)

/-- `from_amat` (pag.py:26-39), for square matrices. -/
def fromAmat (A : Amat) : PAG :=
  (indices A.n).foldl (fun P p => readEntry p.1 p.2 (A.entry p.1 p.2) P) ⟨Finset.range A.n, ∅, ∅, ∅⟩

/-- `for i, j in pairs: amat[i, j] = x` (pag.py:47-50). -/
def setAll (x : ℤ) : List (ℕ × ℕ) → Amat → Except (Exn ℕ) Amat
  | [], A => .ok A
  | p :: ps, A => (A.set p.1 p.2 x).bind (setAll x ps)

/-- The first loop of `to_amat` (pag.py:44-46): unpacking a frozenset without two elements raises `ValueError`. -/
def setAdj (ou : SetOrder Unit ℕ) : List (Finset ℕ) → Amat → Except (Exn ℕ) Amat
  | [], A => .ok A
  | e :: es, A => (UG.unpack ou e).bind fun p => (setAll 1 [(p.1, p.2), (p.2, p.1)] A).bind (setAdj ou es)

/-- `to_amat` (pag.py:43-51). -/
def toAmat (oe : SetOrder Unit (Finset ℕ)) (ou : SetOrder Unit ℕ) (op : SetOrder Bool (ℕ × ℕ)) (P : PAG) : Except (Exn ℕ) Amat :=
  (setAdj ou (oe.ord () P.adjacencies) (.zeros P.nodes.card)).bind fun A =>
    (setAll 3 (op.ord false P.tails) A).bind (setAll 2 (op.ord true P.arrowheads))

/-- `shd_skeleton` (pag.py:92-93). -/
def shdSkeleton (P Q : PAG) : ℕ := (symmDiff P.adjacencies Q.adjacencies).card

end PAG

end Model
