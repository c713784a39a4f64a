import Verif.Model.AGQueries
import Verif.Model.CoreUtils

/-!
# `ancestral_graph.py`: `_reachable`, `to_maximal`, `is_maximal`
-/

namespace Model

universe u
variable {α : Type u} [DecidableEq α]

namespace AG

/-- Local state of the loop in `_reachable`: the shared set `visited`, whether `True` has been returned, and `any(results)`
so far. -/
structure ReachState (α : Type u) where
  visited : Finset α
  returned : Bool
  any : Bool

/-- `_reachable(start_node, end_node, visited, allowed_edges={'b'}, predicate)` (ancestral_graph.py:1079-1108): the result and
`visited` afterwards. Only this choice of `allowed_edges` is used by the library. -/
def reachableB (A : AG α) (pred : α → Bool) (o : SetOrder (α × Finset α) α) (fin : α) (visited : Finset α) (start : α) :
    Option (Finset α × Bool) := do
  let st ← (o.ord (start, visited) ((A.spouses start).filter fun x => pred x)).foldlM
    (fun (st : ReachState α) nbr =>
      if st.returned then some st
      else if nbr ∈ st.visited then some st
      else if nbr = fin then some { st with visited := insert nbr st.visited, returned := true }
      else do
        let r ← reachableB A pred o fin (insert nbr st.visited) nbr
        return { visited := r.1, returned := false, any := st.any || r.2 })
    { visited := visited, returned := false, any := false }
  return (st.visited, st.returned || st.any)
partial_fixpoint

/-- All arbitrary orders in one pass of `to_maximal`. -/
structure MaxOracle (α : Type u) where
  top : SetOrder (Option α) α
  spouse : SetOrder (Option α) α
  kids : SetOrder α α
  comp : SetOrder (α × Finset α) α
  pop : Pick α
  nodes : SetOrder Unit α
  nbrs : SetOrder (α × α × Bool) α
  reach : SetOrder (α × Finset α) α

/-- `node2component` (ancestral_graph.py:1893-1896). -/
def node2component (cs : List (Finset α)) : α → Option ℕ :=
  cs.zipIdx.foldl (fun d c v => if v ∈ c.1 then some c.2 else d v) fun _ => none

/-- The body of the loop over `itr.product(nbrs1, nbrs2)` (ancestral_graph.py:1914-1922); a missing key of
`node2component` is a `KeyError`. -/
def checkNbrs (A : AG α) (w : MaxOracle α) (anc : α → Finset α) (comp : α → Option ℕ) (n : α × α)
    (acc : List (α × α)) (b : α × α) : Run α (List (α × α)) :=
  if comp b.1 = none ∨ comp b.2 = none then throw .key
  else if comp b.1 = comp b.2 ∧ b.1 ∈ anc n.2 ∧ b.2 ∈ anc n.1 then do
    let r ← (liftM (reachableB A (fun x => decide (x ∈ anc n.1 ∨ x ∈ anc n.2)) w.reach b.2 ∅ b.1) : Run α (Finset α × Bool))
    return if r.2 then acc ++ [n] else acc
  else pure acc

/-- `nbrs1` resp. `nbrs2` (ancestral_graph.py:1909-1910). -/
def outSet (A : AG α) (v : α) : Finset α := A.children v ∪ A.spouses v

/-- `induced_pairs` (ancestral_graph.py:1889-1924), with repetitions. -/
def inducedPairs (A : AG α) (w : MaxOracle α) : Run α (List (α × α)) := do
  let anc ← ancestorDict A w.top w.spouse w.kids
  let cs ← (liftM (cComponents A w.comp w.pop) : Run α (List (Finset α)))
  ((DAG.pairs (w.nodes.ord () A.nodes)).filter fun p => !A.hasAnyEdge p.1 p.2).foldlM
    (fun acc n =>
      ((w.nbrs.ord (n.1, n.2, false) (A.outSet n.1)).product (w.nbrs.ord (n.1, n.2, true) (A.outSet n.2))).foldlM
        (checkNbrs A w anc (node2component cs) n) acc)
    []

/-- `to_maximal()` (ancestral_graph.py:1886-1928); `w n` are the orders in the `n`-th pass. -/
def toMaximal (w : ℕ → MaxOracle α) (n : ℕ) (A : AG α) : Option (Step α) := do
  let r ← (inducedPairs A (w n)).run
  match r with
  | .error e => some (A, some e)
  | .ok ps =>
    match forEach (fun A e => A.addBidirected e.1 e.2) ps A with
    | (A', some e) => some (A', some e)
    | (A', none) => if ps.length = 0 then some (A', none) else toMaximal w (n + 1) A'
partial_fixpoint

/-- `any(self.msep(i, j, S) for S in ...)` -/
def anySep (A : AG α) (o : SepOracle α) (i j : α) : List (Finset α) → Option Bool
  | [] => some false
  | S :: Ss => (msep A o {i} {j} S).bind fun r => if r then some true else anySep A o i j Ss

/-- `to_maximal(new=False)` (ancestral_graph.py:1930-1934), the loop over the pairs still to do; `oS` is the iteration order of
`self._nodes - {i, j}`. -/
def toMaximalOld (o : SepOracle α) (oS : SetOrder (α × α) α) : List (α × α) → AG α → Option (Step α)
  | [], A => some (A, none)
  | p :: ps, A =>
    if A.hasAnyEdge p.1 p.2 then toMaximalOld o oS ps A
    else (anySep A o p.1 p.2 (powerset (oS.ord p (A.nodes \ {p.1, p.2})) 0 none)).bind fun r =>
      if r then toMaximalOld o oS ps A
      else
        match A.addBidirected p.1 p.2 with
        | (A', some e) => some (A', some e)
        | (A', none) => toMaximalOld o oS ps A'

/-- `is_maximal()` (ancestral_graph.py:1371-1373): result and exception. -/
def isMaximal (A : AG α) (o : SetOrder (Fin 3) (α × α)) (up : Unpack α) (w : ℕ → MaxOracle α) :
    Option (Except (Exn α) Bool) :=
  match A.copy o up with
  | (_, some e) => some (.error e)
  | (B, none) =>
    (toMaximal w 0 B).map fun r =>
      match r with
      | (_, some e) => .error e
      | (C, none) => .ok (C.beq A)

/-- `is_maximal(new=False)`. -/
def isMaximalOld (A : AG α) (o : SetOrder (Fin 3) (α × α)) (up : Unpack α) (os : SepOracle α) (on : SetOrder Unit α)
    (oS : SetOrder (α × α) α) : Option (Except (Exn α) Bool) :=
  match A.copy o up with
  | (_, some e) => some (.error e)
  | (B, none) =>
    (toMaximalOld os oS (DAG.pairs (on.ord () B.nodes)) B).map fun r =>
      match r with
      | (_, some e) => .error e
      | (C, none) => .ok (C.beq A)

end AG

end Model
