import Verif.Model.AGEquiv

/-!
# Mark changes of `AncestralGraph`

`legitimate_mark_changes`, `_no_other_path` and `get_all_mec`.
-/

namespace Model

universe u
variable {α : Type u} [DecidableEq α]

/-- Orders used by `legitimate_mark_changes`: those of `discriminating_paths` and of `ancestor_dict`. -/
structure MarkOracle (α : Type u) where
  disc : DiscOracle α
  top : SetOrder (Option α) α
  spouse : SetOrder (Option α) α
  kids : SetOrder α α

namespace AG

/-- `_no_other_path(i, j, ancestor_dict)` (ancestral_graph.py:1676-1681). -/
def noOtherPath (A : AG α) (anc : α → Finset α) (i j : α) : Bool :=
  decide (((anc j).erase i) ∩ A.children i = ∅)

/-- `parents_condition` is empty (ancestral_graph.py:1427-1430, 1460-1463, in the other branch 1411, 1419). -/
def parentsCond (A : AG α) (i j : α) : Bool := decide (A.parents i \ A.parents j = ∅)

/-- `disc_paths_condition is not None` (ancestral_graph.py:1446-1449): some path of the dictionary ends with `i, j`. All
paths of the dictionary have at least four nodes, so that the indices `-2` and `-1` exist. -/
def discBlocked (d : PathDict α) (i j : α) : Bool :=
  (d.map Prod.fst).any fun path => decide (path.dropLast.getLast? = some i) && decide (path.getLast? = some j)

/-- The unordered edges in both orientations (ancestral_graph.py:1456-1457, 1415-1417). In the first place the second
orientations are `reversed` iterators; unpacking each of them once gives the pair. -/
def bothOrientations (A : AG α) : Finset (α × α) := A.bidirected.biUnion Finset.offDiag

/-- `legitimate_mark_changes(strict=True)` (ancestral_graph.py:1402-1403, 1422-1486). The loops with `continue` are filters. -/
def legitimateMarkChanges (w : MarkOracle α) (A : AG α) : Run α (Finset (α × α) × Finset (α × α)) :=
  if A.undirected.Nonempty then throw .value
  else do
    let d ← A.discriminatingPaths w.disc
    let anc ← ancestorDict A w.top w.spouse w.kids
    return (
      A.directed.filter fun e => A.parentsCond e.1 e.2 ∧ (A.spouses e.1 \ A.spouses e.2) \ A.parents e.2 = ∅ ∧
        A.noOtherPath anc e.1 e.2 ∧ !discBlocked d e.1 e.2,
      A.bothOrientations.filter fun e => A.parentsCond e.1 e.2 ∧
        ((A.spouses e.1).erase e.2 \ A.spouses e.2) \ A.parents e.2 = ∅ ∧
        A.noOtherPath anc e.1 e.2 ∧ !discBlocked d e.1 e.2)

/-- `legitimate_mark_changes(strict=False)` (ancestral_graph.py:1402-1421). -/
def looseMarkChanges (w : MarkOracle α) (A : AG α) : Run α (Finset (α × α) × Finset (α × α)) :=
  if A.undirected.Nonempty then throw .value
  else do
    let anc ← ancestorDict A w.top w.spouse w.kids
    return (
      A.directed.filter fun e => A.parentsCond e.1 e.2 ∧ (A.spouses e.1 \ A.parents e.2) \ A.spouses e.2 = ∅ ∧
        A.noOtherPath anc e.1 e.2,
      A.bothOrientations.filter fun e => A.parentsCond e.1 e.2 ∧
        ((A.spouses e.1).erase e.2 \ A.parents e.2) \ A.spouses e.2 = ∅)

/-- The graph after a call, or its exception. -/
def ofStep (r : Option (Step α)) : Run α (AG α) :=
  match r with
  | none => ExceptT.mk none
  | some (A, none) => pure A
  | some (_, some e) => throw e

end AG

/-- Orders used in one round of `get_all_mec`: those of `legitimate_mark_changes`, of the two loops over its results, of
`copy` and of the topological sort in `add_directed`. -/
structure MecOracle (α : Type u) [DecidableEq α] where
  marks : MarkOracle α
  loop : SetOrder Bool (α × α)
  copy : Bool → α × α → SetOrder (Fin 3) (α × α)
  unpack : Bool → α × α → Unpack α
  children : α × α → SetOrder (Option α) α
  spouses : α × α → SetOrder (Option α) α

namespace AG

/-- The pair of frozensets by which graphs are recognised (ancestral_graph.py:1603). -/
abbrev Key (α : Type u) := Finset (α × α) × Finset (Finset α)

/-- Body of the loop over `lmcs_dir` (ancestral_graph.py:1606-1613); `queue` has the top of the stack first. -/
def pushBi (w : MecOracle α) (mag : AG α) (visited : Finset (Key α)) (queue : List (AG α)) (e : α × α) : Run α (List (AG α)) :=
  if (mag.directed.erase e, insert {e.1, e.2} mag.bidirected) ∈ visited then pure queue
  else do
    let A ← ofStep (some (mag.copy (w.copy false e) (w.unpack false e)))
    let A ← ofStep (some (A.removeDirected false e.1 e.2))
    let A ← ofStep (some (A.addBidirected e.1 e.2))
    return A :: queue

/-- Body of the loop over `lmcs_bidir` (ancestral_graph.py:1614-1621). -/
def pushDir (w : MecOracle α) (mag : AG α) (visited : Finset (Key α)) (queue : List (AG α)) (e : α × α) : Run α (List (AG α)) :=
  if (insert e mag.directed, mag.bidirected.erase {e.1, e.2}) ∈ visited then pure queue
  else do
    let A ← ofStep (some (mag.copy (w.copy true e) (w.unpack true e)))
    let A ← ofStep (some (A.removeBidirected false e.1 e.2))
    let A ← ofStep (A.addDirected (w.children e) (w.spouses e) e.1 e.2)
    return A :: queue

/-- The `while queue` loop of `get_all_mec` (ancestral_graph.py:1600-1621). `queue.pop()` and `queue.append` work at the end of
the Python list, which is the head of `queue`; `mags` is collected in reverse. `w n` are the orders used in round `n`. -/
def mecLoop (w : ℕ → MecOracle α) (n : ℕ) (queue : List (AG α)) (visited : Finset (Key α)) (mags : List (AG α)) :
    Run α (List (AG α)) :=
  match queue with
  | [] => pure mags.reverse
  | mag :: queue => do
    let visited := insert (mag.directed, mag.bidirected) visited
    let (dirs, bis) ← mag.legitimateMarkChanges (w n).marks
    let queue ← ((w n).loop.ord false dirs).foldlM (pushBi (w n) mag visited) queue
    let queue ← ((w n).loop.ord true bis).foldlM (pushDir (w n) mag visited) queue
    mecLoop w (n + 1) queue visited (mag :: mags)
partial_fixpoint

/-- `get_all_mec()` (ancestral_graph.py:1588-1623). -/
def getAllMec (w : ℕ → MecOracle α) (A : AG α) : Run α (List (AG α)) := mecLoop w 0 [A] ∅ []

end AG

end Model
