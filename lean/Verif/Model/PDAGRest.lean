import Verif.Model.ToDag
import Verif.Model.CoreUtils

/-! # `pdag.py`: removals, `assign_parents`, `vstructs`, `to_complete_pdag_new` -/

namespace Model

universe u
variable {α : Type u} [DecidableEq α]

namespace PDAG

/-- The state of the object after a call, together with the exception raised, if any. -/
abbrev Step (α : Type u) := PDAG α × Option (Exn α)

/-- Sequencing: a raised exception skips the rest. -/
def Step.andThen (r : Step α) (f : PDAG α → Step α) : Step α :=
  match r.2 with
  | some e => (r.1, some e)
  | none => f r.1

/-- `for x in l: body(x)`, left at the first exception. -/
def forEach {β : Type u} (body : PDAG α → β → Step α) : List β → PDAG α → Step α
  | [], P => (P, none)
  | x :: l, P => (body P x).andThen (forEach body l)

/-- `try: … except KeyError: if ignore_error: pass else: raise` -/
def guard (ignoreError : Bool) (r : Step α) : Step α := if ignoreError then (r.1, none) else r

/-- `self._edges.remove(e)` -/
def delEdge (e : Finset α) (P : PDAG α) : Step α :=
  if e ∈ P.edges then ({ P with edges := P.edges.erase e }, none) else (P, some .key)

/-- `self._arcs.remove(a)` -/
def delArc (a : α × α) (P : PDAG α) : Step α :=
  if a ∈ P.arcs then ({ P with arcs := P.arcs.erase a }, none) else (P, some .key)

/-- `self._neighbors[i].remove(j)` -/
def delNbr (i j : α) (P : PDAG α) : Step α :=
  if j ∈ P.neighbors i then
    ({ P with neighbors := Function.update P.neighbors i ((P.neighbors i).erase j) }, none)
  else (P, some .key)

/-- `self._undirected_neighbors[i].remove(j)` -/
def delUnd (i j : α) (P : PDAG α) : Step α :=
  if j ∈ P.undirected i then
    ({ P with undirected := Function.update P.undirected i ((P.undirected i).erase j) }, none)
  else (P, some .key)

/-- `self._children[i].remove(j)` -/
def delChild (i j : α) (P : PDAG α) : Step α :=
  if j ∈ P.children i then
    ({ P with children := Function.update P.children i ((P.children i).erase j) }, none)
  else (P, some .key)

/-- `self._parents[j].remove(i)` -/
def delParent (j i : α) (P : PDAG α) : Step α :=
  if i ∈ P.parents j then
    ({ P with parents := Function.update P.parents j ((P.parents j).erase i) }, none)
  else (P, some .key)

/-- `remove_edge` (pdag.py:437-448). -/
def removeEdge (ignoreError : Bool) (P : PDAG α) (i j : α) : Step α :=
  guard ignoreError (((((delEdge {i, j} P).andThen (delNbr i j)).andThen (delNbr j i)).andThen (delUnd i j)).andThen
    (delUnd j i))

/-- `remove_arc` (pdag.py:454-465). -/
def removeArc (ignoreError : Bool) (P : PDAG α) (i j : α) : Step α :=
  guard ignoreError (((((delArc (i, j) P).andThen (delChild i j)).andThen (delParent j i)).andThen (delNbr i j)).andThen
    (delNbr j i))

/-- `remove_edges_from` (pdag.py:450-452); `l` lists the pairs in the order of the iteration. -/
def removeEdgesFrom (P : PDAG α) (l : List (α × α)) : Step α := forEach (fun P e => P.removeEdge false e.1 e.2) l P

/-- `remove_arcs_from` (pdag.py:467-469). -/
def removeArcsFrom (P : PDAG α) (l : List (α × α)) : Step α := forEach (fun P a => P.removeArc false a.1 a.2) l P

/-- `remove_all_arcs` (pdag.py:495-496); the iteration runs over a copy of the set of arcs. -/
def removeAllArcs (o : SetOrder Unit (α × α)) (P : PDAG α) : Step α := P.removeArcsFrom (o.ord () P.arcs)

/-- `_replace_edge_with_arc` (pdag.py:516-523), with the state left behind by an exception. -/
def orient (P : PDAG α) (i j : α) : Step α :=
  (((delEdge {i, j} P).andThen fun P =>
    ({ P with
        arcs := insert (i, j) P.arcs
        parents := Function.update P.parents j (insert i (P.parents j))
        children := Function.update P.children i (insert j (P.children i)) }, none)).andThen (delUnd i j)).andThen
    (delUnd j i)

/-- `replace_edge_with_arc` (pdag.py:498-505). -/
def replaceEdgeWithArcPublic (ignoreError : Bool) (P : PDAG α) (i j : α) : Step α := guard ignoreError (P.orient i j)

/-- The keys of `_neighbors` after the constructor (pdag.py:34-50, 389-435): the ends of the arcs and edges. -/
def nbrKeys (arcs edges : Finset (α × α)) : Finset α := arcs.biUnion (fun a => {a.1, a.2}) ∪ edges.biUnion fun e => {e.1, e.2}

/-- `remove_node` (pdag.py:471-489); `hasKey` tells whether `_neighbors` has an entry for the node, without which
line 488 raises. The entries of the other dictionaries are created by the loops before. -/
def removeNodePublic (hasKey : Bool) (o : SetOrder (Fin 3) α) (P : PDAG α) (v : α) : Step α :=
  match P.removeNode o v with
  | .error e => (P, some e)
  | .ok Q => (Q, if hasKey then none else some .key)

/-- The two loops of `assign_parents` (pdag.py:526-529); `o false` orders `parents`, `o true` the other undirected
neighbors. -/
def orientAround (o : SetOrder Bool α) (P : PDAG α) (v : α) (s : Finset α) : Step α :=
  (forEach (fun P p => P.orient p v) (o.ord false s) P).andThen fun P =>
    forEach (fun P c => P.orient v c) (o.ord true (P.undirected v \ s)) P

/-- `assign_parents` (pdag.py:525-530): the value of `self` afterwards. -/
def assignParents (o : SetOrder Bool α) (oc : OrientOracle α) (P : PDAG α) (v : α) (s : Finset α) : Run α (PDAG α) :=
  match P.orientAround o v s with
  | (_, some e) => throw e
  | (P, none) => P.toCompletePdag oc

/-- The pairs added for one node in `vstructs` (pdag.py:335-338); `l` is the iteration order of the parents. -/
def vstructsAt (P : PDAG α) (v : α) (l : List α) : Finset (α × α) :=
  ((DAG.pairs l).filter fun p => decide (p.1 ∉ P.parents p.2) && decide (p.2 ∉ P.parents p.1)).toFinset.biUnion
    fun p => {(p.1, v), (p.2, v)}

/-- `vstructs` (pdag.py:332-339). -/
def vstructs (o : SetOrder α α) (P : PDAG α) : Finset (α × α) :=
  P.nodes.biUnion fun v => P.vstructsAt v (o.ord v (P.parents v))

/-! ## `to_complete_pdag_new` -/

/-- The local variables of the loop (pdag.py:533-536) and the object. `neighbors` is a shallow copy of
`_undirected_neighbors`, so its sets are those of the object. -/
structure NewState (α : Type u) where
  pdag : PDAG α
  protParents : α → Finset α
  protChildren : α → Finset α
  undecided : Finset (α × α)

/-- Lines 551-552: some two members of the set are not adjacent. -/
def someApart (P : PDAG α) (s : Finset α) : Bool := decide (∃ k ∈ s, ∃ l ∈ s, k ≠ l ∧ P.hasEdgeOrArc k l = false)

/-- One pass of the loop up to line 562: the undecided pairs left and `new_arcs`. `set(map(reversed, …))` (lines 542, 547)
contains iterators, not pairs, so nothing is removed there; line 560 removes `a1` once more. -/
def newArcs (s : NewState α) : Finset (α × α) × Finset (α × α) :=
  let chain1 := s.undecided.filter fun a => s.protParents a.1 \ s.pdag.neighbors a.2 ≠ ∅
  let u := s.undecided \ chain1
  let chain2 := (u.filter fun a => s.protParents a.2 \ s.pdag.neighbors a.1 ≠ ∅).image Prod.swap
  let cycle1 := u.filter fun a => s.protChildren a.1 ∩ s.protParents a.2 ≠ ∅
  let u := u \ cycle1
  let cycle2 := (u.filter fun a => s.protChildren a.2 ∩ s.protParents a.1 ≠ ∅).image Prod.swap
  let a1 := u.filter fun a => s.pdag.someApart (s.pdag.undirected a.1 ∩ s.protParents a.2)
  let u := u \ a1
  let a2 := (u.filter fun a => s.pdag.someApart (s.pdag.undirected a.2 ∩ s.protParents a.1)).image Prod.swap
  (u \ a1, chain1 ∪ chain2 ∪ cycle1 ∪ cycle2 ∪ a1 ∪ a2)

/-- The inner loop (pdag.py:565-569). -/
def protect : List (α × α) → NewState α → Except (Exn α) (NewState α)
  | [], s => .ok s
  | (i, j) :: l, s =>
      match (delUnd i j s.pdag).andThen (delUnd j i) with
      | (_, some e) => .error e
      | (P, none) =>
          protect l { s with
            pdag := P
            protChildren := Function.update s.protChildren i (insert j (s.protChildren i))
            protParents := Function.update s.protParents j (insert i (s.protParents j)) }

/-- The `while True` loop (pdag.py:538-569). -/
def newLoop (o : SetOrder ℕ (α × α)) (n : ℕ) (s : NewState α) : Run α (PDAG α) :=
  let r := newArcs s
  if r.2.card = 0 then pure s.pdag
  else
    match protect (o.ord n r.2) { s with undecided := r.1 } with
    | .error e => throw e
    | .ok s => newLoop o (n + 1) s
partial_fixpoint

/-- `to_complete_pdag_new` (pdag.py:532-569): the value of `self` afterwards. -/
def toCompletePdagNew (o : SetOrder ℕ (α × α)) (up : Unpack α) (P : PDAG α) : Run α (PDAG α) :=
  newLoop o 0 { pdag := P, protParents := fun _ => ∅, protChildren := fun _ => ∅, undecided := P.edges.image up.fn }

end PDAG

/-- `DAG.cpdag_new` (dag.py:2264-2272) with `new=True`. -/
def DAG.cpdagNewNew (oa oe : SetOrder Unit (α × α)) (o : SetOrder ℕ (α × α)) (up : Unpack α) (G : DAG α) :
    Run α (PDAG α) :=
  (PDAG.new oa oe G.nodes G.arcsInVstructures (G.arcs \ G.arcsInVstructures) ∅).toCompletePdagNew o up

end Model
