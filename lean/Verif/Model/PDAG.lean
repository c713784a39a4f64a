import Verif.Model.Queries

/-!
# `graphical_models/classes/dags/pdag.py`

Undirected edges are `frozenset({i, j})`, i.e. `Finset`s. `defaultdict(set)` is a total function (missing key = empty
set); the set of keys present is not modelled, hence neither are the `KeyError`s of `del self._neighbors[node]`
(line 488) for nodes whose entry was never created.
-/

namespace Model

universe u
variable {α : Type u} [DecidableEq α]

/-- pdag.py:34-50. -/
@[ext]
structure PDAG (α : Type u) where
  nodes : Finset α
  arcs : Finset (α × α)
  edges : Finset (Finset α)
  parents : α → Finset α
  children : α → Finset α
  neighbors : α → Finset α
  undirected : α → Finset α
  known : Finset (α × α)

namespace PDAG

/-- `d[i].add(j); d[j].add(i)` for a `defaultdict(set)` `d`. -/
def addBoth (d : α → Finset α) (i j : α) : α → Finset α :=
  let d := Function.update d i (insert j (d i))
  Function.update d j (insert i (d j))

/-- `_add_arc` (pdag.py:389-398). -/
def addArc (P : PDAG α) (i j : α) : PDAG α :=
  { P with
    nodes := insert j (insert i P.nodes)
    arcs := insert (i, j) P.arcs
    neighbors := addBoth P.neighbors i j
    children := Function.update P.children i (insert j (P.children i))
    parents := Function.update P.parents j (insert i (P.parents j)) }

/-- `_add_edge` (pdag.py:426-435). -/
def addEdge (P : PDAG α) (i j : α) : PDAG α :=
  { P with
    nodes := insert j (insert i P.nodes)
    edges := insert {i, j} P.edges
    neighbors := addBoth P.neighbors i j
    undirected := addBoth P.undirected i j }

/-- The object before any arc or edge is added (pdag.py:34-40). -/
def empty (nodes : Finset α) (known : Finset (α × α)) : PDAG α :=
  { nodes := nodes, arcs := ∅, edges := ∅, parents := fun _ => ∅, children := fun _ => ∅, neighbors := fun _ => ∅,
    undirected := fun _ => ∅, known := known }

/-- The constructor with `new=False` (pdag.py:34-50); `oa`, `oe` order the sets of arcs and edges; edges are given as
pairs. -/
def new (oa oe : SetOrder Unit (α × α)) (nodes : Finset α) (arcs edges : Finset (α × α)) (known : Finset (α × α)) :
    PDAG α :=
  (oe.ord () edges).foldl (fun P e => P.addEdge e.1 e.2)
    ((oa.ord () arcs).foldl (fun P a => P.addArc a.1 a.2) (empty nodes known))

/-- `has_edge` (pdag.py:321). -/
def hasEdge (P : PDAG α) (i j : α) : Bool := decide (({i, j} : Finset α) ∈ P.edges)

/-- `has_arc` (pdag.py:325). -/
def hasArc (P : PDAG α) (i j : α) : Bool := decide ((i, j) ∈ P.arcs)

/-- `has_edge_or_arc` (pdag.py:330). -/
def hasEdgeOrArc (P : PDAG α) (i j : α) : Bool :=
  decide ((i, j) ∈ P.arcs) || decide ((j, i) ∈ P.arcs) || P.hasEdge i j

/-- `__eq__` (pdag.py:183-188). -/
def eq (P Q : PDAG α) : Bool := decide (P.nodes = Q.nodes) && decide (P.arcs = Q.arcs) && decide (P.edges = Q.edges)

/-! ## Set primitives: `s.remove(x)` raises `KeyError` if `x` is absent -/

/-- `s.remove(x)` -/
def remove {β : Type u} [DecidableEq β] (s : Finset β) (x : β) : Except (Exn α) (Finset β) :=
  if x ∈ s then .ok (s.erase x) else .error .key

/-- `_replace_arc_with_edge` (pdag.py:507-514). -/
def replaceArcWithEdge (P : PDAG α) (i j : α) : Except (Exn α) (PDAG α) := do
  let arcs ← remove P.arcs (i, j)
  let pj ← remove (P.parents j) i
  let ci ← remove (P.children i) j
  return { P with
    arcs := arcs
    edges := insert {i, j} P.edges
    parents := Function.update P.parents j pj
    children := Function.update P.children i ci
    undirected := addBoth P.undirected i j }

/-- `_replace_edge_with_arc` (pdag.py:516-523). -/
def replaceEdgeWithArc (P : PDAG α) (i j : α) : Except (Exn α) (PDAG α) := do
  let edges ← remove P.edges {i, j}
  let ui ← remove (P.undirected i) j
  let und := Function.update P.undirected i ui
  let uj ← remove (und j) i
  return { P with
    edges := edges
    arcs := insert (i, j) P.arcs
    parents := Function.update P.parents j (insert i (P.parents j))
    children := Function.update P.children i (insert j (P.children i))
    undirected := Function.update und j uj }

/-! ## The flag loops -/

/-- `'P'`, `'U'`, `'N'` (pdag.py:581-583, 656-658). -/
inductive Mark
  | prot
  | undec
  | unprot
  deriving DecidableEq

/-- The dictionary `arc_flags`. -/
abbrev Flags (α : Type u) := α × α → Option Mark

/-- `arc_flags[a]` -/
def look (fl : Flags α) (a : α × α) : Except (Exn α) Mark :=
  match fl a with
  | some f => .ok f
  | none => .error .key

/-- Configuration (a) (pdag.py:597-604, 670-676); the list is `self._parents[i]`. -/
def checkA (P : PDAG α) (fl : Flags α) (i j : α) : List α → Mark → Except (Exn α) Mark
  | [], f => .ok f
  | k :: l, f =>
      if P.hasEdgeOrArc k j = false then do
        if (← look fl (k, i)) = .prot then return .prot
        else checkA P fl i j l .undec
      else checkA P fl i j l f

/-- Configuration (b) (pdag.py:610-617, 681-687); the list is `self._parents[j]`. -/
def checkB (P : PDAG α) (fl : Flags α) (i j : α) : List α → Mark → Except (Exn α) Mark
  | [], f => .ok f
  | k :: l, f =>
      if i ∈ P.parents k then do
        if (← look fl (i, k)) = .prot then
          if (← look fl (k, j)) = .prot then return .prot
          else checkB P fl i j l .undec
        else checkB P fl i j l .undec
      else checkB P fl i j l f

/-- Configuration (d) (pdag.py:623-630, 692-697); the list is `itr.combinations(self._parents[j], 2)`. With `brk` the
loop is left at the first protecting pair (`to_complete_pdag` does, `remove_unprotected_orientations` does not). -/
def checkD (brk : Bool) (P : PDAG α) (fl : Flags α) (i j : α) : List (α × α) → Mark → Except (Exn α) Mark
  | [], f => .ok f
  | k :: l, f =>
      if P.hasEdge i k.1 && P.hasEdge i k.2 && !P.hasEdgeOrArc k.1 k.2 then do
        if (← look fl (k.1, j)) = .prot then
          if (← look fl (k.2, j)) = .prot then
            if brk then return .prot else checkD brk P fl i j l .prot
          else checkD brk P fl i j l .undec
        else checkD brk P fl i j l .undec
      else checkD brk P fl i j l f

/-- Iteration orders: `arcs` for the loops over `undecided_arcs` (and its copy) in round `n`, `nbr` for the three loops
over parent sets when looking at an arc in round `n`. -/
structure OrientOracle (α : Type u) where
  arcs : SetOrder (ℕ × Bool) (α × α)
  nbr : SetOrder (ℕ × (α × α) × Fin 3) α

/-- Body of the first inner loop: the new flag of `arc` (pdag.py:592-633, 666-700). -/
def arcFlag (brk : Bool) (o : OrientOracle α) (n : ℕ) (P : PDAG α) (fl : Flags α) (a : α × α) :
    Except (Exn α) Mark := do
  let f ← checkA P fl a.1 a.2 (o.nbr.ord (n, a, 0) (P.parents a.1)) .unprot
  let f ← if f ≠ .prot then checkB P fl a.1 a.2 (o.nbr.ord (n, a, 1) (P.parents a.2)) f else pure f
  if f ≠ .prot then checkD brk P fl a.1 a.2 (DAG.pairs (o.nbr.ord (n, a, 2) (P.parents a.2))) f else pure f

/-- The first inner loop. -/
def flagRound (brk : Bool) (o : OrientOracle α) (n : ℕ) (P : PDAG α) (und : Finset (α × α)) (fl : Flags α) :
    Except (Exn α) (Flags α) :=
  (o.arcs.ord (n, false) und).foldlM
    (fun fl a => (arcFlag brk o n P fl a).map fun f => Function.update fl a (some f)) fl

/-- The second inner loop of `remove_unprotected_orientations` (pdag.py:702-706). -/
def dropRound (fl : Flags α) : List (α × α) → PDAG α × Finset (α × α) → Except (Exn α) (PDAG α × Finset (α × α))
  | [], s => .ok s
  | a :: l, (P, und) =>
      match look fl a with
      | .error e => .error e
      | .ok f => do
          let und ← if f ≠ .undec then remove und a else pure und
          let P ← if f = .unprot then P.replaceArcWithEdge a.1 a.2 else pure P
          dropRound fl l (P, und)

/-- The `while` loop of `remove_unprotected_orientations` (pdag.py:664-706). -/
def unprotectLoop (o : OrientOracle α) (n : ℕ) (P : PDAG α) (und : Finset (α × α)) (fl : Flags α) :
    Run α (PDAG α) :=
  if und = ∅ then pure P
  else
    match (flagRound false o n P und fl).bind fun fl =>
        (dropRound fl (o.arcs.ord (n, true) und) (P, und)).map fun s => (s, fl) with
    | .ok (s, fl) => unprotectLoop o (n + 1) s.1 s.2 fl
    | .error e => throw e
partial_fixpoint

/-- `remove_unprotected_orientations` (pdag.py:660-706). -/
def removeUnprotectedOrientations (o : OrientOracle α) (P : PDAG α) : Run α (PDAG α) :=
  let und := P.arcs \ P.known
  unprotectLoop o 0 P und fun a =>
    if a ∈ und then some .undec else if a ∈ P.known then some .prot else none

end PDAG

/-- `DAG.cpdag` (dag.py:2260-2262). -/
def DAG.cpdag (oa : SetOrder Unit (α × α)) (o : PDAG.OrientOracle α) (G : DAG α) : Run α (PDAG α) :=
  (PDAG.new oa oa G.nodes G.arcs ∅ G.arcsInVstructures).removeUnprotectedOrientations o

/-- `DAG.interventional_cpdag` (dag.py:2313-2321) when a `cpdag` is given; only its `_known_arcs` are used. -/
def DAG.interventionalCpdag (oa : SetOrder Unit (α × α)) (o : PDAG.OrientOracle α) (G : DAG α)
    (interventions : List (Finset α)) (cpdag : PDAG α) : Run α (PDAG α) :=
  let cut := interventions.foldl (fun c iv => c ∪ G.arcs.filter fun a => (({a.1, a.2} : Finset α) ∩ iv).card = 1) ∅
  (PDAG.new oa oa G.nodes G.arcs ∅ (cut ∪ cpdag.known)).removeUnprotectedOrientations o

/-- `DAG.markov_equivalent` (dag.py:1261-1265); the oracles are those of the calls on `self` and on `other`. -/
def DAG.markovEquivalent (oa oa' : SetOrder Unit (α × α)) (o o' : PDAG.OrientOracle α) (G H : DAG α)
    (interventions : Option (List (Finset α))) : Run α (ULift Bool) :=
  match interventions with
  | none => do
      let p ← G.cpdag oa o
      let q ← H.cpdag oa' o'
      return ⟨p.eq q⟩
  | some iv => do
      let p ← G.interventionalCpdag oa o iv (← G.cpdag oa o)
      let q ← H.interventionalCpdag oa' o' iv (← H.cpdag oa' o')
      return ⟨p.eq q⟩

end Model
