import Verif.Model.Queries

/-!
# `graphical_models/classes/undirected/undirected_graph.py`

`frozenset({i, j})` is a `Finset`; `defaultdict`s are total functions.
-/

namespace Model

universe u
variable {α : Type u} [DecidableEq α]

/-- undirected_graph.py:16-19. -/
@[ext]
structure UG (α : Type u) where
  nodes : Finset α
  edges : Finset (Finset α)
  neighbors : α → Finset α
  degrees : α → ℤ

namespace UG

/-- Lines 21-26: body of the constructor loop for an edge unpacked as `i, j`. -/
def link (U : UG α) (i j : α) : UG α :=
  let nb := Function.update U.neighbors i (insert j (U.neighbors i))
  let nb := Function.update nb j (insert i (nb j))
  let dg := Function.update U.degrees i (U.degrees i + 1)
  let dg := Function.update dg j (dg j + 1)
  { U with neighbors := nb, degrees := dg }

/-- The constructor (undirected_graph.py:16-26). `oe` orders the set of edges, `ou` the two elements of a
frozenset when it is unpacked. All frozensets built in line 17 have two elements; the other case of the match is
the `ValueError` of unpacking, unreachable here, modelled as leaving the object alone. -/
def new (oe : SetOrder Unit (Finset α)) (ou : SetOrder Unit α) (nodes : Finset α) (edges : Finset (α × α)) : UG α :=
  let es := (edges.filter fun e => e.1 ≠ e.2).image fun e => ({e.1, e.2} : Finset α)
  (oe.ord () es).foldl
    (fun U e => match ou.ord () e with
      | [i, j] => link { U with nodes := insert j (insert i U.nodes) } i j
      | _ => U)
    { nodes := nodes, edges := es, neighbors := fun _ => ∅, degrees := fun _ => 0 }

/-- `has_edge` (undirected_graph.py:162). -/
def hasEdge (U : UG α) (i j : α) : Bool := decide (({i, j} : Finset α) ∈ U.edges)

/-- `add_edge` (undirected_graph.py:199-204). -/
def addEdge (U : UG α) (i j : α) : UG α :=
  if ({i, j} : Finset α) ∉ U.edges then link { U with edges := insert {i, j} U.edges } i j else U

/-- State and exception after a call. -/
abbrev Step (α : Type u) := UG α × Option (Exn α)

/-- Sequencing. -/
def Step.andThen (r : Step α) (f : UG α → Step α) : Step α :=
  match r.2 with
  | some e => (r.1, some e)
  | none => f r.1

/-- `self._edges.remove(e)` -/
def delEdgeSet (e : Finset α) (U : UG α) : Step α :=
  if e ∈ U.edges then ({ U with edges := U.edges.erase e }, none) else (U, some .key)

/-- `self._neighbors[k].remove(x)` -/
def delNbr (k x : α) (U : UG α) : Step α :=
  if x ∈ U.neighbors k then
    ({ U with neighbors := Function.update U.neighbors k ((U.neighbors k).erase x) }, none)
  else (U, some .key)

/-- `self._degrees[k] -= 1` -/
def decDegree (k : α) (U : UG α) : UG α :=
  { U with degrees := Function.update U.degrees k (U.degrees k - 1) }

/-- `delete_edge` (undirected_graph.py:268-272). -/
def deleteEdge (U : UG α) (i j : α) : Step α :=
  (((delEdgeSet {i, j} U).andThen (delNbr i j)).andThen (delNbr j i)).andThen
    fun U => (decDegree j (decDegree i U), none)

/-- The loop of `delete_node` (undirected_graph.py:288-291). -/
def deleteNodeLoop (v : α) : List α → UG α → Step α
  | [], U => (U, none)
  | j :: l, U =>
      ((delNbr j v U).andThen fun U => delEdgeSet {v, j} (decDegree j U)).andThen (deleteNodeLoop v l)

/-- `delete_node` (undirected_graph.py:287-293). Popping the keys resets the entries to the defaults. -/
def deleteNode (on : SetOrder Unit α) (U : UG α) (v : α) : Step α :=
  if v ∈ U.nodes then
    (deleteNodeLoop v (on.ord () (U.neighbors v)) { U with nodes := U.nodes.erase v }).andThen fun U =>
      ({ U with
          neighbors := Function.update U.neighbors v ∅
          degrees := Function.update U.degrees v 0 }, none)
  else (U, some .key)

end UG

/-- `DAG.moral_graph` (dag.py:2128-2129). The method imports `UndirectedGraph` from the package `causaldag`; the class
of this repository is used here. -/
def DAG.moralGraph (oe : SetOrder Unit (Finset α)) (ou : SetOrder Unit α) (ov : SetOrder α α) (G : DAG α) : UG α :=
  UG.new oe ou G.nodes (G.arcs ∪ (G.vstructures ov).image fun t => (t.1, t.2.2))

end Model
