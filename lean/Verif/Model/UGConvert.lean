import Verif.Model.Undirected
import Verif.Model.Amat

/-!
# Conversions and bulk mutators of `undirected_graph.py`

The mutable attributes of a new object are fresh, so objects are values here.
-/

namespace Model.UG

universe u
variable {α : Type u} [DecidableEq α]

/-- `i, j = e` for a frozenset `e`: `ValueError` unless it has two elements. -/
def unpack (ou : SetOrder Unit α) (e : Finset α) : Except (Exn α) (α × α) :=
  match ou.ord () e with
  | [i, j] => .ok (i, j)
  | _ => .error .value

/-- `for i, j in self._edges: ...` (undirected_graph.py:81-83). -/
def setEdges (ou : SetOrder Unit α) (l : List α) : List (Finset α) → Amat → Except (Exn α) Amat
  | [], A => .ok A
  | e :: es, A => (unpack ou e).bind fun p => (setOnes l [(p.1, p.2), (p.2, p.1)] A).bind (setEdges ou l es)

/-- `to_amat` with `sparse=False` (undirected_graph.py:66-84). `sparse=True` raises `NotImplementedError`. -/
def toAmat [LinearOrder α] (oe : SetOrder Unit (Finset α)) (ou : SetOrder Unit α) (U : UG α) (nodeList : Option (List α)) :
    Except (Exn α) Amat :=
  setEdges ou (DAG.orSorted U.nodes nodeList) (oe.ord () U.edges) (.zeros U.nodes.card)

/-- `from_amat` (undirected_graph.py:103-104), for square matrices. -/
def fromAmat (oe : SetOrder Unit (Finset ℕ)) (ou : SetOrder Unit ℕ) (A : Amat) : UG ℕ :=
  new oe ou (Finset.range A.n) ((Finset.range A.n ×ˢ Finset.range A.n).filter fun p => A.entry p.1 p.2 ≠ 0)

/-- `copy` (undirected_graph.py:117); the constructor unpacks the frozensets (line 17). -/
def copy (oe : SetOrder Unit (Finset α)) (ou : SetOrder Unit α) (U : UG α) : Except (Exn α) (UG α) :=
  ((oe.ord () U.edges).mapM (unpack ou)).map fun l => new oe ou U.nodes l.toFinset

/-- `name_map[n]` -/
def lookup {β : Type u} (f : α → Option β) (n : α) : Except (Exn α) β :=
  match f n with
  | some m => .ok m
  | none => .error .key

/-- `rename_nodes` (undirected_graph.py:44-47). -/
def renameNodes {β : Type u} [DecidableEq β] (on : SetOrder Unit α) (oe : SetOrder Unit (Finset α)) (ou : SetOrder Unit α)
    (oe' : SetOrder Unit (Finset β)) (ou' : SetOrder Unit β) (f : α → Option β) (U : UG α) : Except (Exn α) (UG β) :=
  ((on.ord () U.nodes).mapM (lookup f)).bind fun ns =>
    ((oe.ord () U.edges).mapM fun e => (unpack ou e).bind fun p => (lookup f p.1).bind fun i => (lookup f p.2).map fun j => (i, j)).map
      fun es => new oe' ou' ns.toFinset es.toFinset

/-- `add_edges_from` (undirected_graph.py:224-225); the iterable is a list. -/
def addEdgesFrom (U : UG α) (l : List (α × α)) : UG α := l.foldl (fun U e => U.addEdge e.1 e.2) U

/-- `delete_edges_from` (undirected_graph.py:245-246). -/
def deleteEdgesFrom : List (α × α) → UG α → Step α
  | [], U => (U, none)
  | e :: l, U => (U.deleteEdge e.1 e.2).andThen (deleteEdgesFrom l)

/-- `__eq__` (undirected_graph.py:28-29). -/
def eq (U V : UG α) : Bool := decide (U.nodes = V.nodes ∧ U.edges = V.edges)

end Model.UG
