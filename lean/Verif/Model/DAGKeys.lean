import Verif.Model.History
import Verif.Model.Queries

/-!
# The keys of the dictionaries of a `DAG` object

`_parents`, `_children` and `_neighbors` are `defaultdict(set)` (dag.py:55-57): looking up a missing key inserts it. `Model.DAG` treats
them as total functions; here their key sets are kept as well. The properties `parents`, `children` and `neighbors` show them.
-/

namespace Model

universe u
variable {α : Type u} [DecidableEq α]

/-- A `DAG` object with the keys present in `_parents`, `_children` and `_neighbors`. -/
structure Keyed (α : Type u) where
  dag : DAG α
  pk : Finset α
  ck : Finset α
  nk : Finset α

/-- A state together with the exception that ended the call, if any. -/
abbrev KStep (α : Type u) := Keyed α × Option (Exn α)

namespace Keyed

/-- Sequencing: a raised exception skips the rest. -/
def andThen (r : KStep α) (f : Keyed α → KStep α) : KStep α :=
  match r.2 with
  | some e => (r.1, some e)
  | none => f r.1

/-- `for x in l: body(x)`, left at the first exception. -/
def forEach {β : Type u} (body : Keyed α → β → KStep α) : List β → Keyed α → KStep α
  | [], K => (K, none)
  | x :: l, K => andThen (body K x) (forEach body l)

/-- A step that does not look anything up in the three dictionaries. -/
def silent (f : DAG α → Step α) (K : Keyed α) : KStep α := ({ K with dag := (f K.dag).1 }, (f K.dag).2)

/-- `self._parents[k].remove(x)` -/
def delParent (k x : α) (K : Keyed α) : KStep α := silent (DAG.delParent k x) { K with pk := insert k K.pk }

/-- `self._children[k].remove(x)` -/
def delChild (k x : α) (K : Keyed α) : KStep α := silent (DAG.delChild k x) { K with ck := insert k K.ck }

/-- `self._neighbors[k].remove(x)` -/
def delNbr (k x : α) (K : Keyed α) : KStep α := silent (DAG.delNbr k x) { K with nk := insert k K.nk }

/-- Keys inserted by the four additions for the arc `i → j` (dag.py:808-812 and 854-857). -/
def touchArc (K : Keyed α) (i j : α) : Keyed α :=
  { K with pk := insert j K.pk, ck := insert i K.ck, nk := insert j (insert i K.nk) }

/-- `remove_arc` (dag.py:888-898). -/
def removeArc (ignoreError : Bool) (K : Keyed α) (i j : α) : KStep α :=
  let r := andThen (andThen (andThen (andThen (silent (DAG.delArc (i, j)) K) (delParent j i)) (delChild i j)) (delNbr j i))
    (delNbr i j)
  if ignoreError then (r.1, none) else r

/-- `topological_sort` (dag.py:634-641) looks up `_children` of the nodes it visits. Which nodes these are if it raises is left open:
`vis` may be any set, of which the nodes count. -/
def touchSort (vis : Finset α) (K : Keyed α) : Keyed α := { K with ck := K.ck ∪ vis ∩ K.dag.nodes }

/-- `add_arc` (dag.py:804-819). -/
def addArc (check : Bool) (o : SetOrder (Option α) α) (vis : Finset α) (K : Keyed α) (i j : α) : Option (KStep α) :=
  let K1 : Keyed α := { touchArc K i j with dag := DAG.addArcUnchecked K.dag i j }
  if check then
    match (DAG.topologicalSort K1.dag o).run with
    | none => none
    | some (.ok _) => some (touchSort K1.dag.nodes K1, none)
    | some (.error (.cycle l)) => some (andThen (removeArc false (touchSort vis K1) i j) fun K2 => (K2, some (.cycle l)))
    | some (.error e) => some (touchSort vis K1, some e)
  else some (K1, none)

/-- `add_arcs_from` (dag.py:844-865). -/
def addArcsFrom (check : Bool) (o : SetOrder (Option α) α) (oa : SetOrder Bool (α × α)) (vis : Finset α) (K : Keyed α)
    (arcs : Finset (α × α)) : Option (KStep α) :=
  if arcs.card = 0 then some (K, none)
  else
    let K1 : Keyed α :=
      { (oa.ord false arcs).foldl (fun K a => touchArc K a.1 a.2) K with dag := DAG.addArcsUnchecked K.dag (oa.ord false arcs) }
    if check then
      match (DAG.topologicalSort K1.dag o).run with
      | none => none
      | some (.ok _) => some (touchSort K1.dag.nodes K1, none)
      | some (.error (.cycle l)) =>
          some (andThen (forEach (fun K (a : α × α) => removeArc false K a.1 a.2) (oa.ord true arcs) (touchSort vis K1))
            fun K2 => (K2, some (.cycle l)))
      | some (.error e) => some (touchSort vis K1, some e)
    else some (K1, none)

/-- `remove_arcs_from` (dag.py:919-920). -/
def removeArcsFrom (ignoreError : Bool) (K : Keyed α) (arcs : List (α × α)) : KStep α :=
  forEach (fun K (a : α × α) => removeArc ignoreError K a.1 a.2) arcs K

/-- `reverse_arc` (dag.py:945-946). -/
def reverseArc (ignoreError check : Bool) (o : SetOrder (Option α) α) (vis : Finset α) (K : Keyed α) (i j : α) : Option (KStep α) :=
  match removeArc ignoreError K i j with
  | (K1, some e) => some (K1, some e)
  | (K1, none) => addArc check o vis K1 j i

/-- `remove_node` (dag.py:760-777): lines 768-770 pop the key. -/
def removeNode (ignoreError : Bool) (o : SetOrder Bool α) (K : Keyed α) (v : α) : KStep α :=
  let r : KStep α :=
    if v ∈ K.dag.nodes then
      let K : Keyed α := { K with dag := { K.dag with nodes := K.dag.nodes.erase v }, pk := insert v K.pk }
      andThen (andThen (forEach (fun K p => andThen (delChild p v K) (delNbr p v)) (o.ord false (K.dag.parents v)) K)
        (fun K => forEach (fun K c => andThen (delParent c v K) (delNbr c v)) (o.ord true (K.dag.children v))
          { K with ck := insert v K.ck }))
        (fun K =>
          (⟨{ K.dag with
              neighbors := Function.update K.dag.neighbors v ∅
              parents := Function.update K.dag.parents v ∅
              children := Function.update K.dag.children v ∅
              arcs := K.dag.arcs.filter fun a => a.1 ≠ v ∧ a.2 ≠ v }, K.pk.erase v, K.ck.erase v, K.nk.erase v⟩, none))
    else (K, some .key)
  if ignoreError then (r.1, none) else r

/-- The constructor (dag.py:53-59). -/
def new (o : SetOrder (Option α) α) (oa : SetOrder Bool (α × α)) (vis : Finset α) (nodes : Finset α) (arcs : Finset (α × α)) :
    Option (KStep α) :=
  addArcsFrom true o oa vis ⟨DAG.empty nodes, ∅, ∅, ∅⟩ arcs

/-- A mutator call, executed (dag.py:692-946). -/
def exec (w : DAG.Orders α) (vis : Finset α) (K : Keyed α) : DAG.Op α → Option (KStep α)
  | .addNode v => some (silent (fun G => (G.addNode v, none)) K)
  | .addArc check i j => addArc check w.top vis K i j
  | .addArcsFrom check arcs => addArcsFrom check w.top w.arcs vis K arcs
  | .removeArc ig i j => some (removeArc ig K i j)
  | .removeArcsFrom ig arcs => some (removeArcsFrom ig K arcs)
  | .reverseArc ig check i j => reverseArc ig check w.top vis K i j
  | .removeNode ig v => some (removeNode ig w.nbrs K v)

/-- Calls that only read. A single node is a set with one element, as far as the keys are concerned. -/
inductive Query (α : Type u)
  | parentsOf (s : Finset α)
  | childrenOf (s : Finset α)
  | neighborsOf (s : Finset α)
  | markovBlanketOf (v : α)
  | ancestorsOf (v : α)
  | descendantsOf (v : α)
  | isReversible (i j : α)
  | topologicalSort

/-- The nodes a query is about. -/
def Query.about : Query α → Finset α
  | .parentsOf s | .childrenOf s | .neighborsOf s => s
  | .markovBlanketOf v | .ancestorsOf v | .descendantsOf v => {v}
  | .isReversible i j => {i, j}
  | .topologicalSort => ∅

/-- The object after a query: `parents_of`, `children_of`, `neighbors_of` (dag.py:215-218, 242-245, 269-272), `markov_blanket_of`
(dag.py:299-301), `ancestors_of` and `descendants_of` of a node (dag.py:361-365, 323-327; they look up the node and everything found;
`none` if the search does not end), `is_reversible` (dag.py:1071), `topological_sort` (dag.py:634-641, see `touchSort`). -/
def ask (o : SetOrder (α × Finset α) α) (vis : Finset α) (K : Keyed α) : Query α → Option (Keyed α)
  | .parentsOf s => some { K with pk := K.pk ∪ s }
  | .childrenOf s => some { K with ck := K.ck ∪ s }
  | .neighborsOf s => some { K with nk := K.nk ∪ s }
  | .markovBlanketOf v => some { K with ck := insert v K.ck, pk := insert v K.pk ∪ K.dag.children v }
  | .ancestorsOf v => (DAG.ancestorsOf K.dag o v).map fun a => { K with pk := insert v K.pk ∪ a }
  | .descendantsOf v => (DAG.descendantsOf K.dag o v).map fun d => { K with ck := insert v K.ck ∪ d }
  | .isReversible i j => some { K with pk := insert j (insert i K.pk) }
  | .topologicalSort => some (touchSort vis K)

/-- `defdict2dict(d, nodes)` (core_utils.py:55-61): a plain dictionary; `none` is a missing key. -/
def view (d : α → Finset α) (keys nodes : Finset α) (v : α) : Option (Finset α) :=
  if v ∈ keys then some (d v) else if v ∈ nodes then some ∅ else none

/-- `parents` (dag.py:161). -/
def parents (K : Keyed α) : α → Option (Finset α) := view K.dag.parents K.pk K.dag.nodes

/-- `children` (dag.py:165). -/
def children (K : Keyed α) : α → Option (Finset α) := view K.dag.children K.ck K.dag.nodes

/-- `neighbors` (dag.py:157). -/
def neighbors (K : Keyed α) : α → Option (Finset α) := view K.dag.neighbors K.nk K.dag.nodes

/-- The states of an object: built by the constructor, then mutator calls allowed by `ok` with any outcome, and queries allowed by
`okq`. -/
inductive Reachable (ok : DAG α → DAG.Op α → Prop) (okq : DAG α → Query α → Prop) : Keyed α → Prop
  | new (w : DAG.Orders α) (vis nodes arcs K) : Keyed.new w.top w.arcs vis nodes arcs = some (K, none) → Reachable ok okq K
  | call (K : Keyed α) (w : DAG.Orders α) (vis) (op : DAG.Op α) (K' : Keyed α) (e) :
      Reachable ok okq K → ok K.dag op → exec w vis K op = some (K', e) → Reachable ok okq K'
  | query (K : Keyed α) (o : SetOrder (α × Finset α) α) (vis) (q : Query α) (K' : Keyed α) :
      Reachable ok okq K → okq K.dag q → ask o vis K q = some K' → Reachable ok okq K'

end Keyed

end Model
