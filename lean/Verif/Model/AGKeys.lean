import Verif.Model.AG

/-!
# The keys of `_adjacent` of an `AncestralGraph` object

`_adjacent` is a `defaultdict(set)` (ancestral_graph.py:88): looking up a missing key inserts it, but `del self._adjacent[node]` in `remove_node`
(line 672) raises `KeyError` if the key is missing. `Model.AG` leaves open whether it is there; here the keys are kept. The other four
dictionaries need no keys: `remove_node` looks up `node` in them before it deletes it (lines 651-671).
-/

namespace Model

universe u
variable {α : Type u} [DecidableEq α]

/-- An `AncestralGraph` object with the keys present in `_adjacent`. -/
structure AKeyed (α : Type u) where
  ag : AG α
  keys : Finset α

namespace AKeyed

/-- State and exception after a call. -/
abbrev Step (α : Type u) := AKeyed α × Option (Exn α)

/-- Sequencing. -/
def andThen (r : Step α) (f : AKeyed α → Step α) : Step α :=
  match r.2 with
  | some e => (r.1, some e)
  | none => f r.1

/-- `for x in l: body(x)`, left at the first exception. -/
def forEach {β : Type u} (body : AKeyed α → β → Step α) : List β → AKeyed α → Step α
  | [], K => (K, none)
  | x :: l, K => andThen (body K x) (forEach body l)

/-- A step that does not look anything up in `_adjacent`. -/
def silent (f : AG α → AG.Step α) (K : AKeyed α) : Step α := (⟨(f K.ag).1, K.keys⟩, (f K.ag).2)

/-- `self._adjacent[k].remove(x)` -/
def delAdj (k x : α) (K : AKeyed α) : Step α := (⟨(AG.delAdj k x K.ag).1, insert k K.keys⟩, (AG.delAdj k x K.ag).2)

/-- `_add_directed` (ancestral_graph.py:535-562): line 544 looks up `j`, lines 561-562 both. -/
def addDirectedRaw (K : AKeyed α) (i j : α) : Step α :=
  (⟨(K.ag.addDirectedRaw i j).1,
    if (i, j) ∈ K.ag.directed then K.keys
    else if (K.ag.neighbors j).Nonempty then K.keys
    else if i ∈ K.ag.adjacent j then insert j K.keys
    else insert j (insert i K.keys)⟩, (K.ag.addDirectedRaw i j).2)

/-- `_add_bidirected` (ancestral_graph.py:564-593): line 575 looks up `j`, lines 592-593 both. -/
def addBidirectedRaw (K : AKeyed α) (i j : α) : Step α :=
  (⟨(K.ag.addBidirectedRaw i j).1,
    if ({i, j} : Finset α) ∈ K.ag.bidirected then K.keys
    else if (K.ag.neighbors i).Nonempty then K.keys
    else if (K.ag.neighbors j).Nonempty then K.keys
    else if i ∈ K.ag.adjacent j then insert j K.keys
    else insert j (insert i K.keys)⟩, (K.ag.addBidirectedRaw i j).2)

/-- `_add_undirected` (ancestral_graph.py:595-628): line 610 looks up `j`, lines 627-628 both. -/
def addUndirected (K : AKeyed α) (i j : α) : Step α :=
  (⟨(K.ag.addUndirected i j).1,
    if ({i, j} : Finset α) ∈ K.ag.undirected then K.keys
    else if (K.ag.parents i).Nonempty then K.keys
    else if (K.ag.spouses i).Nonempty then K.keys
    else if (K.ag.parents j).Nonempty then K.keys
    else if (K.ag.spouses j).Nonempty then K.keys
    else if i ∈ K.ag.adjacent j then insert j K.keys
    else insert j (insert i K.keys)⟩, (K.ag.addUndirected i j).2)

/-- The constructor (ancestral_graph.py:79-95). -/
def new (o : SetOrder (Fin 3) (α × α)) (nodes : Finset α) (directed bidirected undirected : Finset (α × α)) : Step α :=
  andThen (andThen (forEach (fun K e => K.addDirectedRaw e.1 e.2) (o.ord 0 directed) ⟨AG.empty nodes, ∅⟩)
    (forEach (fun K e => K.addBidirectedRaw e.1 e.2) (o.ord 1 bidirected)))
    (forEach (fun K e => K.addUndirected e.1 e.2) (o.ord 2 undirected))

/-- `try: ... except KeyError: if ignore_error: pass else: raise` -/
def guard (ignoreError : Bool) (r : Step α) : Step α := if ignoreError then (r.1, none) else r

/-- `remove_directed` (ancestral_graph.py:700-710). -/
def removeDirected (ignoreError : Bool) (K : AKeyed α) (i j : α) : Step α :=
  guard ignoreError (andThen (andThen (andThen (andThen (silent (AG.delDirected (i, j)) K) (silent (AG.delChild i j)))
    (silent (AG.delParent j i))) (delAdj i j)) (delAdj j i))

/-- `remove_bidirected` (ancestral_graph.py:733-743). -/
def removeBidirected (ignoreError : Bool) (K : AKeyed α) (i j : α) : Step α :=
  guard ignoreError (andThen (andThen (andThen (andThen (silent (AG.delBidirected {i, j}) K) (silent (AG.delSpouse i j)))
    (silent (AG.delSpouse j i))) (delAdj i j)) (delAdj j i))

/-- `remove_undirected` (ancestral_graph.py:766-776). -/
def removeUndirected (ignoreError : Bool) (K : AKeyed α) (i j : α) : Step α :=
  guard ignoreError (andThen (andThen (andThen (andThen (silent (AG.delUndirected {i, j}) K) (silent (AG.delNbr i j)))
    (silent (AG.delNbr j i))) (delAdj i j)) (delAdj j i))

/-- `remove_edge` (ancestral_graph.py:799-808). -/
def removeEdge (ignoreError : Bool) (K : AKeyed α) (i j : α) : Step α :=
  if ({i, j} : Finset α) ∈ K.ag.bidirected then K.removeBidirected false i j
  else if (i, j) ∈ K.ag.directed then K.removeDirected false i j
  else if (j, i) ∈ K.ag.directed then K.removeDirected false j i
  else if ({i, j} : Finset α) ∈ K.ag.undirected then K.removeUndirected false i j
  else if ignoreError then (K, none) else (K, some .key)

/-- `remove_edges` (ancestral_graph.py:831-832), for the given order of the edges. -/
def removeEdges (ignoreError : Bool) (K : AKeyed α) (edges : List (α × α)) : Step α :=
  forEach (fun K (e : α × α) => K.removeEdge ignoreError e.1 e.2) edges K

/-- Lines 668-672: the keys are deleted; the last deletion raises if `_adjacent` has no key `v`. -/
def dropKeys (v : α) (K : AKeyed α) : Step α :=
  (⟨(AG.dropKeys (decide (v ∈ K.keys)) v K.ag).1, K.keys.erase v⟩, (AG.dropKeys (decide (v ∈ K.keys)) v K.ag).2)

/-- `remove_node` (ancestral_graph.py:649-677). -/
def removeNode (ignoreError : Bool) (o : SetOrder (Fin 4) α) (K : AKeyed α) (v : α) : Step α :=
  guard ignoreError <|
    if v ∈ K.ag.nodes then
      andThen (andThen (andThen (andThen
        (forEach (fun K p => andThen (andThen (silent (AG.delChild p v) K) (delAdj p v)) (silent (AG.delDirected (p, v))))
          (o.ord 0 (K.ag.parents v)) ⟨{ K.ag with nodes := K.ag.nodes.erase v }, K.keys⟩)
        fun K => forEach (fun K c => andThen (andThen (silent (AG.delParent c v) K) (delAdj c v)) (silent (AG.delDirected (v, c))))
          (o.ord 1 (K.ag.children v)) K)
        fun K => forEach (fun K s => andThen (andThen (silent (AG.delSpouse s v) K) (delAdj s v)) (silent (AG.delBidirected {s, v})))
          (o.ord 2 (K.ag.spouses v)) K)
        fun K => forEach (fun K n => andThen (andThen (silent (AG.delNbr n v) K) (delAdj n v)) (silent (AG.delUndirected {n, v})))
          (o.ord 3 (K.ag.neighbors v)) K)
        (dropKeys v)
    else (K, some .key)

/-- `add_directed` (ancestral_graph.py:481-486); the check does not look at `_adjacent`. -/
def addDirected (o os : SetOrder (Option α) α) (K : AKeyed α) (i j : α) : Option (Step α) :=
  match K.addDirectedRaw i j with
  | (K1, some e) => some (K1, some e)
  | (K1, none) =>
    match (AG.topologicalSort K1.ag o os).run with
    | none => none
    | some (.ok _) => some (K1, none)
    | some (.error (.cycle l)) => some (andThen (K1.removeDirected false i j) fun K2 => (K2, some (.cycle l)))
    | some (.error e) => some (K1, some e)

/-- `add_bidirected` (ancestral_graph.py:507-512). -/
def addBidirected (K : AKeyed α) (i j : α) : Step α := andThen (K.addBidirectedRaw i j) fun K1 => K1.addBidirectedRaw i j

/-- `add_node` (ancestral_graph.py:416). -/
def addNode (K : AKeyed α) (v : α) : AKeyed α := ⟨{ K.ag with nodes := insert v K.ag.nodes }, K.keys⟩

/-- A call. `look` is any query: `msep_from_given` looks up `_adjacent` of nodes it reaches (line 1796), the other queries look up nothing
there; which ones is left open. -/
inductive Call (α : Type u)
  | addNode (v : α)
  | addDirected (i j : α)
  | addBidirected (i j : α)
  | addUndirected (i j : α)
  | removeDirected (ignoreError : Bool) (i j : α)
  | removeBidirected (ignoreError : Bool) (i j : α)
  | removeUndirected (ignoreError : Bool) (i j : α)
  | removeEdge (ignoreError : Bool) (i j : α)
  | removeEdges (ignoreError : Bool) (edges : List (α × α))
  | removeNode (ignoreError : Bool) (v : α)
  | look (s : Finset α)

/-- Execution of one call; `o`, `os` are the orders of the check, `od` those of `remove_node`. -/
def exec (o os : SetOrder (Option α) α) (od : SetOrder (Fin 4) α) (K : AKeyed α) : Call α → Option (Step α)
  | .addNode v => some (K.addNode v, none)
  | .addDirected i j => K.addDirected o os i j
  | .addBidirected i j => some (K.addBidirected i j)
  | .addUndirected i j => some (K.addUndirected i j)
  | .removeDirected ig i j => some (K.removeDirected ig i j)
  | .removeBidirected ig i j => some (K.removeBidirected ig i j)
  | .removeUndirected ig i j => some (K.removeUndirected ig i j)
  | .removeEdge ig i j => some (K.removeEdge ig i j)
  | .removeEdges ig l => some (K.removeEdges ig l)
  | .removeNode ig v => some (K.removeNode ig od v)
  | .look s => some (⟨K.ag, K.keys ∪ s⟩, none)

/-- An edge is added between two different nodes. -/
def Call.Distinct : Call α → Prop
  | .addDirected i j | .addBidirected i j | .addUndirected i j => i ≠ j
  | _ => True

/-- The states of an object: built by the constructor from pairs of different nodes, then any calls that add edges between different nodes
only, with any outcome. -/
inductive Reachable : AKeyed α → Prop
  | new (o : SetOrder (Fin 3) (α × α)) (nodes : Finset α) (d b u : Finset (α × α)) (K : AKeyed α) :
      (∀ e ∈ d ∪ b ∪ u, e.1 ≠ e.2) → AKeyed.new o nodes d b u = (K, none) → Reachable K
  | call (K : AKeyed α) (o os : SetOrder (Option α) α) (od : SetOrder (Fin 4) α) (c : Call α) (K' : AKeyed α) (e) :
      Reachable K → c.Distinct → exec o os od K c = some (K', e) → Reachable K'

end AKeyed

end Model
