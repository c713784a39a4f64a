import Verif.Model.UGConvert

/-!
# `UndirectedGraph` objects in memory

`Model.UG` treats objects as values. Here the set objects behind the attributes `_nodes`, `_edges` and `_neighbors[v]` are kept in a memory
shared with the caller, who can change every set that a method has returned. Integers, tuples and frozensets are immutable. The
dictionaries returned by the properties are new objects, their values need not be.
-/

namespace Model

universe u

/-- The attributes of an object that refer to a set of nodes: `_nodes` and `_neighbors[v]`. -/
inductive Slot (α : Type u)
  | nodes
  | nbr (v : α)
  deriving DecidableEq

/-- A memory with `UndirectedGraph` objects numbered from 0. `slot k s` is the set object an attribute of object `k` refers to, if it
exists (`_neighbors` is a `defaultdict`); `eslot` is `_edges`, `deg` is `_degrees`. The caller has references to the sets `held`, `heldE`
(its own, and copies returned to it) and `lent` (values of the dictionaries returned by the property `neighbors`). -/
structure Heap (α : Type u) where
  ns : ℕ → Finset α
  es : ℕ → Finset (Finset α)
  next : ℕ
  count : ℕ
  slot : ℕ → Slot α → Option ℕ
  eslot : ℕ → Option ℕ
  deg : ℕ → α → ℤ
  held : Finset ℕ
  heldE : Finset ℕ
  lent : Finset ℕ

namespace Heap

/-- No objects yet. -/
def start (α : Type u) : Heap α := ⟨fun _ => ∅, fun _ => ∅, 0, 0, fun _ _ => none, fun _ => none, fun _ _ => 0, ∅, ∅, ∅⟩

variable {α : Type u} [DecidableEq α]

/-- The elements of the set an attribute refers to; a missing key reads as the empty set. -/
def val (h : Heap α) (k : ℕ) (s : Slot α) : Finset α :=
  match h.slot k s with
  | some l => h.ns l
  | none => ∅

/-- The elements of `_edges`. -/
def evalE (h : Heap α) (k : ℕ) : Finset (Finset α) :=
  match h.eslot k with
  | some l => h.es l
  | none => ∅

/-- Object `k` as a value. -/
def view (h : Heap α) (k : ℕ) : UG α := ⟨h.val k .nodes, h.evalE k, fun v => h.val k (.nbr v), h.deg k⟩

/-- Looking up `_neighbors[v]`: a missing key is inserted with a new empty set. -/
def touch (k : ℕ) (s : Slot α) (h : Heap α) : Heap α :=
  match h.slot k s with
  | some _ => h
  | none =>
      { h with
        ns := Function.update h.ns h.next ∅
        next := h.next + 1
        slot := Function.update h.slot k (Function.update (h.slot k) s (some h.next)) }

/-- Changes the set an attribute refers to in place. -/
def write (k : ℕ) (s : Slot α) (f : Finset α → Finset α) (h : Heap α) : Heap α :=
  let h := touch k s h
  match h.slot k s with
  | some l => { h with ns := Function.update h.ns l (f (h.ns l)) }
  | none => h

/-- Changes `_edges` in place. -/
def writeE (k : ℕ) (f : Finset (Finset α) → Finset (Finset α)) (h : Heap α) : Heap α :=
  match h.eslot k with
  | some l => { h with es := Function.update h.es l (f (h.es l)) }
  | none => h

/-- Changes `_degrees`; its values are integers. -/
def writeDeg (k : ℕ) (f : (α → ℤ) → α → ℤ) (h : Heap α) : Heap α := { h with deg := Function.update h.deg k (f (h.deg k)) }

/-- `self._degrees[v] += d` -/
def addDeg (v : α) (d : ℤ) (dg : α → ℤ) : α → ℤ := Function.update dg v (dg v + d)

/-- Lines 23-26 and 201-204. -/
def link (k : ℕ) (i j : α) (h : Heap α) : Heap α :=
  writeDeg k (addDeg j 1) (writeDeg k (addDeg i 1) (write k (.nbr j) (insert i) (write k (.nbr i) (insert j) h)))

/-- The constructor (undirected_graph.py:15-26) for new object `h.count`. The caller's argument `nodes` is a set of its own, which it may
change later; `set(nodes)` and the comprehension in line 17 make new sets. -/
def new (oe : SetOrder Unit (Finset α)) (ou : SetOrder Unit α) (nodes : Finset α) (edges : Finset (α × α)) (h : Heap α) : Heap α :=
  let k := h.count
  let es := (edges.filter fun e => e.1 ≠ e.2).image fun e => ({e.1, e.2} : Finset α)
  let h0 : Heap α :=
    { h with
      ns := Function.update (Function.update h.ns h.next nodes) (h.next + 1) nodes
      held := insert h.next h.held
      es := Function.update h.es (h.next + 2) es
      next := h.next + 3
      count := k + 1
      slot := Function.update h.slot k (Function.update (fun _ => none) .nodes (some (h.next + 1)))
      eslot := Function.update h.eslot k (some (h.next + 2))
      deg := Function.update h.deg k fun _ => 0 }
  (oe.ord () es).foldl
    (fun h e => match ou.ord () e with
      | [i, j] => link k i j (write k .nodes (insert j) (write k .nodes (insert i) h))
      | _ => h)
    h0

/-- A memory and the exception that ended the call, if any. -/
abbrev HStep (α : Type u) := Heap α × Option (Exn α)

/-- Sequencing: a raised exception skips the rest. -/
def andThen (r : HStep α) (f : Heap α → HStep α) : HStep α :=
  match r.2 with
  | some e => (r.1, some e)
  | none => f r.1

/-- `copy` (undirected_graph.py:117). -/
def copy (oe : SetOrder Unit (Finset α)) (ou : SetOrder Unit α) (k : ℕ) (h : Heap α) : HStep α :=
  match (oe.ord () (h.evalE k)).mapM (UG.unpack ou) with
  | .ok l => (new oe ou (h.val k .nodes) l.toFinset h, none)
  | .error e => (h, some e)

/-- `add_edge` (undirected_graph.py:199-204). -/
def addEdge (k : ℕ) (i j : α) (h : Heap α) : Heap α :=
  if ({i, j} : Finset α) ∉ h.evalE k then link k i j (writeE k (insert {i, j}) h) else h

/-- `self._edges.remove(e)` -/
def delEdgeSet (k : ℕ) (e : Finset α) (h : Heap α) : HStep α :=
  if e ∈ h.evalE k then (writeE k (fun s => s.erase e) h, none) else (h, some .key)

/-- `self._neighbors[v].remove(x)` -/
def delNbr (k : ℕ) (v x : α) (h : Heap α) : HStep α :=
  let h := touch k (.nbr v) h
  if x ∈ h.val k (.nbr v) then (write k (.nbr v) (fun s => s.erase x) h, none) else (h, some .key)

/-- `delete_edge` (undirected_graph.py:268-272). -/
def deleteEdge (k : ℕ) (i j : α) (h : Heap α) : HStep α :=
  andThen (andThen (andThen (delEdgeSet k {i, j} h) (delNbr k i j)) (delNbr k j i))
    fun h => (writeDeg k (addDeg j (-1)) (writeDeg k (addDeg i (-1)) h), none)

/-- The loop of `delete_node` (undirected_graph.py:288-291). -/
def deleteNodeLoop (k : ℕ) (v : α) : List α → Heap α → HStep α
  | [], h => (h, none)
  | j :: l, h =>
      andThen (andThen (delNbr k j v h) fun h => delEdgeSet k {v, j} (writeDeg k (addDeg j (-1)) h)) (deleteNodeLoop k v l)

/-- `delete_node` (undirected_graph.py:287-293); `pop` removes the reference, not the set. -/
def deleteNode (on : SetOrder Unit α) (k : ℕ) (v : α) (h : Heap α) : HStep α :=
  if v ∈ h.val k .nodes then
    let h := touch k (.nbr v) (write k .nodes (fun s => s.erase v) h)
    andThen (deleteNodeLoop k v (on.ord () (h.val k (.nbr v))) h) fun h =>
      (writeDeg k (fun dg => Function.update dg v 0)
        { h with slot := Function.update h.slot k (Function.update (h.slot k) (.nbr v) none) }, none)
  else (h, some .key)

/-- Gives the caller a new set with the elements of `s`. -/
def give (s : Finset α) (h : Heap α) : Heap α :=
  { h with ns := Function.update h.ns h.next s, next := h.next + 1, held := insert h.next h.held }

/-- The same for a set of frozensets. -/
def giveE (s : Finset (Finset α)) (h : Heap α) : Heap α :=
  { h with es := Function.update h.es h.next s, next := h.next + 1, heldE := insert h.next h.heldE }

/-- One entry of the dictionary of the property `neighbors` (undirected_graph.py:133): the set itself is passed on. -/
def lend (k : ℕ) (h : Heap α) (v : α) : Heap α :=
  let h := touch k (.nbr v) h
  match h.slot k (.nbr v) with
  | some l => { h with lent := insert l h.lent }
  | none => h

/-- What the caller does next: makes a graph, copies object `k`, calls a mutator, reads an attribute, or gives a set it can reach
another content. -/
inductive Act (α : Type u)
  | new (nodes : Finset α) (edges : Finset (α × α))
  | copy (k : ℕ)
  | addEdge (k : ℕ) (i j : α)
  | deleteEdge (k : ℕ) (i j : α)
  | deleteNode (k : ℕ) (v : α)
  | nodes (k : ℕ)
  | edges (k : ℕ)
  | neighborsOf (k : ℕ) (v : α)
  | neighbors (k : ℕ)
  | change (l : ℕ) (s : Finset α)
  | changeE (l : ℕ) (s : Finset (Finset α))
  | changeLent (l : ℕ) (s : Finset α)

/-- What the caller sees; sets are shown as they are when the call returns. -/
inductive Out (α : Type u)
  | done
  | raised (e : Exn α)
  | nodeSet (s : Finset α)
  | edgeSet (s : Finset (Finset α))
  | dict (l : List (α × Finset α))

/-- The outcome of a mutator. -/
def Out.of (e : Option (Exn α)) : Out α :=
  match e with
  | some e => .raised e
  | none => .done

/-- The iteration orders of the sets involved. -/
structure UOrders (α : Type u) where
  oe : SetOrder Unit (Finset α)
  ou : SetOrder Unit α
  on : SetOrder Unit α

/-- Something is done with object `k`, if there is one. -/
def onObj (k : ℕ) (h : Heap α) (f : Heap α → Heap α × Out α) : Heap α × Out α := if k < h.count then f h else (h, .done)

/-- One step of the caller: undirected_graph.py:117 (copy), 132-133 (`neighbors`), 137 (`edges`), 141 (`nodes`), 175 (`neighbors_of`), 199-293
(mutators). -/
def exec (w : UOrders α) (h : Heap α) : Act α → Heap α × Out α
  | .new nodes edges => (h.new w.oe w.ou nodes edges, .done)
  | .copy k => onObj k h fun h => ((h.copy w.oe w.ou k).1, .of (h.copy w.oe w.ou k).2)
  | .addEdge k i j => onObj k h fun h => (h.addEdge k i j, .done)
  | .deleteEdge k i j => onObj k h fun h => ((h.deleteEdge k i j).1, .of (h.deleteEdge k i j).2)
  | .deleteNode k v => onObj k h fun h => ((h.deleteNode w.on k v).1, .of (h.deleteNode w.on k v).2)
  | .nodes k => onObj k h fun h => (h.give (h.val k .nodes), .nodeSet (h.val k .nodes))
  | .edges k => onObj k h fun h => (h.giveE (h.evalE k), .edgeSet (h.evalE k))
  | .neighborsOf k v => onObj k h fun h =>
      let h := h.touch k (.nbr v)
      (h.give (h.val k (.nbr v)), .nodeSet (h.val k (.nbr v)))
  | .neighbors k => onObj k h fun h =>
      let vs := w.on.ord () (h.val k .nodes)
      let h := vs.foldl (lend k) h
      (h, .dict (vs.map fun v => (v, h.val k (.nbr v))))
  | .change l s => if l ∈ h.held then ({ h with ns := Function.update h.ns l s }, .done) else (h, .done)
  | .changeE l s => if l ∈ h.heldE then ({ h with es := Function.update h.es l s }, .done) else (h, .done)
  | .changeLent l s => if l ∈ h.lent then ({ h with ns := Function.update h.ns l s }, .done) else (h, .done)

/-- All steps of a caller, with what it sees. -/
def run : List (UOrders α × Act α) → Heap α → Heap α × List (Out α)
  | [], h => (h, [])
  | (w, a) :: l, h => ((run l (h.exec w a).1).1, (h.exec w a).2 :: (run l (h.exec w a).1).2)

end Heap

end Model
