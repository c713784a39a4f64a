import Verif.Model.History

/-!
# `DAG` objects in memory

`Model.DAG` treats objects as values. Here the set objects behind the attributes are kept in a memory shared with the caller, who can change
every set it has passed in or got back. The methods are written as sequences of accesses to the attributes.
-/

namespace Model

universe u

/-- The attributes that refer to a set of nodes: `_nodes`, `_neighbors[v]`, `_parents[v]`, `_children[v]`. -/
inductive DSlot (α : Type u)
  | nodes
  | nbr (v : α)
  | par (v : α)
  | chi (v : α)
  deriving DecidableEq

variable {α : Type u} [DecidableEq α]

namespace DAG

/-- The set an attribute refers to. -/
def get (G : DAG α) : DSlot α → Finset α
  | .nodes => G.nodes
  | .nbr v => G.neighbors v
  | .par v => G.parents v
  | .chi v => G.children v

/-- The same graph with another set there. -/
def put (G : DAG α) (s : DSlot α) (x : Finset α) : DAG α :=
  match s with
  | .nodes => { G with nodes := x }
  | .nbr v => { G with neighbors := Function.update G.neighbors v x }
  | .par v => { G with parents := Function.update G.parents v x }
  | .chi v => { G with children := Function.update G.children v x }

end DAG

/-- The body of a method: it ends (possibly raising), runs forever, reads attributes, changes a set of nodes in place, changes `_arcs` in
place, binds `_arcs` to a new set, or removes a key from a dictionary. -/
inductive Prog (α : Type u)
  | ret (e : Option (Exn α))
  | loop
  | read (f : DAG α → Prog α)
  | change (s : DSlot α) (f : Finset α → Finset α) (p : Prog α)
  | changeArcs (f : Finset (α × α) → Finset (α × α)) (p : Prog α)
  | bindArcs (f : Finset (α × α) → Finset (α × α)) (p : Prog α)
  | pop (s : DSlot α) (p : Prog α)

namespace Prog

/-- `q` continues with the outcome of `p`. -/
def bind (p : Prog α) (q : Option (Exn α) → Prog α) : Prog α :=
  match p with
  | .ret e => q e
  | .loop => .loop
  | .read f => .read fun G => (f G).bind q
  | .change s f p => .change s f (p.bind q)
  | .changeArcs f p => .changeArcs f (p.bind q)
  | .bindArcs f p => .bindArcs f (p.bind q)
  | .pop s p => .pop s (p.bind q)

/-- `p; q` -/
def seq (p q : Prog α) : Prog α :=
  p.bind fun e => match e with
    | some e => .ret (some e)
    | none => q

/-- `for x in l: body(x)` -/
def forEach {β : Type u} (body : β → Prog α) : List β → Prog α
  | [] => .ret none
  | x :: l => seq (body x) (forEach body l)

/-- `try: p except KeyError: if not ignore_error: raise` (only `KeyError` can occur). -/
def quiet (ignoreError : Bool) (p : Prog α) : Prog α := p.bind fun e => .ret (if ignoreError then none else e)

/-- `self._arcs.remove(a)` -/
def delArc (a : α × α) : Prog α :=
  .read fun G => if a ∈ G.arcs then .changeArcs (fun s => s.erase a) (.ret none) else .ret (some .key)

/-- `d[k].remove(x)` for one of the dictionaries; the lookup inserts a missing key. -/
def delAt (s : DSlot α) (x : α) : Prog α :=
  .change s id (.read fun G => if x ∈ G.get s then .change s (fun t => t.erase x) (.ret none) else .ret (some .key))

/-- `remove_arc` (dag.py:888-898). -/
def removeArc (ignoreError : Bool) (i j : α) : Prog α :=
  quiet ignoreError
    (seq (seq (seq (seq (delArc (i, j)) (delAt (.par j) i)) (delAt (.chi i) j)) (delAt (.nbr j) i)) (delAt (.nbr i) j))

/-- dag.py:808-812, 854-857. -/
def link (i j : α) : Prog α :=
  .change (.nbr i) (insert j) (.change (.nbr j) (insert i) (.change (.chi i) (insert j) (.change (.par j) (insert i) (.ret none))))

/-- The acyclicity check: `topological_sort`, with a rollback if it raises `CycleError`. -/
def checked (o : SetOrder (Option α) α) (rollback : Prog α) : Prog α :=
  .read fun G => match (DAG.topologicalSort G o).run with
    | none => .loop
    | some (.ok _) => .ret none
    | some (.error (.cycle l)) => seq rollback (.ret (some (.cycle l)))
    | some (.error e) => .ret (some e)

/-- `add_arc` (dag.py:804-819). -/
def addArc (check : Bool) (o : SetOrder (Option α) α) (i j : α) : Prog α :=
  .change .nodes (insert i) (.change .nodes (insert j) (.changeArcs (insert (i, j))
    (seq (link i j) (if check then checked o (removeArc false i j) else .ret none))))

/-- `add_arcs_from` (dag.py:844-865). -/
def addArcsFrom (check : Bool) (o : SetOrder (Option α) α) (oa : SetOrder Bool (α × α)) (arcs : Finset (α × α)) : Prog α :=
  if arcs.card = 0 then .ret none
  else
    let l := oa.ord false arcs
    .change .nodes (fun s => s ∪ (l.map Prod.fst).toFinset ∪ (l.map Prod.snd).toFinset) (.changeArcs (fun s => s ∪ l.toFinset)
      (seq (forEach (fun (a : α × α) => link a.1 a.2) l)
        (if check then checked o (forEach (fun (a : α × α) => removeArc false a.1 a.2) (oa.ord true arcs)) else .ret none)))

/-- `remove_node` (dag.py:760-777). -/
def removeNode (ignoreError : Bool) (o : SetOrder Bool α) (v : α) : Prog α :=
  quiet ignoreError (.read fun G =>
    if v ∈ G.nodes then
      .change .nodes (fun s => s.erase v)
        (seq (seq
          (.read fun G => forEach (fun p => seq (delAt (.chi p) v) (delAt (.nbr p) v)) (o.ord false (G.parents v)))
          (.read fun G => forEach (fun c => seq (delAt (.par c) v) (delAt (.nbr c) v)) (o.ord true (G.children v))))
          (.pop (.nbr v) (.pop (.par v) (.pop (.chi v) (.bindArcs (fun s => s.filter fun a => a.1 ≠ v ∧ a.2 ≠ v) (.ret none))))))
    else .ret (some .key))

/-- The mutators (dag.py:692-946). -/
def ofOp (w : DAG.Orders α) : DAG.Op α → Prog α
  | .addNode v => .change .nodes (insert v) (.ret none)
  | .addArc check i j => addArc check w.top i j
  | .addArcsFrom check arcs => addArcsFrom check w.top w.arcs arcs
  | .removeArc ig i j => removeArc ig i j
  | .removeArcsFrom ig arcs => forEach (fun (a : α × α) => removeArc ig a.1 a.2) arcs
  | .reverseArc ig check i j => seq (removeArc ig i j) (addArc check w.top j i)
  | .removeNode ig v => removeNode ig w.nbrs v

end Prog

/-- A memory with `DAG` objects numbered from 0. A set of nodes has an address `(g, s)`, where `g` counts the allocations, which may make
several sets at once; a set of arcs has an address `g`. `slot k s` is the set an attribute of object `k` refers to, if it exists. The caller
has references to all sets made by the allocations in `held`. -/
structure DHeap (α : Type u) where
  ns : ℕ × DSlot α → Finset α
  as : ℕ → Finset (α × α)
  next : ℕ
  count : ℕ
  slot : ℕ → DSlot α → Option (ℕ × DSlot α)
  aslot : ℕ → Option ℕ
  held : Finset ℕ

namespace DHeap

/-- No objects yet. -/
def start (α : Type u) : DHeap α := ⟨fun _ => ∅, fun _ => ∅, 0, 0, fun _ _ => none, fun _ => none, ∅⟩

/-- The elements of the set an attribute refers to; a missing key reads as the empty set. -/
def val (h : DHeap α) (k : ℕ) (s : DSlot α) : Finset α :=
  match h.slot k s with
  | some l => h.ns l
  | none => ∅

/-- The elements of `_arcs`. -/
def arcsOf (h : DHeap α) (k : ℕ) : Finset (α × α) :=
  match h.aslot k with
  | some l => h.as l
  | none => ∅

/-- Object `k` as a value. -/
def view (h : DHeap α) (k : ℕ) : DAG α :=
  ⟨h.val k .nodes, h.arcsOf k, fun v => h.val k (.nbr v), fun v => h.val k (.par v), fun v => h.val k (.chi v)⟩

/-- Changes the set an attribute refers to in place; a missing key is inserted with a new empty set first. -/
def change (k : ℕ) (s : DSlot α) (f : Finset α → Finset α) (h : DHeap α) : DHeap α :=
  match h.slot k s with
  | some l => { h with ns := Function.update h.ns l (f (h.ns l)) }
  | none =>
      { h with
        ns := Function.update h.ns (h.next, s) (f ∅)
        next := h.next + 1
        slot := Function.update h.slot k (Function.update (h.slot k) s (some (h.next, s))) }

/-- Changes `_arcs` in place. -/
def changeArcs (k : ℕ) (f : Finset (α × α) → Finset (α × α)) (h : DHeap α) : DHeap α :=
  match h.aslot k with
  | some l => { h with as := Function.update h.as l (f (h.as l)) }
  | none => h

/-- Binds `_arcs` to a new set. -/
def bindArcs (k : ℕ) (f : Finset (α × α) → Finset (α × α)) (h : DHeap α) : DHeap α :=
  { h with
    as := Function.update h.as h.next (f (h.arcsOf k))
    next := h.next + 1
    aslot := Function.update h.aslot k (some h.next) }

/-- Removes a key; the set itself stays. -/
def pop (k : ℕ) (s : DSlot α) (h : DHeap α) : DHeap α :=
  { h with slot := Function.update h.slot k (Function.update (h.slot k) s none) }

/-- Runs a method body on object `k`. -/
def exec (k : ℕ) : Prog α → DHeap α → Option (DHeap α × Option (Exn α))
  | .ret e, h => some (h, e)
  | .loop, _ => none
  | .read f, h => exec k (f (h.view k)) h
  | .change s f p, h => exec k p (h.change k s f)
  | .changeArcs f p, h => exec k p (h.changeArcs k f)
  | .bindArcs f p, h => exec k p (h.bindArcs k f)
  | .pop s p, h => exec k p (h.pop k s)

/-- New sets for the caller with the given contents. -/
def give (f : DSlot α → Finset α) (a : Finset (α × α)) (h : DHeap α) : DHeap α :=
  { h with
    ns := fun l => if l.1 = h.next then f l.2 else h.ns l
    as := Function.update h.as h.next a
    next := h.next + 1
    held := insert h.next h.held }

/-- A new object whose attributes refer to new sets with the given contents, for the keys given. -/
def alloc (key : DSlot α → Bool) (f : DSlot α → Finset α) (a : Finset (α × α)) (h : DHeap α) : DHeap α :=
  { h with
    ns := fun l => if l.1 = h.next then f l.2 else h.ns l
    as := Function.update h.as h.next a
    next := h.next + 1
    count := h.count + 1
    slot := Function.update h.slot h.count fun s => if key s then some (h.next, s) else none
    aslot := Function.update h.aslot h.count (some h.next) }

/-- The set of nodes passed to the constructor is a set of the caller; so is the set of arcs. -/
def passed (nodes : Finset α) (arcs : Finset (α × α)) (h : DHeap α) : DHeap α := h.give (fun _ => nodes) arcs

/-- What the caller does next: makes a graph, copies object `k`, calls a mutator, reads an attribute, or gives a set it can reach
another content. -/
inductive Act (α : Type u)
  | new (nodes : Finset α) (arcs : Finset (α × α))
  | copy (k : ℕ)
  | call (k : ℕ) (op : DAG.Op α)
  | nodes (k : ℕ)
  | arcs (k : ℕ)
  | parents (k : ℕ)
  | children (k : ℕ)
  | neighbors (k : ℕ)
  | parentsOf (k : ℕ) (v : α)
  | childrenOf (k : ℕ) (v : α)
  | neighborsOf (k : ℕ) (v : α)
  | change (l : ℕ × DSlot α) (s : Finset α)
  | changeArcs (l : ℕ) (s : Finset (α × α))

/-- What the caller sees; sets are shown as they are when the call returns. -/
inductive Out (α : Type u)
  | done
  | raised (e : Exn α)
  | nodeSet (s : Finset α)
  | arcSet (s : Finset (α × α))
  | dict (f : α → Finset α)

/-- The outcome of a mutator. -/
def Out.of (e : Option (Exn α)) : Out α :=
  match e with
  | some e => .raised e
  | none => .done

/-- An accessor that returns a copy of one set. -/
def single (k : ℕ) (s : DSlot α) (h : DHeap α) : DHeap α × Out α :=
  (h.give (fun t => if t = s then h.val k s else ∅) ∅, .nodeSet (h.val k s))

/-- A property that returns a dictionary with copies of the sets (core_utils.py:55-61). -/
def dictionary (k : ℕ) (c : α → DSlot α) (h : DHeap α) : DHeap α × Out α :=
  (h.give (fun t => match t with
    | .nodes => ∅
    | .nbr v | .par v | .chi v => if t = c v then h.val k t else ∅) ∅, .dict fun v => h.val k (c v))

/-- Something is done with object `k`, if there is one. -/
def onObj (k : ℕ) (h : DHeap α) (f : DHeap α → DHeap α × Out α) : DHeap α × Out α := if k < h.count then f h else (h, .done)

/-- One step of the caller; `none`: the call does not return. The constructor is dag.py:53-59 (an object whose constructor raises is
lost), `copy` is dag.py:41-51 and 85, the accessors are dag.py:139-165, 218, 245, 272. -/
def step (w : DAG.Orders α) (h : DHeap α) : Act α → Option (DHeap α × Out α)
  | .new nodes arcs =>
      let h := h.passed nodes arcs
      match exec h.count (Prog.addArcsFrom true w.top w.arcs arcs)
          (h.alloc (fun s => decide (s = .nodes)) (fun s => if s = .nodes then nodes else ∅) ∅) with
      | none => none
      | some (h', none) => some (h', .done)
      | some (_, some e) => some (h, .raised e)
  | .copy k => some (onObj k h fun h => (h.alloc (fun s => (h.slot k s).isSome) (h.val k) (h.arcsOf k), .done))
  | .call k op =>
      if k < h.count then
        match exec k (Prog.ofOp w op) h with
        | none => none
        | some (h', e) => some (h', .of e)
      else some (h, .done)
  | .nodes k => some (onObj k h (single k .nodes))
  | .arcs k => some (onObj k h fun h => (h.give (fun _ => ∅) (h.arcsOf k), .arcSet (h.arcsOf k)))
  | .parents k => some (onObj k h (dictionary k .par))
  | .children k => some (onObj k h (dictionary k .chi))
  | .neighbors k => some (onObj k h (dictionary k .nbr))
  | .parentsOf k v => some (onObj k h (single k (.par v)))
  | .childrenOf k v => some (onObj k h (single k (.chi v)))
  | .neighborsOf k v => some (onObj k h (single k (.nbr v)))
  | .change l s => some (if l.1 ∈ h.held then { h with ns := Function.update h.ns l s } else h, .done)
  | .changeArcs l s => some (if l ∈ h.held then { h with as := Function.update h.as l s } else h, .done)

/-- All steps of a caller, with what it sees; `none` if one of the calls does not return. -/
def run : List (DAG.Orders α × Act α) → DHeap α → Option (DHeap α × List (Out α))
  | [], h => some (h, [])
  | (w, a) :: l, h =>
      match h.step w a with
      | none => none
      | some (h', x) => (run l h').map fun r => (r.1, x :: r.2)

end DHeap

end Model
