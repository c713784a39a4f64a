import Verif.Prelude
import Verif.Model.Base

/-!
# `graphical_models/classes/dags/dag.py`: state, mutators, elementary queries

A `DAG` object holds five hand-maintained structures (dag.py:53-57). `defaultdict(set)` is a total
function (missing key = empty set); the set of keys present is not modelled.
-/

namespace Model

universe u
variable {α : Type u} [DecidableEq α]

/-- dag.py:53-57: `_nodes`, `_arcs`, `_neighbors`, `_parents`, `_children`. -/
@[ext]
structure DAG (α : Type u) where
  nodes : Finset α
  arcs : Finset (α × α)
  neighbors : α → Finset α
  parents : α → Finset α
  children : α → Finset α

/-- A state together with the exception that ended the call, if any. -/
abbrev Step (α : Type u) := DAG α × Option (Exn α)

/-- Sequencing: a raised exception skips the rest. -/
def Step.andThen (r : Step α) (f : DAG α → Step α) : Step α :=
  match r.2 with
  | some e => (r.1, some e)
  | none => f r.1

/-- `for x in l: body(x)`, left at the first exception. -/
def forEach {β : Type u} (body : DAG α → β → Step α) : List β → DAG α → Step α
  | [], G => (G, none)
  | x :: l, G => (body G x).andThen (forEach body l)

namespace DAG

/-- The arc relation. -/
def E (G : DAG α) (i j : α) : Prop := (i, j) ∈ G.arcs

instance (G : DAG α) (i j : α) : Decidable (G.E i j) := inferInstanceAs (Decidable (_ ∈ _))

/-- Object right after dag.py:53-57, before any arc is added. -/
def empty (nodes : Finset α) : DAG α :=
  { nodes := nodes, arcs := ∅, neighbors := fun _ => ∅, parents := fun _ => ∅, children := fun _ => ∅ }

/-! ## Set primitives: `s.remove(x)` raises `KeyError` if `x` is absent -/

/-- `self._arcs.remove(a)` -/
def delArc (a : α × α) (G : DAG α) : Step α :=
  if a ∈ G.arcs then ({ G with arcs := G.arcs.erase a }, none) else (G, some .key)

/-- `self._parents[k].remove(x)` -/
def delParent (k x : α) (G : DAG α) : Step α :=
  if x ∈ G.parents k then
    ({ G with parents := Function.update G.parents k ((G.parents k).erase x) }, none)
  else (G, some .key)

/-- `self._children[k].remove(x)` -/
def delChild (k x : α) (G : DAG α) : Step α :=
  if x ∈ G.children k then
    ({ G with children := Function.update G.children k ((G.children k).erase x) }, none)
  else (G, some .key)

/-- `self._neighbors[k].remove(x)` -/
def delNbr (k x : α) (G : DAG α) : Step α :=
  if x ∈ G.neighbors k then
    ({ G with neighbors := Function.update G.neighbors k ((G.neighbors k).erase x) }, none)
  else (G, some .key)

/-- `self._neighbors[i].add(j); self._neighbors[j].add(i); self._children[i].add(j);
self._parents[j].add(i)` (dag.py:808-812 and 854-857). -/
def link (G : DAG α) (i j : α) : DAG α :=
  let nb := Function.update G.neighbors i (insert j (G.neighbors i))
  let nb := Function.update nb j (insert i (nb j))
  { G with
    neighbors := nb
    children := Function.update G.children i (insert j (G.children i))
    parents := Function.update G.parents j (insert i (G.parents j)) }

/-! ## Topological sort -/

/-- Mutable data of `topological_sort` (dag.py:634-637). -/
structure SortState (α : Type u) where
  anyVisited : Finset α
  onPath : Finset α
  path : List α
  stack : List α

/-- `_mark_children_visited` (dag.py:951-963). `any_visited` is a plain dict over the nodes, so looking up a
child that is not a node raises `KeyError` (line 956). -/
def markChildrenVisited (G : DAG α) (o : SetOrder (Option α) α) (node : α) (st : SortState α) :
    Run α (SortState α) := do
  let st ← (o.ord (some node) (G.children node)).foldlM
    (fun st child =>
      if child ∉ G.nodes then throw Exn.key
      else if child ∉ st.anyVisited then markChildrenVisited G o child st
      else if child ∈ st.onPath then throw (Exn.cycle (st.path ++ [child]))
      else pure st)
    { st with
      anyVisited := insert node st.anyVisited
      onPath := insert node st.onPath
      path := st.path ++ [node] }
  return { st with
    path := st.path.dropLast
    onPath := st.onPath.erase node
    stack := st.stack ++ [node] }
partial_fixpoint

/-- `topological_sort` (dag.py:618-641). -/
def topologicalSort (G : DAG α) (o : SetOrder (Option α) α) : Run α (List α) := do
  let st ← (o.ord none G.nodes).foldlM
    (fun st node =>
      if node ∉ st.anyVisited then markChildrenVisited G o node st else pure st)
    { anyVisited := ∅, onPath := ∅, path := [], stack := [] }
  return st.stack.reverse

/-! ## Mutators -/

/-- `add_node` (dag.py:714). -/
def addNode (G : DAG α) (v : α) : DAG α := { G with nodes := insert v G.nodes }

/-- `remove_arc` with `ignore_error` (dag.py:888-898). -/
def removeArc (ignoreError : Bool) (G : DAG α) (i j : α) : Step α :=
  let r := (((((delArc (i, j) G).andThen (delParent j i)).andThen (delChild i j)).andThen
    (delNbr j i)).andThen (delNbr i j))
  if ignoreError then (r.1, none) else r

/-- Lines 804-812 of `add_arc`. -/
def addArcUnchecked (G : DAG α) (i j : α) : DAG α :=
  link { G with nodes := insert j (insert i G.nodes), arcs := insert (i, j) G.arcs } i j

/-- `add_arc` (dag.py:804-819). `none`: the acyclicity check does not terminate. -/
def addArc (check : Bool) (o : SetOrder (Option α) α) (G : DAG α) (i j : α) : Option (Step α) :=
  let G1 := addArcUnchecked G i j
  if check then
    match (topologicalSort G1 o).run with
    | none => none
    | some (.ok _) => some (G1, none)
    | some (.error (.cycle l)) =>
        -- `self.remove_arc(i, j); raise e`; an exception of `remove_arc` replaces `e`
        some ((removeArc false G1 i j).andThen fun G2 => (G2, some (.cycle l)))
    | some (.error e) => some (G1, some e)
  else some (G1, none)

/-- Lines 849-857 of `add_arcs_from` (the order of the additions is `l`). -/
def addArcsUnchecked (G : DAG α) (l : List (α × α)) : DAG α :=
  l.foldl (fun G a => link G a.1 a.2)
    { G with
      nodes := G.nodes ∪ (l.map Prod.fst).toFinset ∪ (l.map Prod.snd).toFinset
      arcs := G.arcs ∪ l.toFinset }

/-- `add_arcs_from` (dag.py:844-865). `oa false` is the order of the insertion loop, `oa true` that of the
rollback loop. -/
def addArcsFrom (check : Bool) (o : SetOrder (Option α) α) (oa : SetOrder Bool (α × α)) (G : DAG α)
    (arcs : Finset (α × α)) : Option (Step α) :=
  if arcs.card = 0 then some (G, none)
  else
    let G1 := addArcsUnchecked G (oa.ord false arcs)
    if check then
      match (topologicalSort G1 o).run with
      | none => none
      | some (.ok _) => some (G1, none)
      | some (.error (.cycle l)) =>
          some ((forEach (fun G (a : α × α) => removeArc false G a.1 a.2) (oa.ord true arcs) G1).andThen
            fun G2 => (G2, some (.cycle l)))
      | some (.error e) => some (G1, some e)
    else some (G1, none)

/-- `remove_arcs_from` (dag.py:919-920), for the given order of the arcs. -/
def removeArcsFrom (ignoreError : Bool) (G : DAG α) (arcs : List (α × α)) : Step α :=
  forEach (fun G (a : α × α) => removeArc ignoreError G a.1 a.2) arcs G

/-- `reverse_arc` (dag.py:945-946). -/
def reverseArc (ignoreError check : Bool) (o : SetOrder (Option α) α) (G : DAG α) (i j : α) :
    Option (Step α) :=
  match removeArc ignoreError G i j with
  | (G1, some e) => some (G1, some e)
  | (G1, none) => addArc check o G1 j i

/-- `remove_node` (dag.py:760-777). The set comprehension in line 771 is executed only if nothing was raised
before. `o false` orders the parents, `o true` the children. -/
def removeNode (ignoreError : Bool) (o : SetOrder Bool α) (G : DAG α) (v : α) : Step α :=
  let r : Step α :=
    if v ∈ G.nodes then
      let G := { G with nodes := G.nodes.erase v }
      ((forEach (fun G p => (delChild p v G).andThen (delNbr p v)) (o.ord false (G.parents v)) G).andThen
        (fun G => forEach (fun G c => (delParent c v G).andThen (delNbr c v))
          (o.ord true (G.children v)) G)).andThen
        (fun G =>
          ({ G with
              neighbors := Function.update G.neighbors v ∅
              parents := Function.update G.parents v ∅
              children := Function.update G.children v ∅
              arcs := G.arcs.filter fun a => a.1 ≠ v ∧ a.2 ≠ v }, none))
    else (G, some .key)
  if ignoreError then (r.1, none) else r

/-- The constructor `DAG(nodes, arcs)` (dag.py:53-59). An exception leaves no object. -/
def new (o : SetOrder (Option α) α) (oa : SetOrder Bool (α × α)) (nodes : Finset α)
    (arcs : Finset (α × α)) : Option (Step α) :=
  addArcsFrom true o oa (empty nodes) arcs

/-! ## Reachability queries -/

/-- `_add_descendants` (dag.py:323-327). The order may depend on everything collected so far. -/
def addDescendants (G : DAG α) (o : SetOrder (α × Finset α) α) (acc : Finset α) (node : α) :
    Option (Finset α) :=
  (o.ord (node, acc) (G.children node)).foldlM
    (fun acc child => if child ∉ acc then addDescendants G o (insert child acc) child else some acc) acc
partial_fixpoint

/-- `_add_ancestors` (dag.py:361-365). -/
def addAncestors (G : DAG α) (o : SetOrder (α × Finset α) α) (acc : Finset α) (node : α) :
    Option (Finset α) :=
  (o.ord (node, acc) (G.parents node)).foldlM
    (fun acc p => if p ∉ acc then addAncestors G o (insert p acc) p else some acc) acc
partial_fixpoint

/-- `descendants_of(node)` for a single node (dag.py:353-355). -/
def descendantsOf (G : DAG α) (o : SetOrder (α × Finset α) α) (v : α) : Option (Finset α) :=
  addDescendants G o ∅ v

/-- `ancestors_of(node)` for a single node (dag.py:392-397). -/
def ancestorsOf (G : DAG α) (o : SetOrder (α × Finset α) α) (v : α) : Option (Finset α) :=
  addAncestors G o ∅ v

/-- `ancestors_of(nodes)` for a set: `set.union(*(...))`, empty for the empty set (dag.py:392-397). -/
def ancestorsOfSet (G : DAG α) (o : SetOrder (α × Finset α) α) (l : List α) : Option (Finset α) :=
  l.foldlM (fun acc v => (ancestorsOf G o v).map (acc ∪ ·)) ∅

/-- `descendants_of(nodes)` for a set (dag.py:353-359): `set.union(*())` raises `TypeError`. -/
def descendantsOfSet (G : DAG α) (o : SetOrder (α × Finset α) α) (l : List α) : Run α (Finset α) :=
  if l = [] then throw Exn.type
  else ExceptT.mk ((l.foldlM (fun acc v => (descendantsOf G o v).map (acc ∪ ·)) ∅).map Except.ok)

/-- `is_ancestor_of` (dag.py:321). -/
def isAncestorOf (G : DAG α) (o : SetOrder (α × Finset α) α) (anc desc : α) : Option Bool :=
  if desc ∈ G.children anc then some true
  else (descendantsOf G o anc).map fun s => decide (desc ∈ s)

end DAG

end Model
