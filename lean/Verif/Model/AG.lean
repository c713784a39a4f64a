import Verif.Model.Components
import Verif.Model.DSep

/-!
# `graphical_models/classes/mags/ancestral_graph.py`: state, mutators, separation

`defaultdict`s are total functions, `frozenset({i, j})` is a `Finset`.
-/

namespace Model

universe u
variable {α : Type u} [DecidableEq α]

/-- ancestral_graph.py:79-88. -/
@[ext]
structure AG (α : Type u) where
  nodes : Finset α
  directed : Finset (α × α)
  bidirected : Finset (Finset α)
  undirected : Finset (Finset α)
  neighbors : α → Finset α
  spouses : α → Finset α
  parents : α → Finset α
  children : α → Finset α
  adjacent : α → Finset α

/-- `d[k].add(x)` -/
def addAt (d : α → Finset α) (k x : α) : α → Finset α := Function.update d k (insert x (d k))

/-- `d[k].remove(x)` when `x` is present -/
def delAt (d : α → Finset α) (k x : α) : α → Finset α := Function.update d k ((d k).erase x)

namespace AG

/-- State and exception after a call. -/
abbrev Step (α : Type u) := AG α × Option (Exn α)

/-- Sequencing. -/
def Step.andThen (r : Step α) (f : AG α → Step α) : Step α :=
  match r.2 with
  | some e => (r.1, some e)
  | none => f r.1

/-- `for x in l: body(x)`, left at the first exception. -/
def forEach {β : Type u} (body : AG α → β → Step α) : List β → AG α → Step α
  | [], A => (A, none)
  | x :: l, A => (body A x).andThen (forEach body l)

/-- Object right after line 88. -/
def empty (nodes : Finset α) : AG α :=
  { nodes := nodes, directed := ∅, bidirected := ∅, undirected := ∅, neighbors := fun _ => ∅, spouses := fun _ => ∅,
    parents := fun _ => ∅, children := fun _ => ∅, adjacent := fun _ => ∅ }

/-! ## Adding edges -/

/-- `_add_directed` with `ignore_error=False` (ancestral_graph.py:535-562). -/
def addDirectedRaw (A : AG α) (i j : α) : Step α :=
  if (i, j) ∈ A.directed then (A, none)
  else if (A.neighbors j).Nonempty then (A, some .neighbor)
  else if i ∈ A.adjacent j then (A, some .adjacent)
  else ({ A with
    nodes := insert j (insert i A.nodes)
    directed := insert (i, j) A.directed
    parents := addAt A.parents j i
    children := addAt A.children i j
    adjacent := addAt (addAt A.adjacent i j) j i }, none)

/-- `_add_bidirected` with `ignore_error=False` (ancestral_graph.py:564-593). -/
def addBidirectedRaw (A : AG α) (i j : α) : Step α :=
  if ({i, j} : Finset α) ∈ A.bidirected then (A, none)
  else if (A.neighbors i).Nonempty then (A, some .neighbor)
  else if (A.neighbors j).Nonempty then (A, some .neighbor)
  else if i ∈ A.adjacent j then (A, some .adjacent)
  else ({ A with
    nodes := insert j (insert i A.nodes)
    bidirected := insert {i, j} A.bidirected
    spouses := addAt (addAt A.spouses j i) i j
    adjacent := addAt (addAt A.adjacent i j) j i }, none)

/-- `_add_undirected` with `ignore_error=False` (ancestral_graph.py:595-628); also `add_undirected` (line 533). -/
def addUndirected (A : AG α) (i j : α) : Step α :=
  if ({i, j} : Finset α) ∈ A.undirected then (A, none)
  else if (A.parents i).Nonempty then (A, some .neighbor)
  else if (A.spouses i).Nonempty then (A, some .neighbor)
  else if (A.parents j).Nonempty then (A, some .neighbor)
  else if (A.spouses j).Nonempty then (A, some .neighbor)
  else if i ∈ A.adjacent j then (A, some .adjacent)
  else ({ A with
    nodes := insert j (insert i A.nodes)
    undirected := insert {i, j} A.undirected
    neighbors := addAt (addAt A.neighbors j i) i j
    adjacent := addAt (addAt A.adjacent i j) j i }, none)

/-- The constructor (ancestral_graph.py:79-95). The three loops run over the given sets of pairs in the orders `o 0`,
`o 1`, `o 2`. -/
def new (o : SetOrder (Fin 3) (α × α)) (nodes : Finset α) (directed bidirected undirected : Finset (α × α)) : Step α :=
  ((forEach (fun A e => A.addDirectedRaw e.1 e.2) (o.ord 0 directed) (empty nodes)).andThen
    (forEach (fun A e => A.addBidirectedRaw e.1 e.2) (o.ord 1 bidirected))).andThen
    (forEach (fun A e => A.addUndirected e.1 e.2) (o.ord 2 undirected))

/-! ## Removing edges: `s.remove(x)` raises `KeyError` if `x` is absent -/

/-- `self._directed.remove(a)` -/
def delDirected (a : α × α) (A : AG α) : Step α :=
  if a ∈ A.directed then ({ A with directed := A.directed.erase a }, none) else (A, some .key)

/-- `self._bidirected.remove(e)` -/
def delBidirected (e : Finset α) (A : AG α) : Step α :=
  if e ∈ A.bidirected then ({ A with bidirected := A.bidirected.erase e }, none) else (A, some .key)

/-- `self._undirected.remove(e)` -/
def delUndirected (e : Finset α) (A : AG α) : Step α :=
  if e ∈ A.undirected then ({ A with undirected := A.undirected.erase e }, none) else (A, some .key)

/-- `self._parents[k].remove(x)` -/
def delParent (k x : α) (A : AG α) : Step α :=
  if x ∈ A.parents k then ({ A with parents := delAt A.parents k x }, none) else (A, some .key)

/-- `self._children[k].remove(x)` -/
def delChild (k x : α) (A : AG α) : Step α :=
  if x ∈ A.children k then ({ A with children := delAt A.children k x }, none) else (A, some .key)

/-- `self._spouses[k].remove(x)` -/
def delSpouse (k x : α) (A : AG α) : Step α :=
  if x ∈ A.spouses k then ({ A with spouses := delAt A.spouses k x }, none) else (A, some .key)

/-- `self._neighbors[k].remove(x)` -/
def delNbr (k x : α) (A : AG α) : Step α :=
  if x ∈ A.neighbors k then ({ A with neighbors := delAt A.neighbors k x }, none) else (A, some .key)

/-- `self._adjacent[k].remove(x)` -/
def delAdj (k x : α) (A : AG α) : Step α :=
  if x ∈ A.adjacent k then ({ A with adjacent := delAt A.adjacent k x }, none) else (A, some .key)

/-- `try: ... except KeyError: if ignore_error: pass else: raise` -/
def guard (ignoreError : Bool) (r : Step α) : Step α := if ignoreError then (r.1, none) else r

/-- `remove_directed` (ancestral_graph.py:700-710). -/
def removeDirected (ignoreError : Bool) (A : AG α) (i j : α) : Step α :=
  guard ignoreError (((((delDirected (i, j) A).andThen (delChild i j)).andThen (delParent j i)).andThen
    (delAdj i j)).andThen (delAdj j i))

/-- `remove_bidirected` (ancestral_graph.py:733-743). -/
def removeBidirected (ignoreError : Bool) (A : AG α) (i j : α) : Step α :=
  guard ignoreError (((((delBidirected {i, j} A).andThen (delSpouse i j)).andThen (delSpouse j i)).andThen
    (delAdj i j)).andThen (delAdj j i))

/-- `remove_undirected` (ancestral_graph.py:766-776). -/
def removeUndirected (ignoreError : Bool) (A : AG α) (i j : α) : Step α :=
  guard ignoreError (((((delUndirected {i, j} A).andThen (delNbr i j)).andThen (delNbr j i)).andThen
    (delAdj i j)).andThen (delAdj j i))

/-- `remove_edge` (ancestral_graph.py:799-808). -/
def removeEdge (ignoreError : Bool) (A : AG α) (i j : α) : Step α :=
  if ({i, j} : Finset α) ∈ A.bidirected then A.removeBidirected false i j
  else if (i, j) ∈ A.directed then A.removeDirected false i j
  else if (j, i) ∈ A.directed then A.removeDirected false j i
  else if ({i, j} : Finset α) ∈ A.undirected then A.removeUndirected false i j
  else if ignoreError then (A, none) else (A, some .key)

/-- Lines 668-671: deleting the keys of the dictionaries (present, because the loops have looked them up), and of
`_adjacent` (line 672): `adjKey` says whether that dictionary has the key; reading `_adjacent[v]` anywhere creates it,
otherwise `del` raises `KeyError`. -/
def dropKeys (adjKey : Bool) (v : α) (A : AG α) : Step α :=
  ({ A with
      children := Function.update A.children v ∅
      parents := Function.update A.parents v ∅
      spouses := Function.update A.spouses v ∅
      neighbors := Function.update A.neighbors v ∅
      adjacent := Function.update A.adjacent v ∅ }, if adjKey then none else some .key)

/-- `remove_node` (ancestral_graph.py:649-677). The four loops run in the orders `o 0` .. `o 3`. A node with a
self-loop would have its own sets changed during the iteration; not modelled (the loop runs over the old set). -/
def removeNode (ignoreError adjKey : Bool) (o : SetOrder (Fin 4) α) (A : AG α) (v : α) : Step α :=
  guard ignoreError <|
    if v ∈ A.nodes then
      (((((forEach (fun A p => ((delChild p v A).andThen (delAdj p v)).andThen (delDirected (p, v)))
          (o.ord 0 (A.parents v)) { A with nodes := A.nodes.erase v }).andThen
        fun A => forEach (fun A c => ((delParent c v A).andThen (delAdj c v)).andThen (delDirected (v, c)))
          (o.ord 1 (A.children v)) A).andThen
        fun A => forEach (fun A s => ((delSpouse s v A).andThen (delAdj s v)).andThen (delBidirected {s, v}))
          (o.ord 2 (A.spouses v)) A).andThen
        fun A => forEach (fun A n => ((delNbr n v A).andThen (delAdj n v)).andThen (delUndirected {n, v}))
          (o.ord 3 (A.neighbors v)) A).andThen
        (dropKeys adjKey v))
    else (A, some .key)

/-! ## The check of the public mutators -/

/-- `_mark_children_visited` (ancestral_graph.py:445-460). The exceptions of the code carry no data; here `cycle` carries
the local variable `cycle` and `spouse` the pair found. Both dictionaries are plain dicts over the nodes. -/
def markChildrenVisited (A : AG α) (o os : SetOrder (Option α) α) (node : α) (st : DAG.SortState α) :
    Run α (DAG.SortState α) := do
  let st ← (o.ord (some node) (A.children node)).foldlM
    (fun st child =>
      if child ∉ A.nodes then throw Exn.key
      else if child ∉ st.anyVisited then markChildrenVisited A o os child st
      else if child ∈ st.onPath then throw (Exn.cycle (st.path ++ [child]))
      else pure st)
    { st with
      anyVisited := insert node st.anyVisited
      onPath := insert node st.onPath
      path := st.path ++ [node] }
  let st ← (os.ord (some node) (A.spouses node)).foldlM
    (fun (st : DAG.SortState α) s =>
      if s ∉ A.nodes then throw Exn.key
      else if s ∈ st.onPath then throw (Exn.spouse node s)
      else pure st) st
  return { st with
    path := st.path.dropLast
    onPath := st.onPath.erase node
    stack := st.stack ++ [node] }
partial_fixpoint

/-- `topological_sort` (ancestral_graph.py:1536-1543). -/
def topologicalSort (A : AG α) (o os : SetOrder (Option α) α) : Run α (List α) := do
  let st ← (o.ord none A.nodes).foldlM
    (fun (st : DAG.SortState α) node =>
      if node ∉ st.anyVisited then markChildrenVisited A o os node st else pure st)
    { anyVisited := ∅, onPath := ∅, path := [], stack := [] }
  return st.stack.reverse

/-- `add_directed` (ancestral_graph.py:481-486): only `CycleError` triggers the rollback. -/
def addDirected (o os : SetOrder (Option α) α) (A : AG α) (i j : α) : Option (Step α) :=
  match A.addDirectedRaw i j with
  | (A1, some e) => some (A1, some e)
  | (A1, none) =>
    match (topologicalSort A1 o os).run with
    | none => none
    | some (.ok _) => some (A1, none)
    | some (.error (.cycle l)) => some ((A1.removeDirected false i j).andThen fun A2 => (A2, some (.cycle l)))
    | some (.error e) => some (A1, some e)

/-- `add_bidirected` (ancestral_graph.py:507-512): `_add_bidirected` is called twice and never raises `CycleError`. -/
def addBidirected (A : AG α) (i j : α) : Step α :=
  (A.addBidirectedRaw i j).andThen fun A1 => A1.addBidirectedRaw i j

/-! ## Districts -/

/-- `district_of` with a `node_subset` (ancestral_graph.py:391, 992-998). -/
def districtOfIn (A : AG α) (o : SetOrder (α × Finset α) α) (S : Finset α) (v : α) : Option (Finset α) :=
  (reachable (fun x => A.spouses x ∩ S) o (∅, ∅) v).map Prod.fst

/-- `district_of` with `node_subset=None`. -/
def districtOf (A : AG α) (o : SetOrder (α × Finset α) α) (v : α) : Option (Finset α) := A.districtOfIn o A.nodes v

/-- `c_components` (ancestral_graph.py:1013-1022). -/
def cComponents (A : AG α) (o : SetOrder (α × Finset α) α) (pk : Pick α) : Option (List (Finset α)) :=
  componentsLoop (fun x => A.spouses x ∩ A.nodes) o pk (fun _ => true) 0 A.nodes ∅ []

/-! ## m-separation -/

/-- `_add_upstream` (ancestral_graph.py:1657-1661), also `_add_ancestors` without excluded arcs (245-249). -/
def addUpstream (A : AG α) (o : SetOrder (α × Finset α) α) (acc : Finset α) (node : α) : Option (Finset α) :=
  (o.ord (node, acc) (A.parents node)).foldlM
    (fun acc p => if p ∉ acc then addUpstream A o (insert p acc) p else some acc) acc
partial_fixpoint

/-- `shaded_nodes` (ancestral_graph.py:1711-1713). -/
def shade (A : AG α) (o : SepOracle α) (C : Finset α) : Option (Finset α) :=
  (o.cs.ord () C).foldlM (fun acc c => addUpstream A o.anc acc c) C

/-- What is put on the schedule after visiting `(node, _dir)` (ancestral_graph.py:1729-1744). `false` is `'tail'`, `true`
is `'arrowhead'`. -/
def ballSucc (A : AG α) (C shaded : Finset α) (s : α × Bool) : Finset (α × Bool) :=
  if s.2 = false then
    if s.1 ∉ C then
      (A.parents s.1).image (·, false) ∪ (A.children s.1).image (·, true) ∪ (A.spouses s.1).image (·, true) ∪
        (A.neighbors s.1).image (·, false)
    else ∅
  else
    (if s.1 ∈ shaded then (A.parents s.1).image (·, false) ∪ (A.spouses s.1).image (·, true) else ∅) ∪
    (if s.1 ∉ C then (A.children s.1).image (·, true) ∪ (A.neighbors s.1).image (·, true) else ∅)

/-- `msep(A, B, C)` (ancestral_graph.py:1706-1746). -/
def msep (A : AG α) (o : SepOracle α) (S B C : Finset α) : Option Bool :=
  (shade A o C).bind fun shaded =>
  popLoop o.pop (fun s => decide (s.1 ∈ B)) (ballSucc A C shaded) 0 (S.image (·, false)) ∅

/-- `descendants` of `msep_from_given` (ancestral_graph.py:1778-1781). -/
def ancestorsPlus (A : AG α) (o : SepOracle α) (C : Finset α) : Option (Finset α) :=
  (o.cs.ord () C).foldlM (fun acc c => addUpstream A o.anc (insert c acc) c) ∅

/-- `_is_collider(u, v, w)` (ancestral_graph.py:1665-1674), `u = none` being Python's `None` (not a node, so its entries in
the dictionaries are empty). -/
def isCollider (A : AG α) (u : Option α) (v w : α) : Prop :=
  (∃ x, u = some x ∧ v ∈ A.children x) ∧ v ∈ A.children w ∨
  (∃ x, u = some x ∧ v ∈ A.children x) ∧ v ∈ A.spouses w ∨
  (∃ x, u = some x ∧ v ∈ A.spouses x) ∧ v ∈ A.children w ∨
  (∃ x, u = some x ∧ v ∈ A.spouses x) ∧ v ∈ A.spouses w

instance (A : AG α) (u : Option α) (v w : α) : Decidable (A.isCollider u v w) := by
  unfold isCollider
  cases u
  · exact isFalse (by simp)
  · simp only [Option.some.injEq, exists_eq_left']; infer_instance

/-- One round of the link labelling (ancestral_graph.py:1792-1805). -/
def nextLinks (A : AG α) (C desc : Finset α) (iLinks labeled : Finset (Option α × α)) : Finset (Option α × α) :=
  iLinks.biUnion fun l =>
    ((A.adjacent l.2).filter fun w =>
      l.1 ≠ some w ∧ (some l.2, w) ∉ labeled ∧
        if A.isCollider l.1 l.2 w then l.2 ∈ desc else l.2 ∉ C).image fun w => (some l.2, w)

/-- The `while True` loop (ancestral_graph.py:1791-1811), returning `reachable`. -/
def linkLoop (A : AG α) (C desc reachable : Finset α) (iLinks labeled : Finset (Option α × α)) : Option (Finset α) :=
  if (nextLinks A C desc iLinks labeled).card = 0 then some reachable
  else linkLoop A C desc (reachable ∪ (nextLinks A C desc iLinks labeled).image Prod.snd)
    (nextLinks A C desc iLinks labeled) (labeled ∪ iLinks)
partial_fixpoint

/-- `msep_from_given(A, C)` (ancestral_graph.py:1770-1813). -/
def msepFromGiven (A : AG α) (o : SepOracle α) (S C : Finset α) : Option (Finset α) := do
  let desc ← ancestorsPlus A o C
  let reachable ← linkLoop A C desc S (S.image (none, ·)) ∅
  return ((A.nodes \ S) \ C) \ reachable

end AG

end Model
