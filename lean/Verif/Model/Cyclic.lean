import Verif.Model.AGMarks

/-!
# `graphical_models/classes/cyclic/cyclic_graph.py`

The class there is also called `AncestralGraph`. Its fields and most of its methods are those of
`mags/ancestral_graph.py`, with the sorted pair `tuple(sorted((i, j)))` in place of `frozenset({i, j})`; sorted pairs are in
bijection with the two-element sets, so the model `AG` is reused for the state (`base`). In addition `discriminating_paths`
depends on the order of the keys of the `defaultdict` `_parents`, which is kept here (`keys`).

The methods whose bodies are the same as in `ancestral_graph.py` are modelled by the functions of `AG` on `base`:
`topological_sort` (154-179), `_is_collider` (586-597), `ancestors_of` (418-446), `has_any_edge` (460-461), `colliders` (472-473),
`skeleton` (403-404), `msep` (679-726), `msep_from_given` (728-775), `to_maximal` (517-521, the branch `new=False` there),
`to_amat` (527-538), `__eq__` (83-91).
-/

namespace Model

universe u
variable {α : Type u} [DecidableEq α]

/-- cyclic_graph.py:65-74. `keys` are the keys of `_parents` in the order of insertion. -/
structure CyclicG (α : Type u) where
  base : AG α
  keys : List α

namespace CyclicG

/-- Reading `_parents[v]`: a missing key is created at the end. -/
def touch (keys : List α) (v : α) : List α := if v ∈ keys then keys else keys ++ [v]

/-- State and exception after a call. -/
abbrev Step (α : Type u) := CyclicG α × Option (Exn α)

/-- Sequencing. -/
def Step.andThen (r : Step α) (f : CyclicG α → Step α) : Step α :=
  match r.2 with
  | some e => (r.1, some e)
  | none => f r.1

/-- `for x in l: body(x)`, left at the first exception. -/
def forEach {β : Type u} (body : CyclicG α → β → Step α) : List β → CyclicG α → Step α
  | [], C => (C, none)
  | x :: l, C => (body C x).andThen (forEach body l)

/-- A call that only reads `_parents`, at the nodes of `l` one after the other, e.g. `parents_of` (409-410). -/
def read (C : CyclicG α) (l : List α) : CyclicG α := { C with keys := l.foldl touch C.keys }

/-- `_add_directed` with `ignore_error=False` (cyclic_graph.py:200-227). `_parents[j]` is touched in line 223 only. -/
def addDirectedRaw (C : CyclicG α) (i j : α) : Step α :=
  ({ base := (C.base.addDirectedRaw i j).1
     keys := if (i, j) ∉ C.base.directed ∧ (C.base.addDirectedRaw i j).2 = none then touch C.keys j else C.keys },
   (C.base.addDirectedRaw i j).2)

/-- `_add_bidirected` with `ignore_error=False` (cyclic_graph.py:229-258); `_parents` is not read. -/
def addBidirectedRaw (C : CyclicG α) (i j : α) : Step α :=
  ({ C with base := (C.base.addBidirectedRaw i j).1 }, (C.base.addBidirectedRaw i j).2)

/-- The keys after `_add_undirected` (cyclic_graph.py:265-270): `_parents[i]` is read, and `_parents[j]` if no exception was
raised before. -/
def undirectedKeys (C : CyclicG α) (i j : α) : List α :=
  if ({i, j} : Finset α) ∈ C.base.undirected then C.keys
  else if (C.base.parents i).Nonempty ∨ (C.base.spouses i).Nonempty then touch C.keys i
  else touch (touch C.keys i) j

/-- `_add_undirected` with `ignore_error=False` and `add_undirected` (cyclic_graph.py:197-198, 260-293). -/
def addUndirected (C : CyclicG α) (i j : α) : Step α :=
  ({ base := (C.base.addUndirected i j).1, keys := C.undirectedKeys i j }, (C.base.addUndirected i j).2)

/-- The constructor (cyclic_graph.py:64-81). -/
def new (o : SetOrder (Fin 3) (α × α)) (nodes : Finset α) (directed bidirected undirected : Finset (α × α)) : Step α :=
  ((forEach (fun C e => C.addDirectedRaw e.1 e.2) (o.ord 0 directed) ⟨AG.empty nodes, []⟩).andThen
    (forEach (fun C e => C.addBidirectedRaw e.1 e.2) (o.ord 1 bidirected))).andThen
    (forEach (fun C e => C.addUndirected e.1 e.2) (o.ord 2 undirected))

/-- `copy` (cyclic_graph.py:93-97). The pairs are stored sorted: `srt.fn`. -/
def copy (C : CyclicG α) (o : SetOrder (Fin 3) (α × α)) (srt : Unpack α) : Step α :=
  CyclicG.new o C.base.nodes C.base.directed (C.base.bidirected.image srt.fn) (C.base.undirected.image srt.fn)

/-- `add_node` (cyclic_graph.py:106-127). -/
def addNode (C : CyclicG α) (v : α) : CyclicG α := { C with base := { C.base with nodes := insert v C.base.nodes } }

/-- `add_directed` (cyclic_graph.py:181-187). -/
def addDirected (o os : SetOrder (Option α) α) (C : CyclicG α) (i j : α) : Option (Step α) :=
  (C.base.addDirected o os i j).map fun r => (⟨r.1, (C.addDirectedRaw i j).1.keys⟩, r.2)

/-- `add_bidirected` (cyclic_graph.py:189-195). -/
def addBidirected (C : CyclicG α) (i j : α) : Step α :=
  ({ C with base := (C.base.addBidirected i j).1 }, (C.base.addBidirected i j).2)

/-- `remove_directed` (cyclic_graph.py:326-337): `_parents[j]` is read if the first two removals have succeeded. -/
def removeDirected (ignoreError : Bool) (C : CyclicG α) (i j : α) : Step α :=
  ({ base := (C.base.removeDirected ignoreError i j).1
     keys := if (i, j) ∈ C.base.directed ∧ j ∈ C.base.children i then touch C.keys j else C.keys },
   (C.base.removeDirected ignoreError i j).2)

/-- `remove_bidirected` (cyclic_graph.py:339-350). -/
def removeBidirected (ignoreError : Bool) (C : CyclicG α) (i j : α) : Step α :=
  ({ C with base := (C.base.removeBidirected ignoreError i j).1 }, (C.base.removeBidirected ignoreError i j).2)

/-- `remove_undirected` (cyclic_graph.py:352-363). -/
def removeUndirected (ignoreError : Bool) (C : CyclicG α) (i j : α) : Step α :=
  ({ C with base := (C.base.removeUndirected ignoreError i j).1 }, (C.base.removeUndirected ignoreError i j).2)

/-- `remove_node` (cyclic_graph.py:295-324): `del self._parents[node]`. The children have keys already, they have parents. -/
def removeNode (ignoreError adjKey : Bool) (o : SetOrder (Fin 4) α) (C : CyclicG α) (v : α) : Step α :=
  ({ base := (C.base.removeNode ignoreError adjKey o v).1
     keys := if v ∈ C.base.nodes then C.keys.erase v else C.keys },
   (C.base.removeNode ignoreError adjKey o v).2)

/-- `vstructures` (cyclic_graph.py:463-470). The last component is `p2`, not `p2_`. -/
def vstructures (o : SetOrder α α) (srt : Unpack α) (C : CyclicG α) : Finset (α × α × α) :=
  C.base.nodes.biUnion fun v =>
    (((DAG.pairs (o.ord v (C.base.parents v ∪ C.base.spouses v))).filter fun p => !C.base.hasAnyEdge p.1 p.2).map
      fun p => ((srt.fn {p.1, p.2}).1, v, p.2)).toFinset

/-- The nodes `j` treated by `discriminating_paths` (cyclic_graph.py:476-480): `colliders()` reads `_parents` at all nodes; the
loop over the dictionary ends at the first key without parents (`break`). -/
def targets (o : SetOrder Unit α) (C : CyclicG α) : List α :=
  ((C.read (o.ord () C.base.nodes)).keys).takeWhile fun j => decide (C.base.parents j ≠ ∅)

/-- `discriminating_paths` (cyclic_graph.py:475-514). -/
def discriminatingPaths (o : DiscOracle α) (C : CyclicG α) : Run α (AG.PathDict α) :=
  (C.targets o.targets).foldlM (C.base.discTarget o C.base.colliders) []

/-- `markov_equivalent(other)` (cyclic_graph.py:559-571). -/
def markovEquivalent (o1 o2 : DiscOracle α) (srt : Unpack α) (C D : CyclicG α) : Run α (ULift.{u} Bool) := do
  let d ← C.discriminatingPaths o1
  let e ← D.discriminatingPaths o2
  return ⟨decide (C.base.skeleton = D.base.skeleton) &&
    decide (C.vstructures o1.vstruct srt = D.vstructures o2.vstruct srt) && AG.sameDiscriminating d e⟩

/-- `{x for x in l if f(x)}` where `f` need not terminate. -/
def selectM {β : Type u} (f : β → Option Bool) : List β → Option (List β)
  | [] => some []
  | x :: l => (f x).bind fun b => (selectM f l).map fun r => if b then x :: r else r

/-- The tests for the change `i -> j => i <-> j` (cyclic_graph.py:625-643). -/
def dirOk (o : SetOrder (α × Finset α) α) (C : CyclicG α) (d : AG.PathDict α) (e : α × α) : Option Bool :=
  if ∀ p ∈ C.base.parents e.1, (p, e.2) ∈ C.base.directed then
    if ∀ s ∈ C.base.spouses e.1, C.base.hasAnyEdge s e.2 then
      if AG.discBlocked d e.1 e.2 then some false
      else (C.base.ancestorsOf o {e} e.2).map fun a => decide (e.1 ∉ a)
    else some false
  else some false

/-- The tests for the change `i <-> j => i -> j` (cyclic_graph.py:653-671). -/
def bidirOk (o : SetOrder (α × Finset α) α) (C : CyclicG α) (d : AG.PathDict α) (e : α × α) : Option Bool :=
  if ∀ p ∈ C.base.parents e.1, (p, e.2) ∈ C.base.directed then
    if ∀ s ∈ C.base.spouses e.1, s ≠ e.2 → C.base.hasAnyEdge s e.2 then
      if AG.discBlocked d e.1 e.2 then some false
      else (C.base.ancestorsOf o ∅ e.2).map fun a => decide (e.1 ∉ a)
    else some false
  else some false

/-- `legitimate_mark_changes` (cyclic_graph.py:599-677). The two loops run in the orders `oe false`, `oe true`. -/
def legitimateMarkChanges (w : DiscOracle α) (o : SetOrder (α × Finset α) α) (oe : SetOrder Bool (α × α))
    (C : CyclicG α) : Run α (Finset (α × α) × Finset (α × α)) :=
  if C.base.undirected.Nonempty then throw .value
  else do
    let d ← C.discriminatingPaths w
    let D ← (liftM (selectM (C.dirOk o d) (oe.ord false C.base.directed)) : Run α (List (α × α)))
    let B ← (liftM (selectM (C.bidirOk o d) (oe.ord true C.base.bothOrientations)) : Run α (List (α × α)))
    return (D.toFinset, B.toFinset)

/-- `from_amat` (cyclic_graph.py:540-556). `combinations(set(range(p)), 2)` gives every pair once. -/
def fromAmat (o : SetOrder (Fin 3) (ℕ × ℕ)) (M : Amat) : Step ℕ :=
  let ps := (Finset.range M.n ×ˢ Finset.range M.n).filter fun e => e.1 < e.2
  CyclicG.new o (Finset.range M.n)
    ((ps.filter fun e => M.entry e.1 e.2 = 2 ∧ M.entry e.2 e.1 = 3) ∪
      (ps.filter fun e => M.entry e.1 e.2 = 3 ∧ M.entry e.2 e.1 = 2).image Prod.swap)
    (ps.filter fun e => M.entry e.1 e.2 = 2 ∧ M.entry e.2 e.1 = 2)
    (ps.filter fun e => M.entry e.1 e.2 = 3 ∧ M.entry e.2 e.1 = 3)

end CyclicG

end Model
