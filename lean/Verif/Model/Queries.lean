import Verif.Model.DAG

/-!
# `dag.py`: further read-only queries
-/

namespace Model

universe u
variable {α : Type u} [DecidableEq α]

namespace DAG

/-- One pass of the loop in `ancestor_dict` (dag.py:419-422): `dict[node].add(node)`, then
`dict[child].update(dict[node])` for the children in the order given. -/
def ancestorStep (G : DAG α) (o : SetOrder α α) (d : α → Finset α) (node : α) : α → Finset α :=
  (o.ord node (G.children node)).foldl
    (fun d child => Function.update d child (d child ∪ d node))
    (Function.update d node (insert node (d node)))

/-- `ancestor_dict` (dag.py:416-427). The final loop removes each node of the graph from its own set. -/
def ancestorDict (G : DAG α) (ot : SetOrder (Option α) α) (o : SetOrder α α) : Run α (α → Finset α) := do
  let top ← topologicalSort G ot
  let d := top.foldl (ancestorStep G o) fun _ => ∅
  return fun v => if v ∈ G.nodes then (d v).erase v else d v

/-- Loop of `descendant_dict` (dag.py:449-452). -/
def descendantStep (G : DAG α) (o : SetOrder α α) (d : α → Finset α) (node : α) : α → Finset α :=
  (o.ord node (G.parents node)).foldl
    (fun d p => Function.update d p (d p ∪ d node))
    (Function.update d node (insert node (d node)))

/-- `descendant_dict` (dag.py:446-457). -/
def descendantDict (G : DAG α) (ot : SetOrder (Option α) α) (o : SetOrder α α) : Run α (α → Finset α) := do
  let top ← topologicalSort G ot
  let d := top.reverse.foldl (descendantStep G o) fun _ => ∅
  return fun v => if v ∈ G.nodes then (d v).erase v else d v

/-- `nodes_between` (dag.py:460-461). -/
def nodesBetween (G : DAG α) (o : SetOrder (α × Finset α) α) (s t : α) : Option (Finset α) :=
  (ancestorsOf G o t).bind fun a => (descendantsOf G o s).map fun d =>
    let between := a ∩ d
    if between.card ≠ 0 then between ∪ {s, t} else between

/-- `itr.combinations(l, 2)`: the pairs of a list in list order. -/
def pairs {β : Type u} : List β → List (β × β)
  | [] => []
  | x :: l => l.map (fun y => (x, y)) ++ pairs l

/-- `edges_between` (dag.py:464-465); `on` is the iteration order of the set of nodes. -/
def edgesBetween (G : DAG α) (o : SetOrder (α × Finset α) α) (on : SetOrder Unit α) (s t : α) :
    Option (Finset (α × α)) :=
  (nodesBetween G o s t).map fun nb => ((pairs (on.ord () nb)).filter (fun a => decide (a ∈ G.arcs))).toFinset

/-- `sources` (dag.py:1004). -/
def sources (G : DAG α) : Finset α := G.nodes.filter fun v => (G.parents v).card = 0

/-- `sinks` (dag.py:1022). -/
def sinks (G : DAG α) : Finset α := G.nodes.filter fun v => (G.children v).card = 0

/-- `upstream_most` (dag.py:1153): `{node for node in s if not self.ancestors_of(node) & s}`; the elements of
`s` are visited in the order `l`. -/
def upstreamMost (G : DAG α) (o : SetOrder (α × Finset α) α) (l : List α) : Option (Finset α) :=
  l.foldlM (fun acc v => (ancestorsOf G o v).map fun a => if a ∩ l.toFinset = ∅ then insert v acc else acc) ∅

/-- `markov_blanket_of` (dag.py:299-301); the order of the union does not matter. -/
def markovBlanketOf (G : DAG α) (v : α) : Finset α :=
  let parentsOfChildren := if G.children v = ∅ then ∅ else (G.children v).biUnion G.parents
  G.parents v ∪ G.children v ∪ (parentsOfChildren \ {v})

/-- `reversible_arcs` (dag.py:1041-1045). -/
def reversibleArcs (G : DAG α) : Finset (α × α) :=
  G.arcs.filter fun a => G.parents a.1 = G.parents a.2 \ {a.1}

/-- `is_reversible` (dag.py:1071). -/
def isReversible (G : DAG α) (i j : α) : Bool := decide (G.parents i = G.parents j \ {i})

/-- `arcs_in_vstructures` (dag.py:1091). -/
def arcsInVstructures (G : DAG α) : Finset (α × α) :=
  G.arcs.filter fun a => (G.parents a.2 \ G.neighbors a.1) \ {a.1} ≠ ∅

/-- `vstructures` (dag.py:1112-1117); `o v` orders the parents of `v`. -/
def vstructures (G : DAG α) (o : SetOrder α α) : Finset (α × α × α) :=
  G.nodes.biUnion fun v =>
    (((pairs (o.ord v (G.parents v))).filter
      (fun p => decide (p.1 ∉ G.parents p.2 ∧ p.2 ∉ G.parents p.1))).map fun p => (p.1, v, p.2)).toFinset

/-- `node2ix[x]` (dag.py:664): the dictionary built by `enumerate` keeps the last position; `KeyError` (`none`)
if `x` does not occur. -/
def node2ix (order : List α) (x : α) : Option ℕ :=
  if x ∈ order then some (order.length - 1 - order.reverse.idxOf x) else none

/-- `is_topological` (dag.py:664-665); `none` is the `KeyError`. `all` stops at the first `False`. -/
def isTopological (G : DAG α) (oa : SetOrder Unit (α × α)) (order : List α) : Option Bool :=
  go (oa.ord () G.arcs)
where
  go : List (α × α) → Option Bool
  | [] => some true
  | (i, j) :: l =>
      (node2ix order i).bind fun a => (node2ix order j).bind fun b =>
        if a < b then go l else some false

/-- `permutation_score` (dag.py:688-689); `none` is the `KeyError`. -/
def permutationScore (G : DAG α) (oa : SetOrder Unit (α × α)) (order : List α) : Option ℕ :=
  (oa.ord () G.arcs).foldlM (fun n a => (node2ix order a.1).bind fun x => (node2ix order a.2).map fun y =>
    if x > y then n + 1 else n) 0

/-- `skeleton` (dag.py:169): the set of unordered pairs. -/
def skeleton (G : DAG α) : Finset (Finset α) := G.arcs.image fun a => {a.1, a.2}

/-- `shd` against a `DAG` (dag.py:1180-1186). -/
def shd (G H : DAG α) : ℕ :=
  let selfRev := G.arcs.image Prod.swap
  let otherRev := H.arcs.image Prod.swap
  ((H.arcs \ G.arcs) \ selfRev).card + ((G.arcs \ H.arcs) \ otherRev).card + (G.arcs ∩ otherRev).card

/-- `shd_skeleton` (dag.py:1216). -/
def shdSkeleton (G H : DAG α) : ℕ := (symmDiff G.skeleton H.skeleton).card

/-- `chickering_distance` (dag.py:1368-1369). -/
def chickeringDistance (G H : DAG α) : ℕ :=
  (G.arcs ∩ H.arcs.image Prod.swap).card + 2 * shdSkeleton G H

/-- `get_standard_imset` (dag.py:1219-1230) before the keys are turned into tuples; a missing key is 0. -/
def standardImset (G : DAG α) (ignored : Finset α) : Finset α → ℤ :=
  fun s => ∑ v ∈ G.nodes \ ignored,
    ((if s = insert v (G.parents v) then 1 else 0) - (if s = G.parents v then 1 else 0))

/-- `induced_subgraph` (dag.py:131). -/
def inducedSubgraph (o : SetOrder (Option α) α) (oa : SetOrder Bool (α × α)) (G : DAG α) (nodes : Finset α) :
    Option (Step α) :=
  new o oa nodes (G.arcs.filter fun a => a.1 ∈ nodes ∧ a.2 ∈ nodes)

/-- `ancestral_subgraph` of a set (dag.py:134-136); `l` is the iteration order of the set. -/
def ancestralSubgraph (o : SetOrder (Option α) α) (oa : SetOrder Bool (α × α)) (os : SetOrder (α × Finset α) α)
    (G : DAG α) (l : List α) : Option (Step α) :=
  (ancestorsOfSet G os l).bind fun a => inducedSubgraph o oa G (a ∪ l.toFinset)

/-- `rename_nodes` (dag.py:104-107). The dictionary is a total function here; a missing key (`KeyError`) is not
modelled. -/
def renameNodes {β : Type u} [DecidableEq β] (o : SetOrder (Option β) β) (oa : SetOrder Bool (β × β))
    (G : DAG α) (f : α → β) : Option (Step β) :=
  new o oa (G.nodes.image f) (G.arcs.image fun a => (f a.1, f a.2))

end DAG

end Model
