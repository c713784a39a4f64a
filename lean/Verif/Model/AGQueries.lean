import Verif.Model.AG
import Verif.Model.Queries
import Verif.Model.Amat

/-!
# `ancestral_graph.py`: read-only queries, copies and adjacency matrices
-/

namespace Model

universe u
variable {α : Type u} [DecidableEq α]

namespace AG

/-- `has_any_edge(i, j)` (ancestral_graph.py:963-964). -/
def hasAnyEdge (A : AG α) (i j : α) : Bool :=
  decide ((i, j) ∈ A.directed) || decide ((j, i) ∈ A.directed) || decide ({i, j} ∈ A.bidirected) ||
    decide ({i, j} ∈ A.undirected)

/-- `skeleton` (ancestral_graph.py:871). -/
def skeleton (A : AG α) : Finset (Finset α) :=
  A.bidirected ∪ A.undirected ∪ A.directed.image fun e => {e.1, e.2}

/-- `_add_ancestors(ancestors, node, exclude_arcs)` (ancestral_graph.py:245-249). -/
def addAncestors (A : AG α) (o : SetOrder (α × Finset α) α) (ex : Finset (α × α)) (acc : Finset α) (node : α) :
    Option (Finset α) :=
  (o.ord (node, acc) (A.parents node)).foldlM
    (fun acc p => if p ∉ acc ∧ (p, node) ∉ ex then addAncestors A o ex (insert p acc) p else some acc) acc
partial_fixpoint

/-- `_add_descendants(descendants, node, exclude_arcs)` (ancestral_graph.py:251-255); the pair that is looked up in
`exclude_arcs` is `(child, node)`. -/
def addDescendants (A : AG α) (o : SetOrder (α × Finset α) α) (ex : Finset (α × α)) (acc : Finset α) (node : α) :
    Option (Finset α) :=
  (o.ord (node, acc) (A.children node)).foldlM
    (fun acc c => if c ∉ acc ∧ (c, node) ∉ ex then addDescendants A o ex (insert c acc) c else some acc) acc
partial_fixpoint

/-- `ancestors_of(node, exclude_arcs)` for a single node (ancestral_graph.py:281-286). -/
def ancestorsOf (A : AG α) (o : SetOrder (α × Finset α) α) (ex : Finset (α × α)) (v : α) : Option (Finset α) :=
  addAncestors A o ex ∅ v

/-- `descendants_of(node, exclude_arcs)` for a single node (ancestral_graph.py:370-375). -/
def descendantsOf (A : AG α) (o : SetOrder (α × Finset α) α) (ex : Finset (α × α)) (v : α) : Option (Finset α) :=
  addDescendants A o ex ∅ v

/-- `ancestors_of(nodes, exclude_arcs)` for a set of nodes (ancestral_graph.py:285): `set.union(*())` is a `TypeError`, and
the excluded arcs are not passed on. -/
def ancestorsOfSet (A : AG α) (o : SetOrder (α × Finset α) α) (on : SetOrder Unit α) (_ex : Finset (α × α)) (S : Finset α) :
    Run α (Finset α) :=
  if S = ∅ then throw .type
  else do
    let l ← (on.ord () S).mapM fun v => (liftM (ancestorsOf A o ∅ v) : Run α (Finset α))
    return l.foldl (· ∪ ·) ∅

/-- `descendants_of(nodes, exclude_arcs)` for a set of nodes (ancestral_graph.py:374), likewise. -/
def descendantsOfSet (A : AG α) (o : SetOrder (α × Finset α) α) (on : SetOrder Unit α) (_ex : Finset (α × α))
    (S : Finset α) : Run α (Finset α) :=
  if S = ∅ then throw .type
  else do
    let l ← (on.ord () S).mapM fun v => (liftM (descendantsOf A o ∅ v) : Run α (Finset α))
    return l.foldl (· ∪ ·) ∅

/-- One pass of the loop in `ancestor_dict` (ancestral_graph.py:309-311). -/
def ancestorStep (A : AG α) (o : SetOrder α α) (d : α → Finset α) (node : α) : α → Finset α :=
  (o.ord node (A.children node)).foldl
    (fun d child => Function.update d child (d child ∪ d node))
    (Function.update d node (insert node (d node)))

/-- `ancestor_dict` (ancestral_graph.py:305-316). -/
def ancestorDict (A : AG α) (ot os : SetOrder (Option α) α) (o : SetOrder α α) : Run α (α → Finset α) := do
  let top ← topologicalSort A ot os
  let d := top.foldl (ancestorStep A o) fun _ => ∅
  return fun v => if v ∈ A.nodes then (d v).erase v else d v

/-- Loop of `descendant_dict` (ancestral_graph.py:339-341). -/
def descendantStep (A : AG α) (o : SetOrder α α) (d : α → Finset α) (node : α) : α → Finset α :=
  (o.ord node (A.parents node)).foldl
    (fun d p => Function.update d p (d p ∪ d node))
    (Function.update d node (insert node (d node)))

/-- `descendant_dict` (ancestral_graph.py:335-346). -/
def descendantDict (A : AG α) (ot os : SetOrder (Option α) α) (o : SetOrder α α) : Run α (α → Finset α) := do
  let top ← topologicalSort A ot os
  let d := top.reverse.foldl (descendantStep A o) fun _ => ∅
  return fun v => if v ∈ A.nodes then (d v).erase v else d v

/-- `pairwise_markov_statements` (ancestral_graph.py:1119-1123), as the list of the tuples added. `-` binds tighter than
`|`. -/
def pairwiseMarkov (A : AG α) (on : SetOrder Unit α) (o : SetOrder (α × Finset α) α) :
    Option (List (α × α × Finset α)) :=
  ((DAG.pairs (on.ord () A.nodes)).filter fun p => !A.hasAnyEdge p.1 p.2).mapM fun p => do
    let ai ← ancestorsOf A o ∅ p.1
    let aj ← ancestorsOf A o ∅ p.2
    return (p.1, p.2, ai ∪ aj \ {p.1, p.2})

/-- `copy` (ancestral_graph.py:116): the constructor unpacks the frozensets. -/
def copy (A : AG α) (o : SetOrder (Fin 3) (α × α)) (up : Unpack α) : Step α :=
  AG.new o A.nodes A.directed (A.bidirected.image up.fn) (A.undirected.image up.fn)

/-- `induced_subgraph(nodes)` (ancestral_graph.py:139-143). -/
def inducedSubgraph (A : AG α) (o : SetOrder (Fin 3) (α × α)) (up : Unpack α) (nodes : Finset α) : Step α :=
  AG.new o nodes (A.directed.filter fun e => e.1 ∈ nodes ∧ e.2 ∈ nodes)
    ((A.bidirected.image up.fn).filter fun e => e.1 ∈ nodes ∧ e.2 ∈ nodes)
    ((A.undirected.image up.fn).filter fun e => e.1 ∈ nodes ∧ e.2 ∈ nodes)

/-- `__eq__` of two ancestral graphs (ancestral_graph.py:101-105). -/
def beq (A B : AG α) : Bool :=
  decide (A.nodes = B.nodes) && decide (A.directed = B.directed) && decide (A.bidirected = B.bidirected) &&
    decide (A.undirected = B.undirected)

/-! ## Adjacency matrices -/

/-- `for i, j in pairs: amat[i, j] = x; amat[j, i] = y` -/
def setPairs (x y : ℤ) : List (ℕ × ℕ) → Amat → Except (Exn ℕ) Amat
  | [], M => .ok M
  | p :: ps, M => (M.set p.1 p.2 x).bind fun M => (M.set p.2 p.1 y).bind (setPairs x y ps)

/-- `to_amat` (ancestral_graph.py:1830-1840). The labels themselves are the indices; negative labels are not modelled. -/
def toAmat (o : SetOrder Unit (ℕ × ℕ)) (ob : SetOrder Bool (Finset ℕ)) (up : Unpack ℕ) (A : AG ℕ) :
    Except (Exn ℕ) Amat :=
  (setPairs 2 3 (o.ord () A.directed) (.zeros A.nodes.card)).bind fun M =>
  (setPairs 2 2 ((ob.ord false A.bidirected).map up.fn) M).bind
  (setPairs 3 3 ((ob.ord true A.undirected).map up.fn))

/-- `from_amat` (ancestral_graph.py:1857-1872). `combinations(set(range(p)), 2)` gives every pair once; in which of the two
orders does not matter for directed edges, and CPython's order of small integers makes the first the smaller one. -/
def fromAmat (o : SetOrder (Fin 3) (ℕ × ℕ)) (M : Amat) : Step ℕ :=
  let ps := (Finset.range M.n ×ˢ Finset.range M.n).filter fun e => e.1 < e.2
  AG.new o (Finset.range M.n)
    ((ps.filter fun e => M.entry e.1 e.2 = 2 ∧ M.entry e.2 e.1 = 3) ∪
      (ps.filter fun e => M.entry e.1 e.2 = 3 ∧ M.entry e.2 e.1 = 2).image Prod.swap)
    (ps.filter fun e => M.entry e.1 e.2 = 2 ∧ M.entry e.2 e.1 = 2)
    (ps.filter fun e => M.entry e.1 e.2 = 3 ∧ M.entry e.2 e.1 = 3)

end AG

end Model
