import Verif.Model.Components
import Verif.Model.UGConvert
import Verif.Model.DAGSimple

/-!
# `pdag.py`: cliques, degrees, renaming; conversions from and to `networkx`

`networkx` graphs are pairs of sets, undirected edges being two-element sets. `nx.chordal_graph_cliques` is a parameter.
-/

namespace Model

universe u
variable {α : Type u} [DecidableEq α]

/-- An `nx.Graph` without loops. -/
structure NxGraph (α : Type u) where
  nodes : Finset α
  edges : Finset (Finset α)

/-- An `nx.DiGraph`. -/
structure NxDiGraph (α : Type u) where
  nodes : Finset α
  arcs : Finset (α × α)

/-- `nx.chordal_graph_cliques`, its result collected in a set. -/
abbrev NxCliques (α : Type u) := NxGraph α → Except (Exn α) (Finset (Finset α))

/-- `nx.chordal_graph_treewidth`: the largest number of nodes of a clique, minus one; `-2` if there is no clique. -/
def NxCliques.treewidth (nx : NxCliques α) (g : NxGraph α) : Except (Exn α) (ULift.{u} ℤ) :=
  (nx g).map fun cs => ⟨cs.fold max (-1) (fun c => (c.card : ℤ)) - 1⟩

namespace PDAG

/-- What one call of `chain_components` depends on besides the graph. -/
structure ChainOracle (α : Type u) [DecidableEq α] where
  o : SetOrder (α × Finset α) α
  pk : Pick α
  oa : SetOrder Unit (α × α)
  oe : SetOrder Unit (α × α)
  up : Unpack α

/-- `to_nx` (pdag.py:105-110). -/
def toNx (P : PDAG α) : Except (Exn α) (NxGraph α) :=
  if P.arcs.Nonempty then .error .plain else .ok ⟨P.edges.biUnion id, P.edges⟩

/-- `from_nx` (pdag.py:102-103); `up` tells how the edges are reported. -/
def fromNx (oa oe : SetOrder Unit (α × α)) (up : Unpack α) (g : NxGraph α) : PDAG α :=
  new oa oe g.nodes ∅ (g.edges.image up.fn) ∅

/-- `set.union(*sets)`: without arguments, `TypeError`. -/
def unionAll : List (Finset (Finset α)) → Except (Exn α) (Finset (Finset α))
  | [] => .error .type
  | r :: rs => .ok (rs.foldl (· ∪ ·) r)

/-- `max(sizes)`: without elements, `ValueError`. -/
def maxAll : List (ULift.{u} ℤ) → Except (Exn α) (ULift.{u} ℤ)
  | [] => .error .value
  | r :: rs => .ok ⟨rs.foldl (fun m x => max m x.down) r.down⟩

/-- `max_cliques` (pdag.py:285-291); `n` is the depth of the recursion. -/
def maxCliques (nx : NxCliques α) (w : ℕ → ChainOracle α) (n : ℕ) (P : PDAG α) : Run α (Finset (Finset α)) :=
  if P.arcs.card = 0 then ExceptT.mk (some (P.toNx.bind nx))
  else do
    let Qs ← ExceptT.lift (P.chainComponents (w n).o (w n).pk (w n).oa (w n).oe (w n).up)
    let rs ← Qs.mapM fun Q => maxCliques nx w (n + 1) Q
    ExceptT.mk (some (unionAll rs))
partial_fixpoint

/-- `clique_size` (pdag.py:278-283). -/
def cliqueSize (nx : NxCliques α) (w : ℕ → ChainOracle α) (n : ℕ) (P : PDAG α) : Run α (ULift.{u} ℤ) :=
  if P.arcs.card = 0 then ExceptT.mk (some (P.toNx.bind fun g => (nx.treewidth g).map fun t => ⟨t.down + 1⟩))
  else do
    let Qs ← ExceptT.lift (P.chainComponents (w n).o (w n).pk (w n).oa (w n).oe (w n).up)
    let rs ← Qs.mapM fun Q => cliqueSize nx w (n + 1) Q
    ExceptT.mk (some (maxAll rs))
partial_fixpoint

/-- `indegree_of` (pdag.py:294-295). -/
def indegreeOf (P : PDAG α) (v : α) : ℕ := (P.parents v).card

/-- `outdegree_of` (pdag.py:297-298). -/
def outdegreeOf (P : PDAG α) (v : α) : ℕ := (P.children v).card

/-- `undirected_degree_of` (pdag.py:300-301). -/
def undirectedDegreeOf (P : PDAG α) (v : α) : ℕ := (P.undirected v).card

/-- `total_degree_of` (pdag.py:303-304). -/
def totalDegreeOf (P : PDAG α) (v : α) : ℕ := (P.neighbors v).card

/-- `num_adjacencies` (pdag.py:233-235). -/
def numAdjacencies (P : PDAG α) : ℕ := P.arcs.card + P.edges.card

/-- `rename_nodes` (pdag.py:209-214); `name_map` is a dictionary, `known_arcs` is not passed on. -/
def renameNodes {β : Type u} [DecidableEq β] (on : SetOrder Unit α) (oa : SetOrder Unit (α × α)) (oe : SetOrder Unit (Finset α))
    (up : Unpack α) (oa' oe' : SetOrder Unit (β × β)) (f : α → Option β) (P : PDAG α) : Except (Exn α) (PDAG β) :=
  ((on.ord () P.nodes).mapM (UG.lookup f)).bind fun ns =>
    ((oa.ord () P.arcs).mapM fun a => (UG.lookup f a.1).bind fun i => (UG.lookup f a.2).map fun j => (i, j)).bind fun as =>
      ((oe.ord () P.edges).mapM fun e => (UG.lookup f (up.fn e).1).bind fun i => (UG.lookup f (up.fn e).2).map fun j => (i, j)).map
        fun es => new oa' oe' ns.toFinset as.toFinset es.toFinset ∅

end PDAG

namespace UG

/-- `to_nx` (undirected_graph.py:35-38): adding an edge adds its ends. -/
def toNx (U : UG α) : NxGraph α := ⟨U.nodes ∪ U.edges.biUnion id, U.edges⟩

/-- `from_nx` (undirected_graph.py:111); `up` tells how the edges are reported. -/
def fromNx (oe : SetOrder Unit (Finset α)) (ou : SetOrder Unit α) (up : Unpack α) (g : NxGraph α) : UG α :=
  new oe ou g.nodes (g.edges.image up.fn)

end UG

namespace DAG

/-- `to_nx` (dag.py:1773-1776): adding an arc adds its ends. -/
def toNx (G : DAG α) : NxDiGraph α := ⟨G.nodes ∪ G.arcs.image Prod.fst ∪ G.arcs.image Prod.snd, G.arcs⟩

/-- `from_nx` (dag.py:1752-1754) for an `nx.DiGraph`. -/
def fromNx (o : SetOrder (Option α) α) (oa : SetOrder Bool (α × α)) (g : NxDiGraph α) : Option (Step α) := new o oa g.nodes g.arcs

end DAG

end Model
