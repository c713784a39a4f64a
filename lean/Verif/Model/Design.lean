import Mathlib.Combinatorics.SimpleGraph.Bipartite
import Mathlib.Combinatorics.SimpleGraph.Connectivity.Connected
import Verif.Model.CoreUtils
import Verif.Model.Covered
import Verif.Spec.Design

/-!
# `dag.py`: intervention design

`optimal_fully_orienting_single_node_interventions` is modelled for `new=False` (the default). The networkx functions
used by `compute_minimum_vertex_cover` are represented by their documented results (`CoverOracle`, `nxComponents`,
`IsBipartite`).
-/

namespace Model

universe u
variable {α : Type u} [DecidableEq α]

/-- `dominated_nodes` (pdag.py:265-276). The argument of `max` is not empty on the branch where it is evaluated. -/
def PDAG.dominatedNodes (P : PDAG α) : Finset α :=
  P.nodes.filter fun v =>
    (P.undirected v).card = 0 ∨
      ((P.undirected v).card = 1 ∧ 1 < (P.undirected v).sup fun w => (P.undirected w).card)

namespace DAG

/-- The order of `self._nodes - cpdag.dominated_nodes` in round `n`, and the orders used by the calls of `cpdag` and, in
round `n` for the node `v`, of `interventional_cpdag`. -/
structure DesignOracle (α : Type u) where
  nodes : SetOrder ℕ α
  arcs : SetOrder Unit (α × α)
  cpdag : PDAG.OrientOracle α
  icpdag : ℕ → α → PDAG.OrientOracle α

/-- `self.cpdag() if cpdag is None else cpdag` (dag.py:2707, 2765, 2806, 2858). -/
def startCpdag (d : DesignOracle α) (G : DAG α) (cpdag : Option (PDAG α)) : Run α (PDAG α) :=
  match cpdag with
  | none => G.cpdag d.arcs d.cpdag
  | some c => pure c

/-- A `cpdag` argument for the graph `G` and the targets it stands for: `None`, the result of `G.cpdag()`, or a result
of `G.interventional_cpdag(iv, cpdag)` for such an argument. -/
inductive CpdagArg (G : DAG α) : List (Finset α) → Option (PDAG α) → Prop
  | none : CpdagArg G [] none
  | cpdag {oa : SetOrder Unit (α × α)} {o : PDAG.OrientOracle α} {c : PDAG α} :
      (G.cpdag oa o).run = some (.ok c) → CpdagArg G [] (some c)
  | icpdag {iv iv' : List (Finset α)} {oa : SetOrder Unit (α × α)} {o : PDAG.OrientOracle α} {c c' : PDAG α} :
      CpdagArg G iv (some c) → (G.interventionalCpdag oa o iv' c).run = some (.ok c') →
      CpdagArg G (iv ++ iv') (some c')

/-- The dictionary `{node: self.interventional_cpdag([{node}], cpdag=cpdag) for node in self._nodes -
cpdag.dominated_nodes}`, as a list of items (dag.py:2766-2769, 2811-2814). -/
def nodes2icpdags (d : DesignOracle α) (n : ℕ) (G : DAG α) (c : PDAG α) : Run α (List (α × PDAG α)) :=
  (d.nodes.ord n (G.nodes \ c.dominatedNodes)).mapM fun v => do
    let P ← G.interventionalCpdag d.arcs (d.icpdag n v) [{v}] c
    return (v, P)

/-- `optimal_fully_orienting_single_node_interventions` with `new=False` (dag.py:2764-2773). `none` is the `None` that
Python returns when the loop ends. -/
def optimalInterventions (d : DesignOracle α) (G : DAG α) (cpdag : Option (PDAG α)) : Run α (Option (Finset α)) := do
  let c ← startCpdag d G cpdag
  let items ← nodes2icpdags d 0 G c
  let oriented := fun (ss : Finset α) => (items.filter fun x => x.1 ∈ ss).foldl (fun s x => s ∪ x.2.arcs) ∅
  return (powerset (d.nodes.ord 0 (G.nodes \ c.dominatedNodes)) 1 none).find? fun ss =>
    (oriented ss).card = c.edges.card + c.arcs.card

/-- `max(nodes2num_oriented.items(), key=op.itemgetter(1))` (dag.py:2820): the first item with the largest value. -/
def maxItem : List (α × PDAG α) → Option (α × PDAG α)
  | [] => none
  | x :: l => some (l.foldl (fun b x => if b.2.arcs.card < x.2.arcs.card then x else b) x)

/-- `greedy_optimal_single_node_intervention` (dag.py:2805-2831) for a given `cpdag`. `num` may be any integer. -/
def greedySingle (d : DesignOracle α) (n : ℕ) (G : DAG α) (c : PDAG α) (num : ℤ) :
    Run α (List (Option α) × List (PDAG α)) :=
  if c.edges.card = 0 then pure (List.replicate num.toNat none, List.replicate num.toNat c)
  else do
    let items ← nodes2icpdags d n G c
    match maxItem items with
    | none => throw .value
    | some x =>
        if num = 1 then return ([some x.1], [x.2])
        else
          let r ← greedySingle d (n + 1) G x.2 (num - 1)
          return (some x.1 :: r.1, x.2 :: r.2)
partial_fixpoint

/-- `greedy_optimal_single_node_intervention` (dag.py:2778-2831). -/
def greedyInterventions (d : DesignOracle α) (G : DAG α) (cpdag : Option (PDAG α)) (num : ℤ) :
    Run α (List (Option α) × List (PDAG α)) := do
  let c ← startCpdag d G cpdag
  greedySingle d 0 G c num

/-- The `while` loop of `greedy_optimal_fully_orienting_interventions` (dag.py:2862-2868). -/
def greedyLoop (d : DesignOracle α) (n : ℕ) (G : DAG α) (c : PDAG α) (ivs : List (Option α)) (gs : List (PDAG α)) :
    Run α (List (Option α) × List (PDAG α)) :=
  if c.edges.card ≠ 0 then do
    let r ← greedySingle d n G c 1
    match r.1.head?, r.2.head? with
    | some v, some P => greedyLoop d (n + 1) G P (ivs ++ [v]) (gs ++ [P])
    | _, _ => throw .index
  else pure (ivs, gs)
partial_fixpoint

/-- `greedy_optimal_fully_orienting_interventions` (dag.py:2833-2869). -/
def greedyFully (d : DesignOracle α) (G : DAG α) (cpdag : Option (PDAG α)) :
    Run α (List (Option α) × List (PDAG α)) := do
  let c ← startCpdag d G cpdag
  greedyLoop d 0 G c [] []

/-- `to_vertex_cover(cc, eppstein_matching(cc))`: networkx documents the result to be a minimum vertex cover. -/
structure CoverOracle (α : Type u) where
  cover : Finset (α × α) → Finset α
  spec : ∀ H, (SimpleGraph.fromRel fun i j => (i, j) ∈ H).IsBipartite → Spec.MinVertexCover H (cover H)

/-- The nodes of the graph built by `add_edges_from`. -/
def nxNodes (H : Finset (α × α)) : Finset α := H.image Prod.fst ∪ H.image Prod.snd

open Classical in
/-- `nx.connected_components`: the node sets of the connected components. -/
noncomputable def nxComponents (H : Finset (α × α)) : Finset (Finset α) :=
  (nxNodes H).image fun v => (nxNodes H).filter fun w => (SimpleGraph.fromRel fun i j => (i, j) ∈ H).Reachable v w

open Classical in
/-- `compute_minimum_vertex_cover` (core_utils.py:124-133). -/
noncomputable def computeMinimumVertexCover (k : CoverOracle α) (o : SetOrder Unit (Finset α)) (H : Finset (α × α)) :
    Except (Exn α) (Finset α) :=
  if (SimpleGraph.fromRel fun i j => (i, j) ∈ H).IsBipartite then
    (o.ord () (nxComponents H)).foldlM (fun mvc V =>
      let cc := H.filter fun e => e.1 ∈ V ∧ e.2 ∈ V
      if (SimpleGraph.fromRel fun i j => (i, j) ∈ cc).IsBipartite then .ok (mvc ∪ k.cover cc)
      else .error .assertion) ∅
  else .error .assertion

/-- `atomic_verification` (dag.py:2707-2722). Line 2713 computes a difference and discards it. -/
noncomputable def atomicVerification (d : DesignOracle α) (k : CoverOracle α) (o : SetOrder Unit (Finset α)) (G : DAG α)
    (cpdag : Option (PDAG α)) : Run α (Finset α) := do
  let _c ← startCpdag d G cpdag
  ExceptT.mk (some (computeMinimumVertexCover k o G.coveredEdges))

end DAG

end Model
