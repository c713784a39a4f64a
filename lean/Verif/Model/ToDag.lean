import Verif.Model.Complete

/-! # `remove_node` and `to_dag` (pdag.py) -/

namespace Model

universe u
variable {α : Type u} [DecidableEq α]

namespace PDAG

/-- `for x in l: d[x].remove(v)` for a `defaultdict(set)` `d`. -/
def removeEach (v : α) : List α → (α → Finset α) → Except (Exn α) (α → Finset α)
  | [], d => .ok d
  | x :: l, d => do
      let s ← remove (d x) v
      removeEach v l (Function.update d x s)

/-- `remove_node` (pdag.py:471-489). Simplified: each loop body removes from two dictionaries; here the dictionaries are
treated one after the other, which differs only in the state left behind by a `KeyError`. -/
def removeNode (o : SetOrder (Fin 3) α) (P : PDAG α) (v : α) : Except (Exn α) (PDAG α) := do
  let nodes ← remove P.nodes v
  let parents ← removeEach v (o.ord 0 (P.children v)) P.parents
  let neighbors ← removeEach v (o.ord 0 (P.children v)) P.neighbors
  let children ← removeEach v (o.ord 1 (parents v)) P.children
  let neighbors ← removeEach v (o.ord 1 (parents v)) neighbors
  let undirected ← removeEach v (o.ord 2 (P.undirected v)) P.undirected
  let neighbors ← removeEach v (o.ord 2 (P.undirected v)) neighbors
  return { P with
    nodes := nodes
    arcs := P.arcs.filter fun a => a.1 ≠ v ∧ a.2 ≠ v
    edges := P.edges.filter fun e => v ∉ e
    parents := Function.update parents v ∅
    children := Function.update children v ∅
    neighbors := Function.update neighbors v ∅
    undirected := Function.update undirected v ∅ }

/-- `copy` (pdag.py:204-207). -/
def copy (oa oe : SetOrder Unit (α × α)) (up : Unpack α) (P : PDAG α) : PDAG α :=
  new oa oe P.nodes P.arcs (P.edges.image up.fn) P.known

/-- `is_sink(n) and no_vstructs(n)` (pdag.py:733-738). -/
def canSink (P : PDAG α) (n : α) : Bool :=
  decide ((P.children n).card = 0) && decide (∀ u ∈ P.undirected n, P.neighbors n \ {u} ⊆ P.neighbors u)

/-- Iteration orders of `to_dag`: the nodes in round `n`, and the loops of `remove_node` in round `n`. -/
structure DagOracle (α : Type u) [DecidableEq α] where
  nodes : SetOrder ℕ α
  del : ℕ → SetOrder (Fin 3) α
  copyArcs : SetOrder Unit (α × α)
  copyEdges : SetOrder Unit (α × α)
  unpack : Unpack α
  sort : SetOrder (Option α) α
  arcs : SetOrder Bool (α × α)

/-- The `while` loop of `to_dag` (pdag.py:732-742). -/
def toDagLoop (o : DagOracle α) (n : ℕ) (P : PDAG α) (arcs : Finset (α × α)) : Run α (Finset (α × α)) :=
  if P.edges.card + P.arcs.card = 0 then pure arcs
  else
    match (o.nodes.ord n P.nodes).find? P.canSink with
    | none => pure arcs
    | some sink =>
        match P.removeNode (o.del n) sink with
        | .error e => throw e
        | .ok P' => toDagLoop o (n + 1) P' (arcs ∪ (P.neighbors sink).image fun nbr => (nbr, sink))
partial_fixpoint

/-- `to_dag` (pdag.py:716-744); the constructor `DAG(arcs=arcs)` raises `CycleError` on cyclic arc sets. -/
def toDag (o : DagOracle α) (P : PDAG α) : Run α (DAG α) := do
  let arcs ← toDagLoop o 0 (P.copy o.copyArcs o.copyEdges o.unpack) ∅
  match DAG.new o.sort o.arcs ∅ arcs with
  | none => ExceptT.mk none
  | some (G, none) => return G
  | some (_, some e) => throw e

end PDAG

end Model
