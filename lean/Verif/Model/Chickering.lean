import Verif.Model.Between
import Verif.Model.Queries

/-! # `dag.py`: `apply_edge_operation` and `chickering_sequence` -/

namespace Model

universe u
variable {α : Type u} [DecidableEq α]

namespace DAG

/-- The arbitrary orders and the random choices in one call of `apply_edge_operation`: the subgraph of `self`, that of
`imap`, the graph queries, and the final mutation each have their own. -/
structure ChickOracle (α : Type u) where
  top : Fin 3 → SetOrder (Option α) α
  arcs : Fin 2 → SetOrder Bool (α × α)
  reach : Fin 4 → SetOrder (α × Finset α) α
  sets : SetOrder Bool α
  pick : Pick α

/-- `random.choice(list(s))`, or `list(s)[0]`: some element, `IndexError` for the empty set. The number tells the calls
apart. -/
def choice (p : Pick α) (n : ℕ) (s : Finset α) : Run α α :=
  if h : s.Nonempty then pure (p.pick n s h) else throw .index

/-- The choice of a sink of the I-map (dag.py:2443). -/
def pickSink (p : Pick α) (seedSink : Option α) (sinks : Finset α) : Run α α :=
  match seedSink with
  | none => choice p 0 sinks
  | some s => if s ∉ sinks then choice p 0 sinks else pure s

/-- A mutation of a local graph as part of a computation: an exception leaves the function. -/
def ofStep (r : Option (Step α)) : Run α (DAG α) :=
  match r with
  | none => (liftM (none : Option (DAG α)) : Run α (DAG α))
  | some (G, none) => pure G
  | some (_, some e) => throw e

/-- The dictionary returned as second component: `sink`, `move` and, except for move 4, `d`. -/
structure ChickMove (α : Type u) where
  sink : α
  move : ℕ
  d : Option α

/-- `apply_edge_operation(imap, seed_sink)` (dag.py:2434-2481), without the printing. `self.copy()` (dag.py:39-50, 85)
copies every field, so the mutated copy is modelled by mutating the value `G`. -/
def applyEdgeOperation (w : ChickOracle α) (seedSink : Option α) (G H : DAG α) : Run α (DAG α × ChickMove α) := do
  let resolved ← (liftM (resolvedSinks G H) : Run α (Finset α))
  let G1 ← ofStep (inducedSubgraph (w.top 0) (w.arcs 0) G (G.nodes \ resolved))
  let H1 ← ofStep (inducedSubgraph (w.top 1) (w.arcs 1) H (H.nodes \ resolved))
  let sink ← pickSink w.pick seedSink H1.sinks
  if sink ∈ G1.sinks then
    let x ← choice w.pick 1 (H1.parents sink \ G1.parents sink)
    let G' ← ofStep (addArc true (w.top 2) G x sink)
    return (G', ⟨sink, 4, none⟩)
  else
    let desc ← (liftM (descendantsOf G1 (w.reach 0) sink) : Run α (Finset α))
    let up ← (liftM (upstreamMost H1 (w.reach 1) (w.sets.ord false desc)) : Run α (Finset α))
    let d ← choice w.pick 2 up
    let upc ← (liftM (upstreamMost G1 (w.reach 2) (w.sets.ord true (G1.children sink))) : Run α (Finset α))
    let anc ← (liftM (ancestorsOf G1 (w.reach 3) d) : Run α (Finset α))
    let z ← choice w.pick 3 (upc ∩ (anc ∪ {d}))
    if isReversible G1 sink z then
      let G' ← ofStep (reverseArc false false (w.top 2) G sink z)
      return (G', ⟨sink, 6, some d⟩)
    else
      let parZ := (G1.parents z \ G1.parents sink) \ {sink}
      if parZ ≠ ∅ then
        let x ← choice w.pick 4 parZ
        let G' ← ofStep (addArc true (w.top 2) G x sink)
        return (G', ⟨sink, 7, some d⟩)
      else
        let x ← choice w.pick 5 (G1.parents sink \ G1.parents z)
        let G' ← ofStep (addArc true (w.top 2) G x z)
        return (G', ⟨sink, 8, some d⟩)

/-- The `while` loop of `chickering_sequence` (dag.py:2400-2403); `curr_graph != imap` compares nodes and arcs
(dag.py:61-64). `last_sink` is always `None`. -/
def chickeringLoop (w : ℕ → ChickOracle α) (H : DAG α) (n : ℕ) (G : DAG α) (seq : List (DAG α)) (moves : List (ChickMove α)) :
    Run α (List (DAG α) × List (ChickMove α)) :=
  if G.nodes = H.nodes ∧ G.arcs = H.arcs then pure (seq ++ [H], moves)
  else do
    let r ← applyEdgeOperation (w n) none G H
    chickeringLoop w H (n + 1) r.1 (seq ++ [G]) (moves ++ [r.2])
partial_fixpoint

/-- `chickering_sequence(imap)` (dag.py:2394-2406). -/
def chickeringSequence (w : ℕ → ChickOracle α) (G H : DAG α) : Run α (List (DAG α) × List (ChickMove α)) :=
  chickeringLoop w H 0 G [] []

end DAG

end Model
