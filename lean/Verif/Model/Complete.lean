import Verif.Model.PDAG

/-! # `to_complete_pdag` and its users (pdag.py, dag.py) -/

namespace Model

universe u
variable {α : Type u} [DecidableEq α]

/-- `incident_arcs` (dag.py:492-497). -/
def DAG.incidentArcs (G : DAG α) (v : α) : Finset (α × α) :=
  (G.children v).image (fun c => (v, c)) ∪ (G.parents v).image fun p => (p, v)

/-- Unpacking `i, j = e` of a two-element `frozenset`: one of the two orders. -/
structure Unpack (α : Type u) [DecidableEq α] where
  fn : Finset α → α × α
  spec : ∀ i j, i ≠ j → fn {i, j} = (i, j) ∨ fn {i, j} = (j, i)

namespace PDAG

/-- `edges1 | {(j, i) for i, j in edges1}` (pdag.py:585-586): both orientations of every edge. -/
def bothWays (P : PDAG α) : Finset (α × α) := P.edges.biUnion Finset.offDiag

/-- The second inner loop of `to_complete_pdag` (pdag.py:637-644), `solve_conflict=False`. -/
def orientRound (fl : Flags α) : List (α × α) → PDAG α × Finset (α × α) → Except (Exn α) (PDAG α × Finset (α × α))
  | [], s => .ok s
  | a :: l, (P, und) =>
      match look fl a with
      | .error e => .error e
      | .ok f =>
          if f = .prot then
            if P.hasArc a.2 a.1 then orientRound fl l (P, und)
            else do
              let und ← remove und a
              let und ← remove und (a.2, a.1)
              let P ← P.replaceEdgeWithArc a.1 a.2
              orientRound fl l (P, und)
          else orientRound fl l (P, und)

/-- The `while` loop of `to_complete_pdag` (pdag.py:590-644). -/
def completeLoop (o : OrientOracle α) (n : ℕ) (P : PDAG α) (und : Finset (α × α)) (fl : Flags α) :
    Run α (PDAG α) :=
  if und = ∅ then pure P
  else
    match flagRound true o n P und fl with
    | .error e => throw e
    | .ok fl =>
        if ∀ a ∈ und, fl a = some .unprot then pure P
        else
          match orientRound fl (o.arcs.ord (n, true) und) (P, und) with
          | .ok s => completeLoop o (n + 1) s.1 s.2 fl
          | .error e => throw e
partial_fixpoint

/-- `to_complete_pdag` (pdag.py:571-644): the value of `self` afterwards. -/
def toCompletePdag (o : OrientOracle α) (P : PDAG α) : Run α (PDAG α) :=
  completeLoop o 0 P P.bothWays fun a =>
    if a ∈ P.bothWays then some .undec else if a ∈ P.arcs then some .prot else none

end PDAG

/-- `PDAG.interventional_cpdag` (pdag.py:380-386). -/
def PDAG.interventionalCpdag (oa oe : SetOrder Unit (α × α)) (up : Unpack α) (o : PDAG.OrientOracle α)
    (P : PDAG α) (G : DAG α) (intervened : Finset α) : Run α (PDAG α) :=
  let cut := intervened.biUnion G.incidentArcs
  (PDAG.new oa oe P.nodes (P.arcs ∪ cut)
    ((P.edges \ cut.image fun a => {a.1, a.2}).image up.fn) ∅).toCompletePdag o

/-- `DAG.cpdag_new` (dag.py:2264-2272) with `new=False`. -/
def DAG.cpdagNew (oa oe : SetOrder Unit (α × α)) (o : PDAG.OrientOracle α) (G : DAG α) : Run α (PDAG α) :=
  (PDAG.new oa oe G.nodes G.arcsInVstructures (G.arcs \ G.arcsInVstructures) ∅).toCompletePdag o

end Model
