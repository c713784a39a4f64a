import Verif.Model.AGImap

/-! # `ancestral_graph.py`: the other tests for minimal I-maps -/

namespace Model.AG

universe u
variable {α : Type u} [DecidableEq α]

/-- Iteration orders and pop choices of `is_minimal_imap2`. -/
structure MinImap2Oracle (α : Type u) [DecidableEq α] extends MinImapOracle α where
  anc : SetOrder (α × Finset α) α
  sep : α × α → SepOracle α

/-- Removal of the edge from a copy (ancestral_graph.py:1210-1214). -/
def withoutEdge2 (w : MinImapOracle α) (G : AG α) (e : α × α) : Step α :=
  (G.copy (w.copy e) (w.copyUnpack e)).andThen fun B =>
    if ({e.1, e.2} : Finset α) ∈ G.bidirected then B.removeBidirected false e.1 e.2 else B.removeDirected false e.1 e.2

/-- The test of an edge (ancestral_graph.py:1209); `-` binds tighter than `|`. -/
def edgeTest (w : MinImap2Oracle α) (G H : AG α) (e : α × α) : Option Bool :=
  (G.ancestorsOf w.anc ∅ e.1).bind fun ai => (G.ancestorsOf w.anc ∅ e.2).bind fun aj =>
    H.msep (w.sep e) {e.1} {e.2} (ai ∪ aj \ {e.1, e.2})

/-- Loop of `is_minimal_imap2` (ancestral_graph.py:1207-1226). -/
def minImapLoop2 (w : MinImap2Oracle α) (certify validate : Bool) (G H : AG α) : List (α × α) →
    Option (Except (Exn α) (MinImapResult α))
  | [] => some (.ok (if certify then .tuple true none else .bool true))
  | e :: l => (edgeTest w G H e).bind fun
    | false => minImapLoop2 w certify validate G H l
    | true =>
      match G.withoutEdge2 w.toMinImapOracle e with
      | (_, some x) => some (.error x)
      | (B, none) =>
        (B.isMaximal (w.imap e).copy (w.imap e).unpack (w.max e)).bind fun
          | .error x => some (.error x)
          | .ok false => minImapLoop2 w certify validate G H l
          | .ok true =>
            let found := some (.ok (if certify then .tuple false (some e) else .bool false))
            if validate then (B.isImap (w.imap e) H).bind fun
              | .error x => some (.error x)
              | .ok (false, _) => some (.error .plain)
              | .ok (true, _) => found
            else found

/-- `is_minimal_imap2` (ancestral_graph.py:1203-1226). -/
def isMinimalImap2 (w : MinImap2Oracle α) (certify checkImap validate : Bool) (G H : AG α) :
    Option (Except (Exn α) (MinImapResult α)) :=
  let main := minImapLoop2 w certify validate G H
    ((w.edges.ord () (G.directed.disjSum G.bidirected)).map (Sum.elim id w.unpack.fn))
  if checkImap then (G.isImap w.self H).bind fun
    | .error x => some (.error x)
    | .ok (false, _) => some (.ok (.tuple false none))
    | .ok (true, _) => main
  else main

/-- `is_minimal_imap3` (ancestral_graph.py:1228-1262). `self.markov_blanket` (1239) does not exist; asking for it is an
`AttributeError`, so only the first edge is looked at. -/
def isMinimalImap3 (w : MinImapOracle α) (certify checkImap : Bool) (G H : AG α) : Option (Except (Exn α) (MinImapResult α)) :=
  let main := match (w.edges.ord () (G.directed.disjSum G.bidirected)).map (Sum.elim id w.unpack.fn) with
    | [] => some (.ok (if certify then .tuple true none else .bool true))
    | e :: _ => match G.withoutEdge2 w e with
      | (_, some x) => some (.error x)
      | (_, none) => some (.error .plain)
  if checkImap then (G.isImap w.self H).bind fun
    | .error x => some (.error x)
    | .ok (false, _) => some (.ok (.tuple false none))
    | .ok (true, _) => main
  else main

/-- `is_minimal_imap4` (ancestral_graph.py:1264-1320). A graph that is not an I-map is an `Exception` (1267); the loop with
`extra_validate` (1272-1276) and the main loop (1283-1286) remove an edge from a copy and ask for `markov_blanket` as above. What is
computed in between has no effect and is left out. -/
def isMinimalImap4 (w : MinImapOracle α) (certify checkImap : Bool) (G H : AG α) : Option (Except (Exn α) (MinImapResult α)) :=
  let main := match (w.edges.ord () (G.directed.disjSum G.bidirected)).map (Sum.elim id w.unpack.fn) with
    | [] => some (.ok (if certify then .tuple true none else .bool true))
    | e :: _ => match (G.copy (w.copy e) (w.copyUnpack e)).andThen fun B => B.removeEdge false e.1 e.2 with
      | (_, some x) => some (.error x)
      | (_, none) => some (.error .plain)
  if checkImap then (G.isImap w.self H).bind fun
    | .error x => some (.error x)
    | .ok (false, _) => some (.error .plain)
    | .ok (true, _) => main
  else main

/-- `resolved_quasisinks(other)` (ancestral_graph.py:1344-1357): a node without children in both graphs leads to the call of
`markov_blanket`, an `AttributeError`. Without such a node the first round finds nothing. -/
def resolvedQuasisinks (G H : AG α) : Except (Exn α) (Finset α) :=
  if ∃ v ∈ G.nodes, G.children v = ∅ ∧ H.children v = ∅ then .error .plain else .ok ∅

end Model.AG
