import Verif.Model.Maximal
import Verif.Model.AGQueries
import Verif.Model.IMap

/-! # `is_imap` and `is_minimal_imap` of ancestral graphs -/

namespace Model.AG

universe u
variable {α : Type u} [DecidableEq α]

/-- Iteration orders and pop choices of `is_imap`. -/
structure ImapOracle (α : Type u) [DecidableEq α] where
  copy : SetOrder (Fin 3) (α × α)
  unpack : Unpack α
  max : ℕ → MaxOracle α
  nodes : SetOrder Unit α
  anc : SetOrder (α × Finset α) α
  stmts : SetOrder Unit (α × α × Finset α)
  sep : α × α × Finset α → SepOracle α

/-- `is_imap` (ancestral_graph.py:1147-1158) with `certify=True`; without `certify` only the first component is returned.
The exception is a bare `Exception`. The statements are collected in a set (1119) and visited in any order. -/
def isImap (w : ImapOracle α) (G H : AG α) : Option (Except (Exn α) (Bool × Option (α × α × Finset α))) :=
  (G.isMaximal w.copy w.unpack w.max).bind fun
    | .error e => some (.error e)
    | .ok false => some (.error .plain)
    | .ok true =>
      (G.pairwiseMarkov w.nodes w.anc).bind fun l =>
        (firstM (fun s : α × α × Finset α => (H.msep (w.sep s) {s.1} {s.2.1} s.2.2).map (!·))
          (w.stmts.ord () l.toFinset)).map fun c => .ok (c.isNone, c)

/-- Iteration orders and pop choices of `is_minimal_imap`: `edges` is the random order of the directed and bidirected
edges, `imap` serves the calls of `is_imap` and `is_maximal` for each of the graphs. -/
structure MinImapOracle (α : Type u) [DecidableEq α] where
  self : ImapOracle α
  edges : SetOrder Unit ((α × α) ⊕ Finset α)
  unpack : Unpack α
  copy : α × α → SetOrder (Fin 3) (α × α)
  copyUnpack : α × α → Unpack α
  max : α × α → ℕ → MaxOracle α
  imap : α × α → ImapOracle α

/-- What `is_minimal_imap` returns: a bool or a pair. -/
inductive MinImapResult (α : Type u)
  | bool (b : Bool)
  | tuple (b : Bool) (c : Option (α × α))

/-- `bool(r)` in Python: a pair is never empty. -/
def MinImapResult.truthy : MinImapResult α → Bool
  | .bool b => b
  | .tuple _ _ => true

/-- Removal of the edge from a copy (ancestral_graph.py:1188-1192). -/
def withoutEdge (w : MinImapOracle α) (G : AG α) (e : α × α) : Step α :=
  (G.copy (w.copy e) (w.copyUnpack e)).andThen fun B =>
    (if ({e.1, e.2} : Finset α) ∈ G.bidirected then B.removeBidirected false e.1 e.2 else (B, none)).andThen fun B =>
      if e ∈ G.directed then B.removeDirected false e.1 e.2 else (B, none)

/-- Loop of `is_minimal_imap` (ancestral_graph.py:1186-1197). -/
def minImapLoop (w : MinImapOracle α) (certify : Bool) (G H : AG α) : List (α × α) →
    Option (Except (Exn α) (MinImapResult α))
  | [] => some (.ok (if certify then .tuple true none else .bool true))
  | e :: l =>
    match G.withoutEdge w e with
    | (_, some x) => some (.error x)
    | (B, none) =>
      (B.isMaximal (w.imap e).copy (w.imap e).unpack (w.max e)).bind fun
        | .error x => some (.error x)
        | .ok false => minImapLoop w certify G H l
        | .ok true => (B.isImap (w.imap e) H).bind fun
          | .error x => some (.error x)
          | .ok (false, _) => minImapLoop w certify G H l
          | .ok (true, _) => some (.ok (if certify then .tuple false (some e) else .bool false))

/-- `is_minimal_imap` (ancestral_graph.py:1183-1201). A graph that is not an I-map gives a pair in any case. -/
def isMinimalImap (w : MinImapOracle α) (certify checkImap : Bool) (G H : AG α) :
    Option (Except (Exn α) (MinImapResult α)) :=
  let main := minImapLoop w certify G H
    ((w.edges.ord () (G.directed.disjSum G.bidirected)).map (Sum.elim id w.unpack.fn))
  if checkImap then (G.isImap w.self H).bind fun
    | .error x => some (.error x)
    | .ok (false, _) => some (.ok (.tuple false none))
    | .ok (true, _) => main
  else main

end Model.AG
