import Verif.Model.DSep

/-! # `dag.py`: `is_imap`, `is_minimal_imap` -/

namespace Model

universe u
variable {α : Type u} [DecidableEq α]

/-- `all(f(x) for x in l)`: stops at the first `False`. -/
def allM {β : Type u} (f : β → Option Bool) : List β → Option Bool
  | [] => some true
  | x :: l => (f x).bind fun b => if b then allM f l else some false

/-- `next((x for x in l if f(x)), None)`. -/
def firstM {β : Type u} (f : β → Option Bool) : List β → Option (Option β)
  | [] => some none
  | x :: l => (f x).bind fun b => if b then some (some x) else firstM f l

namespace DAG

/-- Iteration orders and pop choices of `is_imap` and `is_minimal_imap`. -/
structure ImapOracle (α : Type u) where
  nodes : SetOrder Unit α
  desc : SetOrder (α × Finset α) α
  stmts : SetOrder Unit (α × Finset α × Finset α)
  sep : α → SepOracle α
  arcs : SetOrder Unit (α × α)
  sepArc : α × α → SepOracle α

/-- `is_imap` (dag.py:1297). The statements are collected in a set (dag.py:2100-2105) and then visited in any order. -/
def isImap (w : ImapOracle α) (G H : DAG α) : Option Bool :=
  (localMarkovStatements G w.nodes w.desc).bind fun l =>
    allM (fun s => dsep H (w.sep s.1) {s.1} s.2.1 s.2.2) (w.stmts.ord () l.toFinset)

/-- `is_minimal_imap` (dag.py:1333-1343) with `certify=True`; without `certify` only the first component is
returned. -/
def isMinimalImap (w : ImapOracle α) (checkImap : Bool) (G H : DAG α) : Option (Bool × Option (α × α)) :=
  let main := (firstM (fun a : α × α => dsep H (w.sepArc a) {a.1} {a.2} (G.parents a.2 \ {a.1}))
    (w.arcs.ord () G.arcs)).map fun c => (c.isNone, c)
  if checkImap then (isImap w G H).bind fun b => if b then main else some (false, none)
  else main

end DAG

end Model
