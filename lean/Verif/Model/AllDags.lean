import Verif.Model.ToDag

/-! # `all_dags` (pdag.py) -/

namespace Model

universe u
variable {α : Type u} [DecidableEq α]

/-- `SmallDag` (pdag.py:22); the field `level` is never read and left out. -/
structure SmallDag (α : Type u) where
  arcs : Finset (α × α)
  rev : Finset (α × α)
  parents : α → Finset α
  children : α → Finset α

namespace SmallDag

/-- `if b: s.add(a) else: s.discard(a)` -/
def mark (s : Finset (α × α)) (a : α × α) (b : Bool) : Finset (α × α) := if b then insert a s else s.erase a

/-- `new_parents_dict` after reversing `i → j` (pdag.py:788-799). -/
def newParents (d : SmallDag α) (i j n : α) : Finset α :=
  if n = i then d.parents n ∪ {j} else if n = j then d.parents n \ {i} else d.parents n

/-- `new_children_dict` after reversing `i → j` (pdag.py:788-799). -/
def newChildren (d : SmallDag α) (i j n : α) : Finset α :=
  if n = i then d.children n \ {j} else if n = j then d.children n ∪ {i} else d.children n

/-- `new_arcs` (pdag.py:784). -/
def newArcs (d : SmallDag α) (i j : α) : Finset (α × α) := d.arcs.filter (fun a => a ≠ (i, j)) ∪ {(j, i)}

/-- `for k in dag.parents_dict[x]: ...` (pdag.py:802-806 and 812-816). -/
def markParents (fixed : Finset (α × α)) (pa : α → Finset α) (x : α) (l : List α) (s : Finset (α × α)) :
    Finset (α × α) :=
  l.foldl (fun s k => mark s (k, x) (decide (pa x \ {k} = pa k) && decide ((k, x) ∉ fixed))) s

/-- `for k in dag.children_dict[x]: ...` (pdag.py:807-811 and 817-821). -/
def markChildren (fixed : Finset (α × α)) (pa : α → Finset α) (x : α) (l : List α) (s : Finset (α × α)) :
    Finset (α × α) :=
  l.foldl (fun s k => mark s (x, k) (decide (pa x = pa k \ {x}) && decide ((x, k) ∉ fixed))) s

/-- The record pushed for the reversal of `i → j` (pdag.py:786-824). -/
def reverse (o : SetOrder (Fin 4) α) (fixed : Finset (α × α)) (d : SmallDag α) (i j : α) : SmallDag α :=
  let pa := d.newParents i j
  let rev := markParents fixed pa j (o.ord 0 (d.parents j)) d.rev
  let rev := markChildren fixed pa j (o.ord 1 (d.children j)) rev
  let rev := markParents fixed pa i (o.ord 2 (d.parents i)) rev
  let rev := markChildren fixed pa i (o.ord 3 (d.children i)) rev
  ⟨d.newArcs i j, rev, pa, d.newChildren i j⟩

/-- The records pushed by `for i, j in dag.reversible_arcs` (pdag.py:783-824); the head of the list is the end of the
Python list `q`. -/
def push (o : SetOrder (Fin 4) α) (fixed : Finset (α × α)) (all : Finset (Finset (α × α))) (d : SmallDag α)
    (l : List (α × α)) (q : List (SmallDag α)) : List (SmallDag α) :=
  l.foldl (fun q a => if d.newArcs a.1 a.2 ∈ all then q else d.reverse o fixed a.1 a.2 :: q) q

end SmallDag

namespace PDAG

/-- Iteration orders of `all_dags`: in round `n`, of `reversible_arcs` and of the four inner loops. -/
structure AllOracle (α : Type u) [DecidableEq α] where
  dag : DagOracle α
  arcs : SetOrder ℕ (α × α)
  nodes : ℕ → SetOrder (Fin 4) α

/-- The `while q` loop of `all_dags` (pdag.py:780-824). -/
def allDagsLoop (o : AllOracle α) (fixed : Finset (α × α)) (n : ℕ) (q : List (SmallDag α))
    (all : Finset (Finset (α × α))) : Run α (Finset (Finset (α × α))) :=
  match q with
  | [] => pure all
  | d :: q =>
      let all := insert d.arcs all
      allDagsLoop o fixed (n + 1) (d.push (o.nodes n) fixed all (o.arcs.ord n d.rev) q) all
partial_fixpoint

/-- `all_dags` (pdag.py:767-826). -/
def allDags (o : AllOracle α) (P : PDAG α) : Run α (Finset (Finset (α × α))) := do
  let G ← P.toDag o.dag
  allDagsLoop o P.arcs 0 [⟨G.arcs, G.reversibleArcs \ P.arcs, G.parents, G.children⟩] ∅

end PDAG

end Model
