import Verif.Model.DAG

/-! # `dag.py`: `dsep`, `dsep_from_given`, `is_invariant`, `local_markov_statements` -/

namespace Model

universe u
variable {α : Type u} [DecidableEq α]

/-- Everything nondeterministic in `dsep` / `is_invariant`: the order of `for node in C`, the orders of the parent
sets in `_add_ancestors`, and `schedule.pop()`. -/
structure SepOracle (α : Type u) where
  cs : SetOrder Unit α
  anc : SetOrder (α × Finset α) α
  pop : Pick (α × Bool)

namespace DAG

/-- `shaded_nodes` (dag.py:1902-1904, 2043-2045): starts as `set(C)`, then `_add_ancestors` for each element. -/
def shade (G : DAG α) (o : SepOracle α) (C : Finset α) : Option (Finset α) :=
  (o.cs.ord () C).foldlM (fun acc c => addAncestors G o.anc acc c) C

/-- What is put on the schedule after visiting `(node, _dir)` (dag.py:1926-1937, 2067-2078).
`false` is `'_c'` (coming from a child), `true` is `'_p'` (coming from a parent). -/
def ballSucc (G : DAG α) (C shaded : Finset α) (s : α × Bool) : Finset (α × Bool) :=
  if s.2 = false then
    if s.1 ∉ C then (G.parents s.1).image (·, false) ∪ (G.children s.1).image (·, true) else ∅
  else
    (if s.1 ∈ shaded then (G.parents s.1).image (·, false) else ∅) ∪
    (if s.1 ∉ C then (G.children s.1).image (·, true) else ∅)

/-- `dsep(A, B, C)` with `certify=False` (dag.py:1861-1939). -/
def dsep (G : DAG α) (o : SepOracle α) (A B C : Finset α) : Option Bool :=
  (shade G o C).bind fun shaded =>
  popLoop o.pop (fun s => decide (s.1 ∈ B)) (ballSucc G C shaded) 0 (A.image (·, false)) ∅

/-- `is_invariant(A, I, C)` (dag.py:2012-2080). -/
def isInvariant (G : DAG α) (o : SepOracle α) (A I C : Finset α) : Option Bool :=
  (shade G o C).bind fun shaded =>
  popLoop o.pop
    (fun s => decide ((s.1 ∈ I ∧ s.2 = true ∧ s.1 ∈ shaded) ∨ (s.1 ∈ I ∧ s.2 = false ∧ s.1 ∉ C)))
    (ballSucc G C shaded) 0 (A.image (·, false)) ∅

/-- `descendants` of `dsep_from_given` (dag.py:1972-1978): `C` and its ancestors, one element at a time. -/
def ancestorsPlus (G : DAG α) (o : SepOracle α) (C : Finset α) : Option (Finset α) :=
  (o.cs.ord () C).foldlM (fun acc c => addAncestors G o.anc (insert c acc) c) ∅

/-- One round of the link labelling (dag.py:1989-2002): the links `(v, w)` that follow a link `(u, v)` of `iLinks`.
`u = none` is Python's `None` (assumed not to be a node). The loop only reads `labeled_links`, so the
order does not matter and the result is a set comprehension. -/
def nextLinks (G : DAG α) (C desc : Finset α) (iLinks labeled : Finset (Option α × α)) :
    Finset (Option α × α) :=
  iLinks.biUnion fun l =>
    ((G.neighbors l.2).filter fun w =>
      l.1 ≠ some w ∧ (some l.2, w) ∉ labeled ∧
        if (∃ u, l.1 = some u ∧ l.2 ∈ G.children u) ∧ l.2 ∈ G.children w then l.2 ∈ desc
        else l.2 ∉ C).image fun w => (some l.2, w)

/-- The `while True` loop (dag.py:1988-2008), returning `reachable`. -/
def linkLoop (G : DAG α) (C desc reachable : Finset α) (iLinks labeled : Finset (Option α × α)) :
    Option (Finset α) :=
  if (nextLinks G C desc iLinks labeled).card = 0 then some reachable
  else linkLoop G C desc (reachable ∪ (nextLinks G C desc iLinks labeled).image Prod.snd)
    (nextLinks G C desc iLinks labeled) (labeled ∪ iLinks)
partial_fixpoint

/-- `dsep_from_given(A, C)` (dag.py:1969-2010). -/
def dsepFromGiven (G : DAG α) (o : SepOracle α) (A C : Finset α) : Option (Finset α) := do
  let desc ← ancestorsPlus G o C
  let reachable ← linkLoop G C desc A (A.image (none, ·)) ∅
  return ((G.nodes \ A) \ C) \ reachable

/-- `local_markov_statements` (dag.py:2100-2105), as a list of statements in the iteration order of the nodes. -/
def localMarkovStatements (G : DAG α) (on : SetOrder Unit α) (o : SetOrder (α × Finset α) α) :
    Option (List (α × Finset α × Finset α)) :=
  (on.ord () G.nodes).mapM fun v => do
    let d ← descendantsOf G o v
    return (v, ((G.nodes \ {v}) \ d) \ G.parents v, G.parents v)

end DAG

end Model
