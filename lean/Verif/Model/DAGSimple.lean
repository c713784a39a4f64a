import Verif.Model.Amat

/-!
# Degrees, `triples` and data frames (dag.py)

A `DataFrame` of integers is the list of its row labels, the list of its column labels and its entries. The `ZeroDivisionError` of
`sparsity` is `Exn.plain`.
-/

namespace Model

universe u
variable {α : Type u} [DecidableEq α]

/-- `pandas.DataFrame` -/
structure Frame (α : Type u) where
  index : List α
  columns : List α
  values : ℕ → ℕ → ℤ

namespace DAG

/-- `indegree_of` (dag.py:615), and the values of `in_degrees` (dag.py:173). -/
def indegreeOf (G : DAG α) (v : α) : ℕ := (G.parents v).card

/-- `outdegree_of` (dag.py:586), and the values of `out_degrees` (dag.py:177). -/
def outdegreeOf (G : DAG α) (v : α) : ℕ := (G.children v).card

/-- `max` of the values for the elements of a list; `ValueError` for no values. -/
def maxOf (f : α → ℕ) : List α → Except (Exn α) ℕ
  | [] => .error .value
  | x :: l => .ok (l.foldl (fun m y => max m (f y)) (f x))

/-- `max_in_degree` (dag.py:181). -/
def maxInDegree (o : SetOrder Unit α) (G : DAG α) : Except (Exn α) ℕ := maxOf G.indegreeOf (o.ord () G.nodes)

/-- `max_out_degree` (dag.py:185). -/
def maxOutDegree (o : SetOrder Unit α) (G : DAG α) : Except (Exn α) ℕ := maxOf G.outdegreeOf (o.ord () G.nodes)

/-- `sparsity` (dag.py:189-190), with exact division. -/
def sparsity (G : DAG α) : Except (Exn α) ℚ :=
  let p : ℚ := G.nodes.card
  if p = 0 then .error .plain
  else if p - 1 = 0 then .error .plain
  else .ok (G.arcs.card / p / (p - 1) * 2)

/-- `incoming_arcs` (dag.py:524-527). -/
def incomingArcs (o : SetOrder Unit α) (G : DAG α) (v : α) : Finset (α × α) :=
  (o.ord () (G.parents v)).foldl (fun s p => insert (p, v) s) ∅

/-- `outgoing_arcs` (dag.py:554-557). -/
def outgoingArcs (o : SetOrder Unit α) (G : DAG α) (v : α) : Finset (α × α) :=
  (o.ord () (G.children v)).foldl (fun s c => insert (v, c) s) ∅

/-- `set.union(*(view[n] for n in nodes))`: `TypeError` without arguments. -/
def unionOver (view : α → Finset α) : List α → Except (Exn α) (Finset α)
  | [] => .error .type
  | x :: l => .ok (l.foldl (fun s n => s ∪ view n) (view x))

/-- `parents_of(nodes)` for a set (dag.py:216). -/
def parentsOfSet (o : SetOrder Unit α) (G : DAG α) (s : Finset α) : Except (Exn α) (Finset α) := unionOver G.parents (o.ord () s)

/-- `children_of(nodes)` for a set (dag.py:243). -/
def childrenOfSet (o : SetOrder Unit α) (G : DAG α) (s : Finset α) : Except (Exn α) (Finset α) := unionOver G.children (o.ord () s)

/-- `neighbors_of(nodes)` for a set (dag.py:270). -/
def neighborsOfSet (o : SetOrder Unit α) (G : DAG α) (s : Finset α) : Except (Exn α) (Finset α) := unionOver G.neighbors (o.ord () s)

/-- `itr.combinations(l, 2)` -/
def pairsOf : List α → List (α × α)
  | [] => []
  | x :: l => l.map (fun y => (x, y)) ++ pairsOf l

/-- `triples` (dag.py:1135-1138). -/
def triples (o : SetOrder Unit α) (on : SetOrder α α) (G : DAG α) : Finset (Finset α) :=
  (o.ord () G.nodes).foldl (fun t v => t ∪ ((pairsOf (on.ord v (G.neighbors v))).map fun p => ({p.1, v, p.2} : Finset α)).toFinset) ∅

/-- `to_dataframe` (dag.py:1844-1854). The labels are written next to the matrix; pandas raises `ValueError` if their number is not the
size of the matrix. -/
def toDataframe [LinearOrder α] (o : SetOrder Unit (α × α)) (G : DAG α) (nodeList : Option (List α)) : Except (Exn α) (Frame α) :=
  let l := orSorted G.nodes nodeList
  (setOnes l (o.ord () G.arcs) (.zeros G.nodes.card)).bind fun A =>
    if l.length = A.n then .ok ⟨l, l, A.entry⟩ else .error .value

/-- The positions and labels visited by `np.ndenumerate(df.values)`, row by row. -/
def cells (D : Frame α) : List ((α × α) × ℤ) :=
  D.index.zipIdx.flatMap fun r => D.columns.zipIdx.map fun c => ((r.1, c.1), D.values r.2 c.2)

/-- The loop of `from_dataframe` (dag.py:1809-1811); the orders used by a check depend on the number of remaining cells. -/
def addCells (o : ℕ → SetOrder (Option α) α) : List ((α × α) × ℤ) → DAG α → Option (Except (Exn α) (DAG α))
  | [], G => some (.ok G)
  | c :: l, G =>
      if c.2 ≠ 0 then
        match addArc true (o l.length) G c.1.1 c.1.2 with
        | none => none
        | some (_, some e) => some (.error e)
        | some (G, none) => addCells o l G
      else addCells o l G

/-- `from_dataframe` (dag.py:1808-1812). -/
def fromDataframe (o : ℕ → SetOrder (Option α) α) (D : Frame α) : Option (Except (Exn α) (DAG α)) :=
  addCells o (cells D) (empty (D.index.toFinset ∪ D.columns.toFinset))

end DAG

end Model
