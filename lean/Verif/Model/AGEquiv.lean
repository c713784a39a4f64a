import Verif.Model.AGQueries
import Verif.Model.Queries

/-!
# Markov equivalence of `AncestralGraph`

`vstructures`, `colliders`, `discriminating_paths` and `markov_equivalent`.
-/

namespace Model

universe u
variable {α : Type u} [DecidableEq α]

/-- Assignment `d[k] = v`. A dictionary is an association list; the first entry with a key counts. -/
def dictSet {κ ν : Type*} [DecidableEq κ] (d : List (κ × ν)) (k : κ) (v : ν) : List (κ × ν) :=
  (k, v) :: d.filter fun e => e.1 ≠ k

/-- Orders of the set iterations in `discriminating_paths` and `vstructures`: the parents and spouses of a node
(ancestral_graph.py:976), the nodes `j` (1038, the keys of `_parents`; `colliders` has just created all of
them), the nonadjacent nodes (1045), the first steps (1049), and the three loops over the end of a path
(1056, 1065, 1072). -/
structure DiscOracle (α : Type u) where
  vstruct : SetOrder α α
  targets : SetOrder Unit α
  starts : SetOrder α α
  first : SetOrder (α × α) α
  ends : SetOrder (Fin 3 × α × List α) α

namespace AG

/-- `vstructures` (ancestral_graph.py:974-980). `sorted((p1, p2))` depends only on the set of the two nodes: it is
`srt.fn {p1, p2}`. -/
def vstructures (o : SetOrder α α) (srt : Unpack α) (A : AG α) : Finset (α × α × α) :=
  A.nodes.biUnion fun v =>
    (((DAG.pairs (o.ord v (A.parents v ∪ A.spouses v))).filter fun p => !A.hasAnyEdge p.1 p.2).map
      fun p => ((srt.fn {p.1, p.2}).1, v, (srt.fn {p.1, p.2}).2)).toFinset

/-- `colliders` (ancestral_graph.py:990). -/
def colliders (A : AG α) : Finset α := A.nodes.filter fun v => 2 ≤ (A.parents v ∪ A.spouses v).card

/-- The dictionary returned by `discriminating_paths`; `true` stands for `'c'` and `false` for `'n'`. -/
abbrev PathDict (α : Type u) := List (List α × Bool)

/-- Body of the loop over the spouses `k` of the last node (ancestral_graph.py:1056-1064). -/
def recordSpouse (A : AG α) (j : α) (path : List α) (d : PathDict α) (k : α) : PathDict α :=
  if j ∈ A.spouses k then dictSet d (path ++ [k, j]) true
  else if j ∈ A.children k then dictSet d (path ++ [k, j]) false
  else d

/-- Body of the loop over the parents `k` of the last node (ancestral_graph.py:1065-1069). -/
def recordParent (A : AG α) (j : α) (path : List α) (d : PathDict α) (k : α) : PathDict α :=
  if j ∈ A.children k then dictSet d (path ++ [k, j]) false else d

/-- The entries made for one path whose last node is `f` (ancestral_graph.py:1056-1069). -/
def record (A : AG α) (o : DiscOracle α) (j : α) (path : List α) (f : α) (d : PathDict α) : PathDict α :=
  ((o.ends.ord (1, j, path) (A.parents f)).filter (· ∉ path)).foldl (A.recordParent j path)
    (((o.ends.ord (0, j, path) (A.spouses f)).filter (· ∉ path)).foldl (A.recordSpouse j path) d)

/-- The longer paths put into the queue (ancestral_graph.py:1072-1076). -/
def extend (A : AG α) (o : DiscOracle α) (cols : Finset α) (j : α) (path : List α) (f : α) : List (List α) :=
  ((o.ends.ord (2, j, path) (A.spouses f)).filter fun k => k ∉ path ∧ k ∈ cols ∧ j ∈ A.children k).map (path ++ [·])

/-- The `while path_queue` loop (ancestral_graph.py:1052-1076). `path[-1]` of an empty path is an `IndexError`. -/
def discLoop (A : AG α) (o : DiscOracle α) (cols : Finset α) (j : α) (queue : List (List α)) (d : PathDict α) :
    Run α (PathDict α) :=
  match queue with
  | [] => pure d
  | path :: rest =>
    match path.getLast? with
    | none => throw .index
    | some f => discLoop A o cols j (rest ++ A.extend o cols j path f) (A.record o j path f d)
partial_fixpoint

/-- The initial `path_queue` (ancestral_graph.py:1047-1051). -/
def firstPaths (A : AG α) (o : DiscOracle α) (cols : Finset α) (j i : α) : List (List α) :=
  ((o.first.ord (j, i) (A.spouses i ∪ A.children i)).filter fun k => k ∈ cols ∧ j ∈ A.children k).map fun k => [i, k]

/-- Body of the loop over `j` (ancestral_graph.py:1038-1076). -/
def discTarget (A : AG α) (o : DiscOracle α) (cols : Finset α) (d : PathDict α) (j : α) : Run α (PathDict α) :=
  if A.parents j = ∅ then pure d
  else
    (o.starts.ord j ((((A.nodes \ A.parents j) \ A.children j) \ A.spouses j) \ {j})).foldlM
      (fun d i => A.discLoop o cols j (A.firstPaths o cols j i) d) d

/-- `discriminating_paths` (ancestral_graph.py:1024-1078). -/
def discriminatingPaths (o : DiscOracle α) (A : AG α) : Run α (PathDict α) :=
  (o.targets.ord () A.nodes).foldlM (A.discTarget o A.colliders) []

/-- `self_discriminating_paths[path] == other_discriminating_paths[path]` for all shared keys
(ancestral_graph.py:1567-1571). -/
def sameDiscriminating (d e : PathDict α) : Bool :=
  (d.map Prod.fst).all fun p =>
    match d.lookup p, e.lookup p with
    | some x, some y => x == y
    | _, _ => true

/-- `markov_equivalent(other)` (ancestral_graph.py:1561-1573); `o1`, `o2` are the orders used in the two graphs. -/
def markovEquivalent (o1 o2 : DiscOracle α) (srt : Unpack α) (A B : AG α) : Run α (ULift.{u} Bool) := do
  let d ← A.discriminatingPaths o1
  let e ← B.discriminatingPaths o2
  return ⟨decide (A.skeleton = B.skeleton) &&
    decide (A.vstructures o1.vstruct srt = B.vstructures o2.vstruct srt) && sameDiscriminating d e⟩

end AG

end Model
