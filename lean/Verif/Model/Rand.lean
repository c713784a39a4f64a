import Verif.Model.Gauss

/-!
# `graphical_models/rand/graphs.py`: random graphs

The random draws (coins, permutation, undirected graph) are arguments. Only `size == 1` is modelled; other sizes repeat
the call.
-/

namespace Model

open DAG

/-- `{x for x, b in zip(l, bools) if b}`, in the order of `l`. -/
def chosen {β : Type} (l : List β) (bools : List Bool) : List β := ((l.zip bools).filter fun x => x.2).map Prod.fst

/-- `d.rename_nodes(dict(enumerate(perm)))` if a permutation has been drawn (graphs.py:94-96, 124-126). -/
def shuffle (o : SetOrder (Option ℕ) ℕ) (oa : SetOrder Bool (ℕ × ℕ)) (perm : Option (List ℕ)) (d : Option (Step ℕ)) :
    Option (Step ℕ) :=
  match d with
  | none => none
  | some (G, some e) => some (G, some e)
  | some (G, none) =>
      match perm with
      | none => some (G, none)
      | some p => G.renameNodes o oa fun i => p.getD i 0

/-- What goes wrong in the computation of `density`: `AssertionError`, `ZeroDivisionError`. -/
inductive DensityError
  | assertion
  | zeroDivision

/-- `density` (graphs.py:83-84, 112-113) for given numbers `density` and `exp_nbrs`; `none` is Python's `None`. -/
def erdosDensity {K : Type} [Field K] [DecidableEq K] (n : ℕ) (density expNbrs : Option K) : Except DensityError K :=
  match density, expNbrs with
  | none, none => .error .assertion
  | some d, _ => .ok d
  | none, some e => if (n : K) - 1 = 0 then .error .zeroDivision else .ok (e / (n - 1))

/-- `directed_erdos` (graphs.py:91-97); `bools` are the coins, `perm` is the permutation drawn if `random_order`. -/
def directedErdos (o : SetOrder (Option ℕ) ℕ) (oa : SetOrder Bool (ℕ × ℕ)) (n : ℕ) (bools : List Bool)
    (perm : Option (List ℕ)) : Option (Step ℕ) :=
  shuffle o oa perm (DAG.new o oa (Finset.range n) (chosen (pairs (List.range n)) bools).toFinset)

/-- `directed_erdos_with_confounders` (graphs.py:116-128), `n` nodes and `k` confounders. The node set passed to `DAG` is
`range(n)` although the labels go up to `n + k - 1`. -/
def erdosConfounders (o : SetOrder (Option ℕ) ℕ) (oa : SetOrder Bool (ℕ × ℕ)) (n k : ℕ) (bools bools' : List Bool)
    (perm : Option (List ℕ)) : Option (Step ℕ) :=
  let confounders := List.range k
  let nonconfounders := List.range' k n
  let confounderArcs := chosen (confounders ×ˢ nonconfounders) bools
  let localArcs := chosen (pairs nonconfounders) bools'
  shuffle o oa perm (DAG.new o oa (Finset.range n) (confounderArcs.toFinset ∪ localArcs.toFinset))

/-- `np.where(perm == v)[0][0]`; `none` is the `IndexError`. -/
def position (perm : List ℕ) (v : ℕ) : Option ℕ := if v ∈ perm then some (perm.idxOf v) else none

/-- The loop body of `directed_random_graph` (graphs.py:429-438). -/
def orientEdge (perm : List ℕ) (e : ℕ × ℕ) : Option (ℕ × ℕ) :=
  (position perm e.1).bind fun a => (position perm e.2).map fun b => if a < b then (e.1, e.2) else (e.2, e.1)

/-- `directed_random_graph` (graphs.py:421-440) for the edges of the drawn undirected graph and the drawn permutation. -/
def directedRandomGraph (o : SetOrder (Option ℕ) ℕ) (oa : SetOrder Bool (ℕ × ℕ)) (n : ℕ) (edges : List (ℕ × ℕ))
    (perm : List ℕ) : Option (Step ℕ) :=
  match edges.mapM (orientEdge perm) with
  | none => some (DAG.empty ∅, some .index)
  | some l => DAG.new o oa (Finset.range n) l.toFinset

/-- `rand_weights` (graphs.py:159-160); `l` is the iteration order of `dag.arcs`. The node list is `0, …, n-1` whatever the
labels of the graph are. -/
def randWeights {K : Type} [Field K] [DecidableEq K] (oa : SetOrder Bool (ℕ × ℕ)) (D : DAG ℕ) (l : List (ℕ × ℕ))
    (weights : List K) : Gauss.Step D.nodes.card K :=
  Gauss.new oa Fin.val (l.zip weights) 0 1

end Model
