import Verif.Model.Queries
import Mathlib.Logic.Relation
import Mathlib.Data.Finset.Lattice.Fold
import Mathlib.Data.List.Sort

/-!
# `dag.py`: `directed_clique_tree`, `contracted_directed_clique_tree`, `residuals`, `residual_essential_graph`

`nx.chordal_graph_cliques` is an oracle: the list of cliques in the order in which its result is iterated. It is taken to be a
collection that can be iterated twice, as in the versions of networkx that return a set.
-/

namespace Model

universe u
variable {κ : Type u} [DecidableEq κ]

/-- `networkx.utils.UnionFind`: `parents` and `weights`. A missing key is a root of weight 1, which is what a look-up enters. -/
structure UF (κ : Type u) where
  parents : κ → κ
  weights : κ → ℕ

namespace UF

/-- `UnionFind()` -/
def empty : UF κ := ⟨id, fun _ => 1⟩

/-- The loop of `UnionFind.__getitem__`: the path from `x` to the root, and the root. -/
def walk (u : UF κ) (path : List κ) (x : κ) : Option (List κ × κ) :=
  if u.parents x = x then some (path, x) else walk u (path ++ [x]) (u.parents x)
partial_fixpoint

/-- `u[x]`: the root, after letting the path point to it. -/
def find (u : UF κ) (x : κ) : Option (κ × UF κ) :=
  (u.walk [] x).map fun r => (r.2, { u with parents := r.1.foldl (fun p y => Function.update p y r.2) u.parents })

/-- `u.union(x, y)`: the heavier root becomes the parent of the other one; `tie` tells which of two equally heavy roots is visited first in
the set of roots. -/
def union (tie : κ → κ → Bool) (u : UF κ) (x y : κ) : Option (UF κ) :=
  (u.find x).bind fun (a, u) => (u.find y).map fun (b, u) =>
    if a = b then u
    else
      let (top, sub) := if u.weights b < u.weights a ∨ (u.weights a = u.weights b ∧ tie a b = true) then (a, b) else (b, a)
      ⟨Function.update u.parents sub top, Function.update u.weights top (u.weights top + u.weights sub)⟩

end UF

variable {α : Type u} [DecidableEq α]

/-- The variables of `directed_clique_tree` (dag.py:2514-2518): the arcs of `ct`, `subtrees` and `bidirected_components`. -/
structure CliqueTree (α : Type u) where
  arcs : Finset (Finset α × Finset α)
  sub : UF (Finset α)
  bi : UF (Finset α)

namespace DAG

/-- The keys of `edges` (dag.py:2516) in the order of the loop (dag.py:2519); the sort is stable. -/
def cliquePairs (cl : List (Finset α)) : List (Finset α × Finset α) :=
  ((pairs cl).filter fun e => decide ((e.1 ∩ e.2).Nonempty)).insertionSort fun a b => (b.1 ∩ b.2).card ≤ (a.1 ∩ a.2).card

/-- `all((s, c) in self._arcs for s, c in itr.product(shared, c - shared))` (dag.py:2523-2524) -/
def allInto (G : DAG α) (s c : Finset α) : Bool := decide (∀ x ∈ s, ∀ y ∈ c \ s, (x, y) ∈ G.arcs)

/-- `any(set(ct.predecessors(c)) - set(ct.successors(c)) for c in b)` for the keys `b` of `bidirected_components.parents` whose value is `r`
(dag.py:2528-2531, 2540-2548). -/
def hasSource (cl : List (Finset α)) (t : CliqueTree α) (r : Finset α) : Bool :=
  decide (∃ c ∈ cl, t.bi.parents c = r ∧ ∃ e ∈ t.arcs, e.2 = c ∧ (e.2, e.1) ∉ t.arcs)

/-- The body of the loop (dag.py:2519-2552). -/
def cliqueStep (tie : Finset α → Finset α → Bool) (G : DAG α) (cl : List (Finset α)) (t : CliqueTree α) (e : Finset α × Finset α) :
    Option (CliqueTree α) := do
  let (a, sub) ← t.sub.find e.1
  let (b, sub) ← sub.find e.2
  if a = b then return { t with sub := sub }
  let shared := e.1 ∩ e.2
  if G.allInto shared e.1 && G.allInto shared e.2 then
    let (a, bi) ← t.bi.find e.1
    let (b, bi) ← bi.find e.2
    let t := { t with sub := sub, bi := bi }
    if hasSource cl t a && hasSource cl t b then return t
    let sub ← t.sub.union tie e.1 e.2
    let bi ← t.bi.union tie e.1 e.2
    return ⟨insert e.swap (insert e t.arcs), sub, bi⟩
  else
    let e := if G.allInto shared e.2 then e else e.swap
    let (b, bi) ← t.bi.find e.2
    let t := { t with sub := sub, bi := bi }
    if hasSource cl t b then return t
    let sub ← t.sub.union tie e.1 e.2
    return ⟨insert e t.arcs, sub, bi⟩

/-- `directed_clique_tree` (dag.py:2484-2557): the edges of the result, whose nodes are the cliques. -/
def directedCliqueTree (tie : Finset α → Finset α → Bool) (G : DAG α) (cl : List (Finset α)) :
    Option (Finset (Finset α × Finset α)) :=
  ((cliquePairs cl).foldlM (cliqueStep tie G cl) ⟨∅, .empty, .empty⟩).map CliqueTree.arcs

end DAG

/-- A networkx `DiGraph` whose nodes are sets of cliques. -/
structure Contracted (α : Type u) where
  nodes : Finset (Finset (Finset α))
  arcs : Finset (Finset (Finset α) × Finset (Finset α))

namespace DAG

open scoped Classical in
/-- The member of `nx.connected_components(bidirected_graph)` that contains the clique (dag.py:2586-2590). -/
noncomputable def cliqueComponent (cl : List (Finset α)) (arcs : Finset (Finset α × Finset α)) (c : Finset α) : Finset (Finset α) :=
  cl.toFinset.filter fun d => Relation.ReflTransGen (fun a b => (a, b) ∈ arcs ∧ (b, a) ∈ arcs) c d

open scoped Classical in
/-- `contracted_directed_clique_tree` (dag.py:2559-2601), applied to the result of `directed_clique_tree`. -/
noncomputable def contract (cl : List (Finset α)) (arcs : Finset (Finset α × Finset α)) : Contracted α :=
  ⟨cl.toFinset.image (cliqueComponent cl arcs),
    (arcs.image fun e => (cliqueComponent cl arcs e.1, cliqueComponent cl arcs e.2)).filter fun e => e.1 ≠ e.2⟩

/-- `sdct_parents` (dag.py:2628-2629): the union of the first predecessor, in the order `op` of the predecessors. -/
noncomputable def parentUnion (op : SetOrder (Finset (Finset α)) (Finset (Finset α))) (T : Contracted α) (k : Finset (Finset α)) : Finset α :=
  match op.ord k ((T.arcs.filter fun e => e.2 = k).image Prod.fst) with
  | [] => ∅
  | p :: _ => p.sup id

/-- `component - parent` (dag.py:2630). -/
noncomputable def residual (op : SetOrder (Finset (Finset α)) (Finset (Finset α))) (T : Contracted α) (k : Finset (Finset α)) : Finset α :=
  k.sup id \ parentUnion op T k

/-- `residuals` (dag.py:2603-2630); `on` orders the nodes of the contracted tree. -/
noncomputable def residuals (on : SetOrder Unit (Finset (Finset α))) (op : SetOrder (Finset (Finset α)) (Finset (Finset α)))
    (T : Contracted α) : List (Finset α) :=
  (on.ord () T.nodes).map (residual op T)

/-- `arcs` of `residual_essential_graph` (dag.py:2660-2665). -/
noncomputable def residualArcs (op : SetOrder (Finset (Finset α)) (Finset (Finset α))) (T : Contracted α) : Finset (α × α) :=
  T.nodes.biUnion fun k => (parentUnion op T k ∩ k.sup id) ×ˢ residual op T k

/-- `residual_essential_graph` (dag.py:2632-2667): the arcs and the edges given to `PDAG`. -/
noncomputable def residualEssential (op : SetOrder (Finset (Finset α)) (Finset (Finset α))) (G : DAG α) (T : Contracted α) :
    Finset (α × α) × Finset (α × α) :=
  (residualArcs op T ∩ G.arcs, G.arcs \ residualArcs op T)

end DAG

end Model
