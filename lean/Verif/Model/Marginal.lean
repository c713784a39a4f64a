import Verif.Model.DSep
import Verif.Model.Maximal
import Mathlib.Data.Finset.Sort

/-!
# `dag.py`: `marginal_mag`
-/

namespace Model

universe u v
variable {α : Type u} [DecidableEq α] {β : Type v} [DecidableEq β]

namespace DAG

/-- The arbitrary orders in `marginal_mag`. `adjKey` says whether the default dictionary `_adjacent` has a key for a node. -/
structure MargOracle (α : Type u) where
  arcs : SetOrder (Fin 3) (α × α)
  top : SetOrder (Option α) α
  spouse : SetOrder (Option α) α
  kids : SetOrder α α
  obs : SetOrder Unit α
  sep : α × α → SepOracle α
  lat : SetOrder Unit α
  adjKey : α → Bool
  rem : α → SetOrder (Fin 4) α

/-- One pass of the loop over pairs (dag.py:2217-2225). -/
def margPair (L : Finset α) (anc : α → Finset α) (o : α × α → SepOracle α) (A : AG α) (p : α × α) : Option (AG.Step α) :=
  if A.hasAnyEdge p.1 p.2 then some (A, none)
  else (A.msep (o p) {p.1} {p.2} (((anc p.1 ∪ anc p.2) \ {p.1, p.2}) \ L)).map fun r =>
    if r then (A, none)
    else if p.1 ∈ anc p.2 then A.addDirectedRaw p.1 p.2
    else if p.2 ∈ anc p.1 then A.addDirectedRaw p.2 p.1
    else A.addBidirectedRaw p.1 p.2

/-- The loop over pairs; an exception ends it. -/
def margLoop (L : Finset α) (anc : α → Finset α) (o : α × α → SepOracle α) : List (α × α) → AG α → Option (AG.Step α)
  | [], A => some (A, none)
  | p :: ps, A =>
    (margPair L anc o A p).bind fun r =>
      match r with
      | (A', some e) => some (A', some e)
      | (A', none) => margLoop L anc o ps A'

/-- `marginal_mag(latent_nodes)` (dag.py:2215-2227, 2237), with `new=True` and `relabel=None`. -/
def marginalMag (D : DAG α) (w : MargOracle α) (L : Finset α) : Option (AG.Step α) :=
  match AG.new w.arcs D.nodes D.arcs ∅ ∅ with
  | (A, some e) => some (A, some e)
  | (A, none) =>
    (AG.ancestorDict A w.top w.spouse w.kids).run.bind fun r =>
      match r with
      | .error e => some (A, some e)
      | .ok anc =>
        (margLoop L anc w.sep (pairs (w.obs.ord () (D.nodes \ L))) A).map fun r =>
          r.andThen fun A => AG.forEach (fun A v => AG.removeNode true (w.adjKey v) (w.rem v) A v) (w.lat.ord () L) A

/-- The graph that `marginal_mag` builds from `ag` and a dictionary `relabel` (dag.py:2232-2235); the nodes are those of the
DAG that are not latent. The `KeyError` of a dictionary without some node is not modelled. -/
def margRelabel (o : SetOrder (Fin 3) (β × β)) (f : α → β) (obs : Finset α) (up : Unpack α) (A : AG α) : AG.Step β :=
  AG.new o (obs.image f) (A.directed.image fun p => (f p.1, f p.2))
    (A.bidirected.image fun e => (f (up.fn e).1, f (up.fn e).2)) ∅

/-- The dictionary for `relabel='default'` (dag.py:2231). -/
def defaultLabel [LinearOrder α] (obs : Finset α) (v : α) : ℕ := (obs.sort (· ≤ ·)).idxOf v

/-- `all(not self.dsep(i, j, S) for S in ...)` (dag.py:2170). -/
def noneSep (D : DAG α) (o : SepOracle α) (i j : α) : List (Finset α) → Option Bool
  | [] => some true
  | S :: Ss => (dsep D o {i} {j} S).bind fun r => if r then some false else noneSep D o i j Ss

/-- Body of the loop of `marginal_mag(latent_nodes, new=False)` (dag.py:2169-2177): the sets `directed` and `bidirected`. -/
def margPairOld (D : DAG α) (L : Finset α) (o : SepOracle α) (oa : SetOrder (α × Finset α) α) (oS : SetOrder (α × α) α)
    (acc : Finset (α × α) × Finset (α × α)) (p : α × α) : Option (Finset (α × α) × Finset (α × α)) :=
  (noneSep D o p.1 p.2 (powerset (oS.ord p ((D.nodes \ {p.1, p.2}) \ L)) 0 none)).bind fun adjacent =>
    if adjacent then
      (isAncestorOf D oa p.1 p.2).bind fun r =>
        if r then some (insert p acc.1, acc.2)
        else (isAncestorOf D oa p.2 p.1).map fun r =>
          if r then (insert (p.2, p.1) acc.1, acc.2) else (acc.1, insert p acc.2)
    else some acc

/-- `marginal_mag(latent_nodes, new=False)` (dag.py:2166-2187) with `relabel=None`. -/
def marginalMagOld (D : DAG α) (oc : SetOrder (Fin 3) (α × α)) (on : SetOrder Unit α) (o : SepOracle α)
    (oa : SetOrder (α × Finset α) α) (oS : SetOrder (α × α) α) (L : Finset α) : Option (AG.Step α) := do
  let r ← (pairs (on.ord () (D.nodes \ L))).foldlM (margPairOld D L o oa oS) (∅, ∅)
  return AG.new oc (D.nodes \ L) r.1 r.2 ∅

end DAG

end Model
