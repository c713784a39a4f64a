import Verif.Model.AGEquiv

/-!
# `discriminating_triples` and `fast_markov_equivalent` of `AncestralGraph`
-/

namespace Model

universe u
variable {α : Type u} [DecidableEq α]

/-- Orders of the set iterations in `discriminating_triples` and the functions it calls. `up` unpacks the frozensets
in `for v, w in self._bidirected`. -/
structure TripleOracle (α : Type u) [DecidableEq α] where
  top : SetOrder (Option α) α
  spouse : SetOrder (Option α) α
  kids : SetOrder α α
  pars : SetOrder α α
  bis : SetOrder Unit (Finset α)
  up : Unpack α
  dist : SetOrder (α × Finset α) α
  zs : SetOrder (α × α) α
  vstruct : SetOrder α α

namespace AG

/-- `parents_of(nodes)` for a set (ancestral_graph.py:194); `set.union(*())` is a `TypeError`. -/
def parentsOfSet (A : AG α) (S : Finset α) : Run α (Finset α) := if S = ∅ then throw .type else pure (S.biUnion A.parents)

/-- `spouses_of(nodes)` for a set (ancestral_graph.py:217). -/
def spousesOfSet (A : AG α) (S : Finset α) : Run α (Finset α) := if S = ∅ then throw .type else pure (S.biUnion A.spouses)

/-- `_tail_of` (ancestral_graph.py:1518-1522). `-` binds tighter than `|`. -/
def tailOf (A : AG α) (o : SetOrder (α × Finset α) α) (anc : α → Finset α) (v w : α) : Run α (Finset α) := do
  let d ← (liftM (A.districtOfIn o (anc v ∪ anc w ∪ {v, w}) v) : Run α (Finset α))
  let p ← A.parentsOfSet d
  return p ∪ (d \ {v, w})

/-- `not (self.has_any_edge(v, z) and self.has_any_edge(w, z))` (ancestral_graph.py:1502, 1510). -/
def notBoth (A : AG α) (v w z : α) : Bool := !(A.hasAnyEdge v z && A.hasAnyEdge w z)

/-- Body of the second loop over `z` (ancestral_graph.py:1509-1514). -/
def headStep (A : AG α) (o : SetOrder (α × Finset α) α) (anc : α → Finset α) (v w : α) (d : Finset (Finset α)) (z : α) :
    Run α (Finset (Finset α)) :=
  if A.notBoth v w z then do
    let dis ← (liftM (A.districtOfIn o ((anc v ∪ anc w ∪ {v, w}) ∪ anc z ∪ {z}) v) : Run α (Finset α))
    return if z ∈ dis then insert {v, w, z} d else d
  else pure d

/-- Body of the loop over the bidirected edges (ancestral_graph.py:1497-1514). -/
def tripleStep (A : AG α) (o : TripleOracle α) (anc desc : α → Finset α) (d : Finset (Finset α)) (e : α × α) :
    Run α (Finset (Finset α)) := do
  let tail ← A.tailOf o.dist anc e.1 e.2
  let d := d ∪ (tail.filter fun z => A.notBoth e.1 e.2 z).image fun z => {e.1, e.2, z}
  let a := anc e.1 ∪ anc e.2 ∪ {e.1, e.2}
  let de := desc e.1 ∪ desc e.2 ∪ {e.1, e.2}
  let sp ← A.spousesOfSet a
  let dist ← (liftM (A.districtOf o.dist e.1) : Run α (Finset α))
  (o.zs.ord e (sp ∩ (dist \ (a ∪ de)))).foldlM (A.headStep o.dist anc e.1 e.2) d

/-- `discriminating_triples` (ancestral_graph.py:1493-1516). -/
def discriminatingTriples (A : AG α) (o : TripleOracle α) (srt : Unpack α) : Run α (Finset (Finset α)) := do
  let anc ← ancestorDict A o.top o.spouse o.kids
  let desc ← descendantDict A o.top o.spouse o.pars
  let d ← ((o.bis.ord () A.bidirected).map o.up.fn).foldlM (A.tripleStep o anc desc) ∅
  return d ∪ (A.vstructures o.vstruct srt).image fun t => {t.1, t.2.1, t.2.2}

/-- `fast_markov_equivalent(other)` (ancestral_graph.py:1580-1586); `o1`, `o2` are the orders used in the two graphs. -/
def fastMarkovEquivalent (A : AG α) (o1 o2 : TripleOracle α) (srt : Unpack α) (B : AG α) : Run α (ULift.{u} Bool) :=
  if A.skeleton ≠ B.skeleton then pure ⟨false⟩
  else if A.vstructures o1.vstruct srt ≠ B.vstructures o2.vstruct srt then pure ⟨false⟩
  else do
    let s ← A.discriminatingTriples o1 srt
    let t ← B.discriminatingTriples o2 srt
    return ⟨decide (s = t)⟩

end AG

end Model
