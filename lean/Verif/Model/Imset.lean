import Verif.Model.Queries

/-! # The dictionary returned by `DAG.get_standard_imset` -/

namespace Model.DAG

universe u
variable {α : Type u} [DecidableEq α]

/-- The keys that `get_standard_imset` writes into `conds2counts` (dag.py:1221-1225). -/
def imsetKeys (G : DAG α) (ignored : Finset α) : Finset (Finset α) :=
  (G.nodes \ ignored).image (fun v => insert v (G.parents v)) ∪ (G.nodes \ ignored).image G.parents

/-- `get_standard_imset` (dag.py:1219-1231): the items of the returned dictionary. Zero counts are dropped and every key becomes the
`tuple` of a frozenset; `o` is the order in which this call enumerates it, which depends on the order in which the frozenset was
filled. Distinct frozensets give distinct tuples, so no item is overwritten. -/
def getStandardImset (o : SetOrder Unit α) (G : DAG α) (ignored : Finset α) : Finset (List α × ℤ) :=
  ((G.imsetKeys ignored).filter fun s => standardImset G ignored s ≠ 0).image fun s => (o.ord () s, standardImset G ignored s)

end Model.DAG
