import Verif.Model.Discrete

/-!
# `graphical_models/classes/dags/discrete_dag.py`: `to_pgm` and `from_pgm`

A `BayesianNetwork` of `pgmpy` is its graph and the tables added to it; the value of a variable is the number of its state. What is
used of `pgmpy` and `networkx`: `TabularCPD` checks the shape of the table and gives each variable of `evidence` an axis, in this order,
after the axis of the variable itself; `model.nodes` and `model.get_parents` are lists in some order (the order of insertion).
-/

namespace Model

open scoped NNReal

variable {α β R : Type} [DecidableEq α] [DecidableEq β]

/-- The position of an index in row-major order. -/
def ravel : List ℕ → List ℕ → ℕ
  | _ :: dims, i :: idx => i * dims.prod + ravel dims idx
  | _, _ => 0

/-- The index at a position. -/
def unravel : List ℕ → ℕ → List ℕ
  | [], _ => []
  | _ :: dims, k => k / dims.prod :: unravel dims (k % dims.prod)

namespace Tensor

/-- `t.reshape(shape)`. -/
def reshape (t : Tensor R) (shape : List ℕ) : Except (Exn α) (Tensor R) :=
  if t.shape.prod = shape.prod then .ok ⟨shape, fun idx => t.val (unravel t.shape (ravel shape idx))⟩ else .error .value

/-- `t.reshape(-1, t.shape[-1])`; a last axis of length zero is an error. -/
def rows (t : Tensor R) : Except (Exn α) (Tensor R) :=
  if t.shape.getLastD 0 = 0 then .error .value else t.reshape [t.shape.dropLast.prod, t.shape.getLastD 0]

/-- `t.T`. -/
def transpose (t : Tensor R) : Tensor R := ⟨t.shape.reverse, fun idx => t.val idx.reverse⟩

/-- `t.transpose([1, ..., k, 0])`. -/
def firstToLast (t : Tensor R) : Tensor R :=
  ⟨t.shape.tail ++ t.shape.take 1, fun idx => t.val (idx.getLastD 0 :: idx.dropLast)⟩

end Tensor

/-- `pgmpy.BayesianNetwork` -/
structure Pgm (β : Type) where
  nodes : Finset β
  arcs : Finset (β × β)
  cpd : β → Option (List β × Tensor ℝ≥0)

/-- `TabularCPD(variable, card, values, evidence, evidence_card)`: the evidence and the array `values`. -/
noncomputable def tabularCpd (card : ℕ) (values : Tensor ℝ≥0) (evidence : List β) (evidenceCard : List ℕ) :
    Except (Exn α) (List β × Tensor ℝ≥0) :=
  if values.shape ≠ [card, evidenceCard.prod] ∨ evidence.length ≠ evidenceCard.length then .error .value
  else
    match values.reshape (card :: evidenceCard) with
    | .error e => .error e
    | .ok t => .ok (evidence, t)

namespace DiscreteDAG

/-- The body of the loop of `to_pgm` (discrete_dag.py:754-766). -/
noncomputable def pgmStep (D : DiscreteDAG α) (lab : α → β) (M : Pgm β) (v : α) : Except (Exn α) (Pgm β) :=
  match (D.cond v).rows with
  | .error e => .error e
  | .ok t =>
      match tabularCpd (D.dims v) t.transpose ((D.pars v).map lab) ((D.pars v).map D.dims) with
      | .error e => .error e
      | .ok c => .ok { M with cpd := Function.update M.cpd (lab v) (some c) }

/-- `to_pgm` (discrete_dag.py:744-768). `lab` is `str` with `as_string=True` and otherwise the identity. The test of `pgmpy` for cycles
is left out: it cannot fail unless two nodes get the same name. -/
noncomputable def toPgm (D : DiscreteDAG α) (on : SetOrder Unit α) (lab : α → β) : Except (Exn α) (Pgm β) :=
  (on.ord () D.dag.nodes).foldlM (D.pgmStep lab)
    ⟨D.dag.nodes.image lab ∪ D.dag.arcs.image (lab ∘ Prod.fst) ∪ D.dag.arcs.image (lab ∘ Prod.snd),
      D.dag.arcs.image fun a => (lab a.1, lab a.2), fun _ => none⟩

/-- `from_pgm` (discrete_dag.py:770-807): the graph and `node_order`; `values2nums` is left out. A node without table is an
`AttributeError`. -/
noncomputable def fromPgm (M : Pgm β) (on : SetOrder Unit β) (op : SetOrder β β) (o : SetOrder (Option ℕ) ℕ)
    (oa : SetOrder Bool (ℕ × ℕ)) : Option (Except (Exn ℕ) (DiscreteDAG ℕ × List β)) :=
  let order := on.ord () M.nodes
  let parents (v : β) := op.ord v (M.nodes.filter fun u => (u, v) ∈ M.arcs)
  let pars (i : ℕ) : List ℕ := (order[i]?.map fun v => (parents v).map order.idxOf).getD []
  let values (i : ℕ) : Tensor ℝ≥0 := ((order[i]?.bind M.cpd).map Prod.snd).getD ⟨[], fun _ => 0⟩
  if ∃ v ∈ M.nodes, M.cpd v = none then some (.error .plain)
  else
    match new o oa (Finset.range order.length) ((Finset.range order.length).biUnion fun i => ((pars i).map fun u => (u, i)).toFinset)
      (fun i => (values i).firstToLast) pars (fun i => (List.range ((values i).shape.headD 0)).map Int.ofNat) with
    | none => none
    | some (.error e) => some (.error e)
    | some (.ok D) => some (.ok (D, order))

end DiscreteDAG

end Model
