import Verif.Model.Discrete

/-!
# `graphical_models/classes/dags/discrete_dag_torch.py`

The constructor (lines 76-103) is that of `DiscreteDAG`, apart from the device. Tensors are as in `Model/Discrete`: exact numbers.
-/

namespace Model

open scoped NNReal

variable {α R : Type} [DecidableEq α]

/-- `torch.log`: the module's `no_warn_log` (discrete_dag_torch.py:29-33), and the logarithm of line 114. -/
noncomputable def torchLog (t : Tensor ℝ≥0) : Tensor EReal := npLog t

/-- The length of the axis `d`: that of the first tensor that has it. -/
def axisSize (ts : List (List α × Tensor R)) (d : α) : ℕ :=
  match ts.find? fun t => decide (d ∈ t.1) with
  | some t => t.2.shape.getD (t.1.idxOf d) 0
  | none => 0

/-- The sum of `f` over all values of the axes in the list. -/
def sumNames [AddCommMonoid R] (size : α → ℕ) : List α → ((α → ℕ) → R) → (α → ℕ) → R
  | [], f, x => f x
  | d :: l, f, x => ∑ i ∈ Finset.range (size d), sumNames size l f (Function.update x d i)

/-- `einops.einsum(*tensors, pattern)`, each tensor with the names of its axes. The names on the right must be distinct and occur on the
left, the lengths must fit (axes of length one are not stretched here), and there must be a tensor. -/
def einopsEinsum [CommSemiring R] (ts : List (List α × Tensor R)) (right : List α) : Except (Exn α) (Tensor R) :=
  if ts ≠ [] ∧ right.Nodup ∧ (∀ d ∈ right, ∃ t ∈ ts, d ∈ t.1) ∧ ∀ t ∈ ts, t.2.shape = t.1.map (axisSize ts) then
    .ok ⟨right.map (axisSize ts), fun idx =>
      sumNames (axisSize ts) ((ts.flatMap Prod.fst).dedup.filter fun d => decide (d ∉ right))
        (fun y => (ts.map fun t => t.2.val (t.1.map y)).prod) fun d => idx.getD (right.idxOf d) 0⟩
  else .error .plain

namespace DiscreteDAG

/-- `DiscreteDAGTorch.get_marginals` (discrete_dag_torch.py:108-146). -/
noncomputable def torchMarginals (D : DiscreteDAG α) (o ot : SetOrder (Option α) α) (oa : SetOrder Bool (α × α))
    (os : SetOrder (α × Finset α) α) (on : SetOrder Unit α) (f : EReal → R) (M : List α) : Run α (Tensor R) :=
  D.getMarginalsBy torchLog o ot oa os on f M

/-- `DiscreteDAGTorch.get_marginals_torch` (discrete_dag_torch.py:149-164). -/
def einsumMarginals (D : DiscreteDAG α) (o ot : SetOrder (Option α) α) (oa : SetOrder Bool (α × α))
    (os : SetOrder (α × Finset α) α) (on : SetOrder Unit α) (M : List α) : Run α (Tensor ℝ≥0) := do
  let A ← D.ancestral o oa os (on.ord () M.toFinset)
  let t ← DAG.topologicalSort A ot
  ExceptT.mk (some (einopsEinsum (t.map fun v => (D.pars v ++ [v], D.cond v)) M))

end DiscreteDAG

end Model
