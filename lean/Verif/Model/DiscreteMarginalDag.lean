import Verif.Model.Discrete

/-!
# `graphical_models/classes/dags/discrete_dag.py`: `get_marginal_dag`
-/

namespace Model

open scoped NNReal

variable {α : Type} [DecidableEq α]

/-- The sum of `f` over the values of some axes, the values of the others being given by `x`. -/
def Tensor.sumNames (size : α → ℕ) : List α → ((α → ℕ) → ℝ≥0) → (α → ℕ) → ℝ≥0
  | [], f, x => f x
  | d :: l, f, x => ∑ i ∈ Finset.range (size d), Tensor.sumNames size l f (Function.update x d i)

/-- The sizes of the axes in `einops.einsum(s, t, "a, b -> out")`. -/
def einsumSize (s t : Tensor ℝ≥0) (a b : List α) (d : α) : ℕ :=
  if d ∈ a then s.shape.getD (a.idxOf d) 0 else t.shape.getD (b.idxOf d) 0

/-- When `einops.einsum(s, t, "a, b -> out")` does not raise; a name that is repeated within `a` or within `b` is taken to be an
error, although it is not. -/
def EinsumOk (s t : Tensor ℝ≥0) (a b out : List α) : Prop :=
  a.Nodup ∧ b.Nodup ∧ out.Nodup ∧ a.length = s.shape.length ∧ b.length = t.shape.length ∧ (∀ d ∈ out, d ∈ a ++ b) ∧
    ∀ d ∈ a, d ∈ b → s.shape.getD (a.idxOf d) 0 = t.shape.getD (b.idxOf d) 0

instance (s t : Tensor ℝ≥0) (a b out : List α) : Decidable (EinsumOk s t a b out) := by
  unfold EinsumOk; infer_instance

/-- `einops.einsum(s, t, "a, b -> out")`: the axes that are not in `out` are summed over. -/
def einsum (s t : Tensor ℝ≥0) (a b out : List α) : Tensor ℝ≥0 :=
  ⟨out.map (einsumSize s t a b), fun idx =>
    Tensor.sumNames (einsumSize s t a b) ((a ++ b).dedup.filter (· ∉ out)) (fun y => s.val (a.map y) * t.val (b.map y))
      fun d => idx.getD (out.idxOf d) 0⟩

/-- `t / t.sum(axis=-1, keepdims=True)`. -/
noncomputable def normalizeLast (t : Tensor ℝ≥0) : Tensor ℝ≥0 :=
  ⟨t.shape, fun idx => t.val idx / ∑ i ∈ Finset.range (t.shape.getLastD 0), t.val (idx.dropLast ++ [i])⟩

namespace DiscreteDAG

/-- `new_node2parents` (discrete_dag.py:363-368). -/
def mPars (D : DiscreteDAG α) (m v : α) : List α :=
  if v ∈ D.dag.children m then (D.pars v).filter (· ≠ m) ++ (D.pars m).filter (· ∉ D.pars v) else D.pars v

/-- `new_arcs` (discrete_dag.py:359-362, 370). -/
def mArcs (D : DiscreteDAG α) (m : α) : Finset (α × α) :=
  (D.dag.arcs.filter fun a => a.2 ≠ m ∧ a.1 ≠ m) ∪
    (D.dag.children m).biUnion fun c => (D.mPars m c).toFinset.image fun p => (p, c)

/-- `new_conditionals` (discrete_dag.py:373-388). -/
noncomputable def mCond (D : DiscreteDAG α) (m v : α) : Tensor ℝ≥0 :=
  if v ∈ D.dag.children m then
    normalizeLast (einsum (D.cond v) (D.cond m) (D.pars v ++ [v]) (D.pars m ++ [m]) (D.mPars m v ++ [v]))
  else D.cond v

/-- All calls of `einsum` succeed. -/
def MOk (D : DiscreteDAG α) (m : α) : Prop :=
  ∀ v ∈ D.dag.children m, EinsumOk (D.cond v) (D.cond m) (D.pars v ++ [v]) (D.pars m ++ [m]) (D.mPars m v ++ [v])

instance (D : DiscreteDAG α) (m : α) : Decidable (D.MOk m) := by unfold MOk; infer_instance

/-- `_get_marginal_dag_node(m, relabel=False)` (discrete_dag.py:351-408). The dictionaries of the new graph have no entry for `m`; the
entries of the functions at `m` mean nothing. -/
noncomputable def marginalNode (D : DiscreteDAG α) (o : SetOrder (Option α) α) (oa : SetOrder Bool (α × α)) (m : α) :
    Option (Except (Exn α) (DiscreteDAG α)) :=
  if D.MOk m then new o oa (D.dag.nodes.erase m) (D.mArcs m) (D.mCond m) (D.mPars m) D.alph else some (.error .value)

/-- The label of a node after node `m` has been removed (discrete_dag.py:394). -/
def shiftDown (m v : ℕ) : ℕ := if v < m then v else v - 1

/-- The node with a label. -/
def shiftUp (m v : ℕ) : ℕ := if v < m then v else v + 1

/-- `_get_marginal_dag_node(m, relabel=True)` (discrete_dag.py:351-408). -/
noncomputable def marginalNodeRelabel (D : DiscreteDAG ℕ) (o : SetOrder (Option ℕ) ℕ) (oa : SetOrder Bool (ℕ × ℕ)) (m : ℕ) :
    Option (Except (Exn ℕ) (DiscreteDAG ℕ)) :=
  if D.MOk m then
    new o oa ((D.dag.nodes.erase m).image (shiftDown m)) ((D.mArcs m).image fun a => (shiftDown m a.1, shiftDown m a.2))
      (fun v => D.mCond m (shiftUp m v)) (fun v => (D.mPars m (shiftUp m v)).map (shiftDown m)) (fun v => D.alph (shiftUp m v))
  else some (.error .value)

/-- The loop of `get_marginal_dag` (discrete_dag.py:414-422) for the list of nodes in the order in which they are popped. `f` is the
dictionary `relabeling_function`, `step` the method called, `lab` gives the labels that it returns, which has the remaining nodes
as keys. -/
noncomputable def marginalLoop (step : DiscreteDAG α → α → Option (Except (Exn α) (DiscreteDAG α))) (lab : α → α → α) :
    List α → DiscreteDAG α → (α → Option α) → Option (Except (Exn α) (DiscreteDAG α × (α → Option α)))
  | [], D, f => some (.ok (D, f))
  | v :: l, D, f =>
      match f v with
      | none => some (.error .key)
      | some m =>
          match step D m with
          | none => none
          | some (.error e) => some (.error e)
          | some (.ok D') =>
              marginalLoop step lab l D' fun u => (f u).bind fun w => if w ∈ D.dag.nodes.erase m then some (lab m w) else none

/-- `get_marginal_dag(marginalized_nodes, relabel=False)` (discrete_dag.py:410-423); `l` is `list(marginalized_nodes)`. -/
noncomputable def getMarginalDag (D : DiscreteDAG α) (o : SetOrder (Option α) α) (oa : SetOrder Bool (α × α)) (l : List α) :
    Option (Except (Exn α) (DiscreteDAG α × (α → Option α))) :=
  marginalLoop (fun D m => D.marginalNode o oa m) (fun _ v => v) l.reverse D fun v => if v ∈ D.dag.nodes then some v else none

/-- `get_marginal_dag(marginalized_nodes, relabel=True)` (discrete_dag.py:410-423). -/
noncomputable def getMarginalDagRelabel (D : DiscreteDAG ℕ) (o : SetOrder (Option ℕ) ℕ) (oa : SetOrder Bool (ℕ × ℕ)) (l : List ℕ) :
    Option (Except (Exn ℕ) (DiscreteDAG ℕ × (ℕ → Option ℕ))) :=
  marginalLoop (fun D m => D.marginalNodeRelabel o oa m) shiftDown l.reverse D fun v => if v ∈ D.dag.nodes then some v else none

end DiscreteDAG

end Model
