import Verif.Model.Influence
import Verif.Model.DiscreteLearn

/-!
# `graphical_models/classes/dags/discrete_dag.py`: `get_conditional_pgmpy` without values, and what is built on it

The inference of `pgmpy` is an oracle as in `Model/Influence.lean`. The alphabets are taken to have no negative numbers.
-/

namespace Model

open scoped NNReal

/-- `add_repeated_nodes_conditional` (discrete_dag.py:72-105). An axis of a repeated node is marked by `true` (`r` in the pattern). -/
noncomputable def addRepeatedConditional (t : Tensor ℝ) (M C : List ℕ) (dims : ℕ → ℕ) : Except (Exn ℕ) (Tensor ℝ) :=
  let start := (M.filter (· ∉ C) ++ C).map fun v => (v, false)
  let stop := (M.map fun v => (v, decide (v ∈ C))) ++ C.map fun v => (v, false)
  match einopsRepeat (α := ℕ) t start stop (fun d => dims d.1) with
  | .error e => .error e
  | .ok t' =>
      match M.filter (· ∈ C) with
      | [] => .error .index
      | r :: rest =>
          if rest ≠ [] then .error .plain
          else
            match einopsRepeat (α := ℕ) (⟨[dims r, dims r], fun i => if i.getD 0 0 = i.getD 1 0 then 1 else 0⟩ : Tensor ℝ)
              [(r, false), (r, true)] stop (fun d => dims d.1) with
            | .error e => .error e
            | .ok ones => Tensor.mul t' ones

namespace DiscreteDAG

/-- One column (discrete_dag.py:577-583). An array of another shape is an error. -/
noncomputable def pgmpyColumn (D : DiscreteDAG ℕ) (q : Query) (N C z : List ℕ) : Except (Exn ℕ) (Tensor ℝ) :=
  match q N (C.zip z) with
  | .error e => .error e
  | .ok t => if t.shape = N.map D.dims then .ok t else .error .value

/-- `get_conditional_pgmpy(marginal_nodes, cond_nodes)` (discrete_dag.py:542-625). The values are passed to `pgmpy` as states. -/
noncomputable def conditionalTable (D : DiscreteDAG ℕ) (q : Query) (M C : List ℕ) : Except (Exn ℕ) (Tensor ℝ) :=
  let N := M.filter (· ∉ C)
  match (products (C.map fun c => (D.alph c).map Int.toNat)).mapM (D.pgmpyColumn q N C) with
  | .error e => .error e
  | .ok ts =>
      let conditional : Tensor ℝ := ⟨N.map D.dims ++ [(C.map D.dims).prod], fun idx =>
        (ts.getD (idx.getLastD 0) ⟨[], fun _ => 0⟩).val idx.dropLast⟩
      match conditional.reshape (N.map D.dims ++ C.map D.dims) with
      | .error e => .error e
      | .ok t => if M.length ≠ N.length then addRepeatedConditional t M C D.dims else .ok t

/-- `(values2 * probs).sum((0, 1))` (discrete_dag.py:909-912). -/
noncomputable def expValFunction (D : DiscreteDAG ℕ) (T Y : ℕ) (c : ℤ) (k : ℕ) (probs : Tensor ℝ) : Except (Exn ℕ) (Tensor ℝ) :=
  let values := D.influenceValues T Y c
  match Tensor.mul ⟨values.shape ++ List.replicate k 1, fun idx => values.val (idx.take 2)⟩ probs with
  | .error e => .error e
  | .ok p => .ok ⟨Tensor.dropAxes [0, 1] p.shape, Tensor.sumAxes [0, 1] p.shape 0 p.val⟩

/-- The tuple `list(cond_set)`, the count and the array of means. -/
structure MeanTerm where
  key : List ℕ
  count : ℤ
  mean : Tensor ℝ

/-- `get_efficient_influence_function_conditionals` (discrete_dag.py:886-914). `op` lists the frozensets, `ok` orders the keys. -/
noncomputable def influenceConditionals (D : DiscreteDAG ℕ) (o ot : SetOrder (Option ℕ) ℕ) (oa : SetOrder Bool (ℕ × ℕ))
    (os : SetOrder (ℕ × Finset ℕ) ℕ) (on : SetOrder Unit ℕ) (op : SetOrder (Finset ℕ) ℕ) (ok : SetOrder Unit (Finset ℕ))
    (q : Query) (T Y : ℕ) (c : ℤ) (ignored : Finset ℕ) : Run ℕ (List MeanTerm) :=
  (ok.ord () (imsetKeys D.dag ignored)).mapM fun s => do
    let key := op.ord s s
    if key = [] then
      let t ← D.getMarginals o ot oa os on (fun e => (EReal.exp e).toReal) [T, Y]
      let m ← (ExceptT.mk (some (D.influenceMean T Y c t)) : Run ℕ ℝ)
      return ⟨key, D.dag.standardImset ignored s, ⟨[], fun _ => m⟩⟩
    else
      let t ← (ExceptT.mk (some (match D.conditionalTable q [T, Y] key with
        | .error e => .error e
        | .ok probs => D.expValFunction T Y c key.length probs)) : Run ℕ (Tensor ℝ))
      return ⟨key, D.dag.standardImset ignored s, t⟩

end DiscreteDAG

end Model
