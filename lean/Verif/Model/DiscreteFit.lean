import Verif.Model.Discrete

/-!
# `graphical_models/classes/dags/discrete_dag.py`: `fit` with `method="mle"` and `method="add_one_mle"`

The data is an array of `N` rows and `n` columns of natural numbers: `data j c`. The labels of the nodes are used as columns. Division
of zero by zero gives `nan` in the code and `0` here; it occurs only if the data has no rows or has values outside the alphabet.
-/

namespace Model

open scoped NNReal

variable {N : ℕ}

/-- The counts of the values, and the first branch of `get_conditional` (discrete_dag.py:160-164) for the rows in `S`; `add` is
`alpha` if `add_one`, else zero. -/
noncomputable def frequencies (data : Fin N → ℕ → ℕ) (S : Finset (Fin N)) (node : ℕ) (vals : List ℤ) (add : ℝ≥0) (i : ℕ) : ℝ≥0 :=
  let count : ℤ → ℝ≥0 := fun x => ((S.filter fun j => (data j node : ℤ) = x).card : ℝ≥0) + add
  count (vals.getD i 0) / (vals.map count).sum

/-- `get_conditional(data, node, vals, parents, parent_alphabets, add_one, alpha)` (discrete_dag.py:151-174). `oz` orders the set of
tuples. -/
noncomputable def fitConditional (oz : SetOrder ℕ (List ℕ)) (n : ℕ) (data : Fin N → ℕ → ℕ) (node : ℕ) (vals : List ℤ)
    (parents : List ℕ) (dims : List ℕ) (add : ℝ≥0) : Except (Exn ℕ) (Tensor ℝ≥0) :=
  if n ≤ node then .error .index
  else if parents = [] then .ok ⟨[vals.length], fun idx => frequencies data Finset.univ node vals add (idx.headD 0)⟩
  else if ∃ p ∈ parents, n ≤ p then .error .index
  else
    (oz.ord node (Finset.univ.image fun j => parents.map (data j))).foldlM
      (fun t z =>
        if ∀ p ∈ z.zip dims, p.1 < p.2 then
          .ok ⟨t.shape, fun idx => if idx.dropLast = z then
            frequencies data (Finset.univ.filter fun j => parents.map (data j) = z) node vals add (idx.getLastD 0) else t.val idx⟩
        else .error .index)
      ⟨dims ++ [vals.length], fun _ => 1 / (vals.length : ℝ≥0)⟩

/-- `list(range(max(data[:, node]) + 1))` for all nodes (discrete_dag.py:834-838). -/
def defaultAlphabets (n : ℕ) (data : Fin N → ℕ → ℕ) (nodes : Finset ℕ) : Except (Exn ℕ) (ℕ → List ℤ) :=
  if ∃ v ∈ nodes, n ≤ v then .error .index
  else if nodes ≠ ∅ ∧ N = 0 then .error .value
  else .ok fun v => (List.range (Finset.univ.sup (fun j => data j v) + 1)).map fun i : ℕ => (i : ℤ)

/-- `DiscreteDAG.fit(dag, data, node_alphabets=alphabets, method=...)` (discrete_dag.py:810-884) for the two methods that count;
`add` is zero for `"mle"`, and `alpha` for `"add_one_mle"`. `op` orders the sets of parents. -/
noncomputable def fitCounts (o ot : SetOrder (Option ℕ) ℕ) (oa : SetOrder Bool (ℕ × ℕ)) (op : SetOrder ℕ ℕ) (oz : SetOrder ℕ (List ℕ))
    (G : DAG ℕ) (n : ℕ) (data : Fin N → ℕ → ℕ) (alphabets : Option (ℕ → List ℤ)) (add : ℝ≥0) : Run ℕ (DiscreteDAG ℕ) := do
  let pars := fun v => op.ord v (G.parents v)
  let alph ← match alphabets with
    | some a => pure a
    | none => ExceptT.mk (some (defaultAlphabets n data G.nodes))
  let t ← G.topologicalSort ot
  let cond ← t.foldlM (fun (c : ℕ → Tensor ℝ≥0) v => do
    let x ← (ExceptT.mk (some (fitConditional oz n data v (alph v) (pars v) ((pars v).map fun p => (alph p).length) add)) :
      Run ℕ (Tensor ℝ≥0))
    return Function.update c v x) fun _ => ⟨[], fun _ => 0⟩
  ExceptT.mk (DiscreteDAG.new o oa G.nodes G.arcs cond pars alph)

end Model
