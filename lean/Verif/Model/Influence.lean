import Verif.Model.Discrete

/-!
# `graphical_models/classes/dags/discrete_dag.py`: efficient influence functions

Samples are arrays of `N` rows and `n` columns of natural numbers; the labels of the nodes are used as columns. Numbers are exact.
The answers of the inference of `pgmpy` are an oracle; the axes of its answer are taken to be in the order of `variables`, which
`pgmpy` does not promise. Division by a propensity of zero gives `inf` or `nan` in the code and `0` here. `AttributeError` and
`NotImplementedError` are `Exn.plain`. `inference_method="importance_reweighting"` is not modelled.
-/

namespace Model

open scoped NNReal ENNReal

namespace Tensor

/-- `a * b` for arrays with equally many axes, with broadcasting. -/
noncomputable def mul {α : Type} (a b : Tensor ℝ) : Except (Exn α) (Tensor ℝ) :=
  if a.shape.length = b.shape.length ∧ ∀ p ∈ a.shape.zip b.shape, p.1 = p.2 ∨ p.1 = 1 ∨ p.2 = 1 then
    .ok ⟨List.zipWith (fun m n => if m = 1 then n else m) a.shape b.shape,
      fun idx => a.val (clip idx a.shape) * b.val (clip idx b.shape)⟩
  else .error .value

/-- `t.sum()`. -/
noncomputable def total (t : Tensor ℝ) : ℝ := sumAxes (List.range t.shape.length) t.shape 0 t.val []

end Tensor

/-- `infer.query(variables=..., evidence=...).values` of `pgmpy` (discrete_dag.py:577-581). -/
abbrev Query := List ℕ → List (ℕ × ℕ) → Except (Exn ℕ) (Tensor ℝ)

/-- `add_repeated_nodes_marginal` (discrete_dag.py:35-71). An axis of a repeated node is marked by `true` (`r` in the pattern). -/
noncomputable def addRepeatedMarginal (t : Tensor ℝ) (M C : List ℕ) (dims : ℕ → ℕ) (vals : List ℕ) :
    Except (Exn ℕ) (Tensor ℝ) :=
  let stop := M.map fun v => (v, decide (v ∈ C))
  match einopsRepeat (α := ℕ) t ((M.filter (· ∉ C)).map fun v => (v, false)) stop (fun p => dims p.1) with
  | .error e => .error e
  | .ok t' =>
      match M.filter (· ∈ C) with
      | [] => .error .index
      | r :: rest =>
          if rest ≠ [] then .error .plain
          else
            let ones : Tensor ℝ := ⟨[dims r], fun idx => if idx.headD 0 = vals.getD (C.idxOf r) 0 then 1 else 0⟩
            match einopsRepeat (α := ℕ) ones [(r, true)] stop (fun p => dims p.1) with
            | .error e => .error e
            | .ok ones' => Tensor.mul t' ones'

namespace DiscreteDAG

/-- One entry of `get_conditional_pgmpy(M, C, cond_values)` (discrete_dag.py:576-589, 597-637): the table for the values `z` of
`C`. -/
noncomputable def conditionalAt (D : DiscreteDAG ℕ) (q : Query) (M C z : List ℕ) : Except (Exn ℕ) (Tensor ℝ) :=
  match q (M.filter (· ∉ C)) (C.zip z) with
  | .error e => .error e
  | .ok t => if M.length ≠ (M.filter (· ∉ C)).length then addRepeatedMarginal t M C D.dims z else .ok t

/-- `values` (discrete_dag.py:929-931). -/
noncomputable def influenceValues (D : DiscreteDAG ℕ) (T Y : ℕ) (c : ℤ) : Tensor ℝ :=
  ⟨[D.dims T, D.dims Y], fun idx =>
    (if (D.alph T).getD (idx.getD 0 0) 0 = c then (1 : ℝ) else 0) * (((D.alph Y).getD (idx.getD 1 0) 0 : ℤ) : ℝ)⟩

/-- `(values * prob).sum()`. -/
noncomputable def influenceMean (D : DiscreteDAG ℕ) (T Y : ℕ) (c : ℤ) (t : Tensor ℝ) : Except (Exn ℕ) ℝ :=
  match Tensor.mul (D.influenceValues T Y c) t with
  | .error e => .error e
  | .ok p => .ok p.total

/-- An entry of `conds2counts` and of `conds2means`: the tuple, the count, and the mean for the values of the tuple (a missing key
is `none`). -/
structure Term where
  key : List ℕ
  count : ℤ
  mean : List ℕ → Option ℝ

/-- The keys of `get_standard_imset` (dag.py:1225-1229). -/
def imsetKeys (G : DAG ℕ) (ignored : Finset ℕ) : Finset (Finset ℕ) :=
  (((G.nodes \ ignored).image fun v => insert v (G.parents v)) ∪ (G.nodes \ ignored).image G.parents).filter
    fun s => G.standardImset ignored s ≠ 0

/-- `get_efficient_influence_function_conditionals_partial` (discrete_dag.py:916-966). `op` turns the frozensets into tuples, `oz`
orders the set of the values that occur, `ok` orders the keys; `sampled_values=None` is `none`. -/
noncomputable def influenceTerms (D : DiscreteDAG ℕ) (o ot : SetOrder (Option ℕ) ℕ) (oa : SetOrder Bool (ℕ × ℕ))
    (os : SetOrder (ℕ × Finset ℕ) ℕ) (on : SetOrder Unit ℕ) (op : SetOrder (Finset ℕ) ℕ) (ok : SetOrder Unit (Finset ℕ))
    (oz : SetOrder (List ℕ) (List ℕ)) (q : Query) (T Y : ℕ) (c : ℤ) (ignored : Finset ℕ) {N : ℕ} (n : ℕ)
    (sampled : Option (Fin N → ℕ → ℕ)) : Run ℕ (List Term) :=
  (ok.ord () (imsetKeys D.dag ignored)).mapM fun s => do
    let key := op.ord s s
    if key = [] then
      let t ← D.getMarginals o ot oa os on (fun e => (EReal.exp e).toReal) [T, Y]
      let m ← (ExceptT.mk (some (D.influenceMean T Y c t)) : Run ℕ ℝ)
      return ⟨key, D.dag.standardImset ignored s, fun _ => some m⟩
    else
      match sampled with
      | none => throw .type
      | some data =>
          if ∃ v ∈ key, n ≤ v then throw .index
          let means ← (oz.ord key (Finset.univ.image fun j => key.map (data j))).mapM fun z =>
            (ExceptT.mk (some ((D.conditionalAt q [T, Y] key z).bind fun t => (D.influenceMean T Y c t).map fun m => (z, m))) :
              Run ℕ (List ℕ × ℝ))
          return ⟨key, D.dag.standardImset ignored s, fun z => (means.find? fun p => p.1 = z).map Prod.snd⟩

/-- Adding a term (discrete_dag.py:1026-1036). -/
noncomputable def influenceStep {N : ℕ} (n : ℕ) (data : Fin N → ℕ → ℕ) (acc : Fin N → ℝ) (t : Term) :
    Except (Exn ℕ) (Fin N → ℝ) :=
  if t.key = [] then .ok fun j => acc j + (t.mean []).getD 0 * t.count
  else if ∃ v ∈ t.key, n ≤ v then .error .index
  else if ∃ j, t.mean (t.key.map (data j)) = none then .error .key
  else .ok fun j => acc j + (t.mean (t.key.map (data j))).getD 0 * t.count

/-- The function that `get_efficient_influence_function_partial` returns (discrete_dag.py:1024-1038), applied to an array of samples:
the terms are added up for every row and divided by the propensity. -/
noncomputable def influenceEval (terms : List Term) (propensity : ℝ) {N : ℕ} (n : ℕ) (data : Fin N → ℕ → ℕ) :
    Except (Exn ℕ) (Fin N → ℝ) :=
  match terms.foldlM (influenceStep n data) fun _ => 0 with
  | .error e => .error e
  | .ok f => .ok fun j => f j / propensity

/-- The terms and the propensity: what the returned function knows. -/
structure Influence where
  terms : List Term
  propensity : ℝ

/-- `get_efficient_influence_function` (discrete_dag.py:1042-1075). `propensity=None` is `none`: then `get_marginal(cond_ix)` is indexed by
the value. `get_efficient_influence_function_full` (discrete_dag.py:968-987) calls a method that does not exist. -/
noncomputable def influence (D : DiscreteDAG ℕ) (o ot : SetOrder (Option ℕ) ℕ) (oa : SetOrder Bool (ℕ × ℕ))
    (os : SetOrder (ℕ × Finset ℕ) ℕ) (on : SetOrder Unit ℕ) (op : SetOrder (Finset ℕ) ℕ) (ok : SetOrder Unit (Finset ℕ))
    (oz : SetOrder (List ℕ) (List ℕ)) (q : Query) (T Y c : ℕ) (propensity : Option ℝ) (ignored : Finset ℕ) {N : ℕ} (n : ℕ)
    (sampled : Option (Fin N → ℕ → ℕ)) (isPartial : Bool) : Run ℕ Influence := do
  let p ← match propensity with
    | some p => pure p
    | none => do
        let t ← D.getMarginal o ot oa os T
        if t.shape.headD 0 ≤ c then throw .index
        pure (t.val [c]).toReal
  if isPartial then
    let terms ← D.influenceTerms o ot oa os on op ok oz q T Y c ignored n sampled
    return ⟨terms, p⟩
  else throw .plain

end DiscreteDAG

end Model
