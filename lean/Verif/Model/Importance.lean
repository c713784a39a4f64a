import Verif.Model.DiscreteLearn
import Verif.Model.DiscreteSample

/-!
# `graphical_models/classes/dags/discrete_dag.py`: `get_conditional_importance_sampling`

Modelled for alphabets `0, 1, ..., k-1` of the marginal nodes, whose values are used as positions of the tensor (line 657), and at least one
tuple of values of the conditioning nodes, and at least one particle. Sums are exact.
-/

namespace Model.DiscreteDAG

open scoped NNReal

/-- Division of a number by one that is at least as large; `0 / 0` is `nan`, here `none`. -/
noncomputable def npDiv (a b : ℝ≥0) : Option ℝ≥0 := if b = 0 then none else some (a / b)

/-- `get_conditional_importance_sampling(marginal_nodes, cond_nodes, cond_values, nparticles)` (discrete_dag.py:632-662). Row `i` of the call
of `weighted_samples` uses the random numbers `u i`. Without `cond_values` line 640 calls
`list(None)`. The result lists the items of the two dictionaries for each tuple of values. -/
noncomputable def importanceSampling (D : DiscreteDAG ℕ) (ot : SetOrder (Option ℕ) ℕ) (n : ℕ) (ix : ℕ → ℕ) (u : ℕ → ℕ → ℝ)
    (marg cond : List ℕ) (values : Option (List (List ℕ))) (np : ℕ) : Run ℕ (List (List ℕ × (List ℕ → Option ℝ≥0) × Option ℝ≥0)) := do
  let values ← match values with
    | none => throw .type
    | some l => pure l
  let rows ← (values.flatMap (List.replicate np)).zipIdx.mapM fun p => D.weightedSamples ot n ix (u p.2) cond p.1
  if ∃ v ∈ marg, n ≤ v then throw .index
  let ws := rows.map fun r => (r.1, r.2.prod)
  return values.zipIdx.map fun p =>
    let sub := (ws.drop (np * p.2)).take np
    let unnorm := fun m : List ℕ => ((sub.filter fun r => marg.map r.1 = m.map Int.ofNat).map Prod.snd).sum
    (p.1, fun m => npDiv (unnorm m) ((products (marg.map fun v => List.range (D.dims v))).map unnorm).sum,
      npDiv (sub.map Prod.snd).sum (ws.map Prod.snd).sum)

end Model.DiscreteDAG
