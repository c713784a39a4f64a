import Verif.Model.Discrete

/-!
# `graphical_models/classes/dags/discrete_dag.py`: sampling

The functions fill an array with one row per sample; the rows do not depend on each other, and one row is modelled. A row is a
function of the column. `u v` is the uniform random number drawn for node `v`: `np.random.random` for one row, or the number that
`np.random.choice` draws for one row. Sums of probabilities are exact.
-/

namespace Model

open scoped NNReal

variable {α : Type} [DecidableEq α]

/-- `np.cumsum`. -/
def cumsum (p : List ℝ) : List ℝ := (List.range p.length).map fun i => (p.take (i + 1)).sum

/-- `np.random.choice(a, p=p)` of numpy's `mtrand.pyx`: `p` must be one-dimensional, as long as `a`, nonempty, and sum to one up to
the square root of the machine precision. Then `a[searchsorted(cumsum(p) / sum(p), u, side='right')]`. -/
noncomputable def npChoice (a : List ℤ) (p : Tensor ℝ≥0) (u : ℝ) : Except (Exn α) ℤ :=
  if a = [] ∨ p.shape ≠ [a.length] then .error .value
  else
    let q := (List.range a.length).map fun i => (p.val [i] : ℝ)
    if 1 / 2 ^ 26 < |q.sum - 1| then .error .value
    else
      match a[(((cumsum q).map (· / q.sum)).filter (· ≤ u)).length]? with
      | some x => .ok x
      | none => .error .index

/-- An integer index into an axis of length `n`: negative numbers count from the end. -/
def npIndex (n : ℕ) (i : ℤ) : Option ℕ :=
  if 0 ≤ i ∧ i < n then some i.toNat else if -n ≤ i ∧ i < 0 then some (i + n).toNat else none

/-- `table[tuple(ix)]` if one axis remains. -/
def npRow (t : Tensor ℝ≥0) (ix : List ℤ) : Except (Exn α) (List ℝ≥0) :=
  match (t.shape.zip ix).mapM fun p => npIndex p.1 p.2 with
  | none => .error .index
  | some l => if t.shape.length = ix.length + 1 then .ok ((List.range (t.shape.getLastD 0)).map fun i => t.val (l ++ [i]))
      else .error .index

/-- `np.argmax(np.cumsum(p) > u)`: zero if no entry is greater than `u`. -/
noncomputable def argmaxAbove (p : List ℝ≥0) (u : ℝ) : Except (Exn α) ℤ :=
  if p = [] then .error .value
  else
    let k := (cumsum (p.map fun x : ℝ≥0 => (x : ℝ))).findIdx (u < ·)
    .ok (if k < p.length then k else 0)

namespace DiscreteDAG

/-- The value drawn for a node (discrete_dag.py:238-251, 267-281): a value of the alphabet if there are no parents, otherwise the
position of a value. `ix` is `_node2ix`. -/
noncomputable def drawSample (D : DiscreteDAG α) (ix : α → ℕ) (u : α → ℝ) (row : ℕ → ℤ) (v : α) : Except (Exn α) ℤ :=
  if D.pars v = [] then npChoice (D.alph v) (D.cond v) (u v)
  else
    match npRow (D.cond v) ((D.pars v).map fun p => row (ix p)) with
    | .error e => .error e
    | .ok dist => argmaxAbove dist (u v)

/-- `sample` (discrete_dag.py:232-254). -/
noncomputable def sample (D : DiscreteDAG α) (ot : SetOrder (Option α) α) (ix : α → ℕ) (u : α → ℝ) : Run α (ℕ → ℤ) := do
  let t ← D.dag.topologicalSort ot
  t.foldlM (fun row v => do
    let x ← (ExceptT.mk (some (D.drawSample ix u row v)) : Run α ℤ)
    return Function.update row (ix v) x) (fun _ => 0)

/-- The body of the loop of `weighted_samples` (discrete_dag.py:265-293). -/
noncomputable def weightedStep (D : DiscreteDAG ℕ) (ix : ℕ → ℕ) (u : ℕ → ℝ) (nodes : List ℕ) (values : List ℕ)
    (s : (ℕ → ℤ) × List ℝ≥0) (v : ℕ) : Except (Exn ℕ) ((ℕ → ℤ) × List ℝ≥0) :=
  if v ∉ nodes then
    match D.drawSample ix u s.1 v with
    | .error e => .error e
    | .ok x => .ok (Function.update s.1 (ix v) x, s.2)
  else
    let j := nodes.idxOf v
    let x := values.getD j 0
    match npRow (D.cond v) ((D.pars v).map fun p => s.1 (ix p)) with
    | .error e => .error e
    | .ok dist => if x < dist.length then .ok (s.1, s.2.set j (dist.getD x 0)) else .error .index

/-- `weighted_samples(nodes, values)` (discrete_dag.py:256-295) for nodes that are numbers, and values that are not negative;
`n` is the number of columns. The labels are used as columns in line 259, the last value counts if a label is repeated. -/
noncomputable def weightedSamples (D : DiscreteDAG ℕ) (ot : SetOrder (Option ℕ) ℕ) (n : ℕ) (ix : ℕ → ℕ) (u : ℕ → ℝ)
    (nodes : List ℕ) (values : List ℕ) : Run ℕ ((ℕ → ℤ) × List ℝ≥0) := do
  if ∃ v ∈ nodes, n ≤ v then throw .index
  if nodes.length ≠ values.length then throw .value
  let row := (nodes.zip values).foldl (fun r p => Function.update r p.1 (p.2 : ℤ)) (fun _ => (0 : ℤ))
  let t ← D.dag.topologicalSort ot
  t.foldlM (fun s v => (ExceptT.mk (some (D.weightedStep ix u nodes values s v)) : Run ℕ ((ℕ → ℤ) × List ℝ≥0)))
    (row, nodes.map fun _ => 0)

/-- The value drawn for a node (discrete_dag.py:307-318): a value of the alphabet. -/
noncomputable def drawAlphabet (D : DiscreteDAG α) (ix : α → ℕ) (u : α → ℝ) (row : ℕ → ℤ) (v : α) : Except (Exn α) ℤ :=
  if D.pars v = [] then npChoice (D.alph v) (D.cond v) (u v)
  else
    match npRow (D.cond v) ((D.pars v).map fun p => row (ix p)) with
    | .error e => .error e
    | .ok dist => npChoice (D.alph v) ⟨[dist.length], fun i => dist.getD (i.headD 0) 0⟩ (u v)

/-- The body of the loop of `sample_interventional` (discrete_dag.py:302-319). In line 306 the dictionary is indexed with the column
instead of the node. -/
noncomputable def intervenedStep (D : DiscreteDAG ℕ) (ix : ℕ → ℕ) (u : ℕ → ℝ) (iv : ℕ → Option ℤ) (row : ℕ → ℤ) (v : ℕ) :
    Except (Exn ℕ) (ℕ → ℤ) :=
  if (iv v).isSome then
    match iv (ix v) with
    | none => .error .key
    | some x => .ok (Function.update row (ix v) x)
  else
    match D.drawAlphabet ix u row v with
    | .error e => .error e
    | .ok x => .ok (Function.update row (ix v) x)

/-- `sample_interventional(nodes2intervention_values)` (discrete_dag.py:297-321); `iv` is the row of the dictionary with the keys
`targets`. -/
noncomputable def sampleInterventional (D : DiscreteDAG ℕ) (ot : SetOrder (Option ℕ) ℕ) (ix : ℕ → ℕ) (u : ℕ → ℝ)
    (targets : Finset ℕ) (values : ℕ → ℤ) : Run ℕ (ℕ → ℤ) := do
  if targets = ∅ then throw .index
  let t ← D.dag.topologicalSort ot
  t.foldlM (fun row v => (ExceptT.mk (some (D.intervenedStep ix u (fun k => if k ∈ targets then some (values k) else none) row v)) :
    Run ℕ (ℕ → ℤ))) (fun _ => 0)

/-- `np.array([1 if v == value else 0 for v in alphabet])` (discrete_dag.py:334). -/
def pointMass (alphabet : List ℤ) (value : ℤ) : Tensor ℝ≥0 :=
  ⟨[alphabet.length], fun i => if alphabet.getD (i.headD 0) 0 = value then 1 else 0⟩

/-- `get_hard_interventional_dag` (discrete_dag.py:331-349). -/
def hardInterventional (D : DiscreteDAG α) (o : SetOrder (Option α) α) (oa : SetOrder Bool (α × α)) (target : α)
    (value : ℤ) : Option (Except (Exn α) (DiscreteDAG α)) :=
  DiscreteDAG.new o oa D.dag.nodes (D.dag.arcs.filter fun a => a.2 ≠ target)
    (fun v => if v ≠ target then D.cond v else pointMass (D.alph target) value) (fun v => if v = target then [] else D.pars v) D.alph

end DiscreteDAG

end Model
