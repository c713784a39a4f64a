import Verif.Model.Discrete

/-!
# `graphical_models/rand/graphs.py`: random discrete models, random weights and networks

The random draws are arguments.
-/

namespace Model

open scoped NNReal

/-- `DiscreteDAG(list(range(n)), arcs, cond, pars, alph)` (discrete_dag.py:202-224) where `pars` has the keys `keys` and `alph` the keys
`labels`. -/
def discreteOnRange (o : SetOrder (Option ℕ) ℕ) (oa : SetOrder Bool (ℕ × ℕ)) (n : ℕ) (arcs : Finset (ℕ × ℕ)) (keys labels : Finset ℕ)
    (cond : ℕ → Tensor ℝ≥0) (pars : ℕ → List ℕ) (alph : ℕ → List ℤ) : Option (Except (Exn ℕ) (DiscreteDAG ℕ)) :=
  match DAG.new o oa (Finset.range n) arcs with
  | none => none
  | some (_, some e) => some (.error e)
  | some (G, none) =>
      if ∃ v ∈ keys, ∃ p ∈ pars v ++ [v], p ∉ labels then some (.error .key)
      else if ∀ v ∈ keys, (cond v).shape = (pars v ++ [v]).map fun p => (alph p).length then some (.ok ⟨G, cond, pars, alph⟩)
      else some (.error .assertion)

/-- `rand_discrete_dag` (graphs.py:163-189). `draw v z` is the probability vector drawn for the node `v` and the values `z` of its
parents; `alphabets` is a dictionary with all nodes as keys. `op` orders the sets of parents. -/
def randDiscreteDag (o : SetOrder (Option ℕ) ℕ) (oa : SetOrder Bool (ℕ × ℕ)) (op : SetOrder ℕ ℕ) (G : DAG ℕ)
    (alphabets : Option (ℕ → List ℤ)) (draw : ℕ → List ℕ → ℕ → ℝ≥0) : Option (Except (Exn ℕ) (DiscreteDAG ℕ)) :=
  let alph := alphabets.getD fun _ => [0, 1, 2]
  let pars := fun v => op.ord v (G.parents v)
  let cond := fun v => ⟨(pars v).map (fun p => (alph p).length) ++ [(alph v).length], fun idx => draw v idx.dropLast (idx.getLastD 0)⟩
  discreteOnRange o oa G.nodes.card G.arcs G.nodes G.nodes cond pars alph

/-- `np.tensordot(t, vec, axes=0)` for a vector. -/
def tensordot (t vec : Tensor ℝ≥0) : Tensor ℝ≥0 := ⟨t.shape ++ vec.shape, fun idx => t.val idx.dropLast * vec.val [idx.getLastD 0]⟩

/-- `tensor_product(vecs)` (graphs.py:192-197) for a nonempty list of vectors. -/
def tensorProduct : List (Tensor ℝ≥0) → Tensor ℝ≥0
  | [] => ⟨[], fun _ => 1⟩
  | v :: l => l.foldl tensordot v

/-- The table of a node in `rand_noisy_or_dag` (graphs.py:206-218): `q` is `q_j`, `ps` are `parent_params`, `r` is the number drawn for
a node without parents. Negative numbers, which occur if the bounds are above one, are zero here. -/
def noisyOrTable (q r : ℝ≥0) (ps : List ℝ≥0) : Tensor ℝ≥0 :=
  let prob0 : Tensor ℝ≥0 :=
    if ps = [] then ⟨[], fun _ => r * q⟩
    else
      let t := tensorProduct (ps.map fun p => ⟨[2], fun idx => if idx = [0] then 1 else p⟩)
      ⟨t.shape, fun idx => t.val idx * q⟩
  ⟨prob0.shape ++ [2], fun idx => if idx.getLastD 0 = 0 then prob0.val idx.dropLast else 1 - prob0.val idx.dropLast⟩

/-- `rand_noisy_or_dag` (graphs.py:200-229); `q v`, `r v` and `p v` are the numbers drawn for the node `v`. -/
def randNoisyOrDag (o : SetOrder (Option ℕ) ℕ) (oa : SetOrder Bool (ℕ × ℕ)) (op : SetOrder ℕ ℕ) (G : DAG ℕ) (q r : ℕ → ℝ≥0)
    (p : ℕ → ℕ → ℝ≥0) : Option (Except (Exn ℕ) (DiscreteDAG ℕ)) :=
  let pars := fun v => op.ord v (G.parents v)
  let cond := fun v => noisyOrTable (q v) (r v) ((List.range (pars v).length).map (p v))
  discreteOnRange o oa G.nodes.card G.arcs G.nodes (Finset.range G.nodes.card) cond pars fun _ => [0, 1]

/-! ### Random numbers -/

/-- `unif_away_zero` (graphs.py:28-32), one number: `coin` is the result of the coin, `u` of `np.random.uniform(low, high)`. -/
def unifAwayZero (allPositive coin : Bool) (u : ℝ) : ℝ := if allPositive then u else ((if coin then 1 else 0) - 0.5) * 2 * u

/-- The list `regions` in `unif_away_original` (graphs.py:39-51). -/
noncomputable def regions (original dist low high : ℝ) : List (ℝ × ℝ) :=
  if original < 0 then
    [(low, high)] ++ (if original - dist ≥ -high then [(-high, original - dist)] else []) ++
      if original + dist ≤ -low then [(original + dist, -low)] else []
  else
    [(-high, -low)] ++ (if original + dist ≤ high then [(original + dist, high)] else []) ++
      if original - dist ≥ low then [(low, original - dist)] else []

/-- `unif_away_original` (graphs.py:35-53): `k` is the number of the region drawn, `u` a number from the interval `[0, 1]` with which
`np.random.uniform` is computed. The `ValueError` of `random.choices` if all regions have length zero is not modelled. -/
noncomputable def unifAwayOriginal (original dist low high : ℝ) (k : ℕ) (u : ℝ) : Except (Exn ℕ) ℝ :=
  if dist < low then .error .value
  else
    match (regions original dist low high)[k]? with
    | none => .error .index
    | some (a, b) => .ok (a + (b - a) * u)

/-! ### Networks

Only the shapes of the arrays are modelled. -/

/-- `vals = a @ vals` for a `p × p` matrix and an array of shape `s` with two axes. -/
def matmulShape (p : ℕ) (s : ℕ × ℕ) : Except (Exn ℕ) (ℕ × ℕ) := if p = s.1 then .ok (p, s.2) else .error .value

/-- `samples[:, ix] = vals` for an array of shape `s` with two axes and `k` rows of samples: leading axes of length one are dropped,
then an axis of length one is stretched. -/
def assignColumn (k : ℕ) (s : ℕ × ℕ) : Except (Exn ℕ) Unit := if s.1 = 1 ∧ (s.2 = 1 ∨ s.2 = k) then .ok () else .error .value

/-- The result of `rand_nn_functions(dag, num_layers)` (graphs.py:252-274): the graph, and for each node the number of rows and columns of
the matrices that its function uses. The name `layer_mats` in the function `conditional` means the matrices of the node that came
last in the loop. -/
structure Network where
  dag : DAG ℕ
  size : ℕ → ℕ
  layers : ℕ

/-- `rand_nn_functions(dag, num_layers)` (graphs.py:252-274); `on` orders the set of nodes. -/
def randNnFunctions (o : SetOrder (Option ℕ) ℕ) (oa : SetOrder Bool (ℕ × ℕ)) (on : SetOrder Unit ℕ) (G : DAG ℕ) (layers : ℕ) :
    Option (Except (Exn ℕ) Network) :=
  match DAG.new o oa G.nodes G.arcs with
  | none => none
  | some (_, some e) => some (.error e)
  | some (H, none) => some (.ok ⟨H, fun _ => (G.parents ((on.ord () G.nodes).getLastD 0)).card, layers⟩)

/-- One step of the loop in `sample(k)` (sample_dag.py:29-32) for a node whose function is that of graphs.py:264-269. -/
def Network.visit (N : Network) (k v : ℕ) : Except (Exn ℕ) Unit := do
  let s ← (List.range N.layers).foldlM (fun s _ => matmulShape (N.size v) s) (k, (N.dag.parents v).card)
  assignColumn k s

/-- `sample(k)` (sample_dag.py:26-33). -/
def Network.sample (o : SetOrder (Option ℕ) ℕ) (N : Network) (k : ℕ) : Option (Except (Exn ℕ) Unit) :=
  match (N.dag.topologicalSort o).run with
  | none => none
  | some (.error e) => some (.error e)
  | some (.ok t) => some (t.forM (N.visit k))

end Model
