import Verif.Model.GaussFactor

/-!
# `gaussdag.py`: prediction, rounding, normalisation, adding and removing nodes

Floating point numbers are real numbers or elements of a field (exact arithmetic).
-/

namespace Model.Gauss

variable {n : ℕ} {K : Type} [Field K] [DecidableEq K]

/-- `predict_from_parents` (gaussdag.py:773-778) for one row of values; `op` orders the set of parents. `@` raises a `ValueError`
if the number of values is not the number of parents. -/
def predictFromParents (op : SetOrder ℕ ℕ) (G : Gauss n K) (v : ℕ) (vals : List K) : Except (Exn ℕ) K :=
  match G.ix v, (op.ord v (G.dag.parents v)).mapM G.ix with
  | some a, some ps =>
      let coefs := ps.map fun p => G.weight p a
      if vals.length = coefs.length then .ok ((List.zipWith (· * ·) vals coefs).sum + G.biases a)
      else .error .value
  | _, _ => .error .key

/-- `cholesky_no_permutation` (gaussdag.py:26-33). `none`: a diagonal entry of the Cholesky factor has been set to zero and the
result contains NaN. -/
noncomputable def choleskyNoPermutation (m : Matrix (Fin n) (Fin n) ℝ) :
    Option (Except (Exn ℕ) (Matrix (Fin n) (Fin n) ℝ × (Fin n → ℝ))) :=
  match cholesky m with
  | .error e => some (.error e)
  | .ok l =>
      let uChol := clean l
      open Classical in
      if ∃ a, uChol a a = 0 then none
      else
        let d : Fin n → ℝ := fun a => uChol a a ^ 2
        let u : Matrix (Fin n) (Fin n) ℝ := Matrix.of fun a b => uChol a b / uChol b b
        some (.ok (1 - u, d))

/-- `normalize_weights` (gaussdag.py:203-219). The name `B` is not defined, so the first pair `i < j` with a nonzero weight raises
a `NameError` (`Exn.plain`). The result is built without node list, biases and variances. -/
noncomputable def normalizeWeights (oa : SetOrder Bool (ℕ × ℕ)) (G : Gauss n ℝ) : Except (Exn ℕ) (Gauss n ℝ × Gauss n ℝ) :=
  match G.readCovariance with
  | .error e => .error e
  | .ok (_, G1) =>
      open Classical in
      if ∃ i j : Fin n, i < j ∧ G1.weight i j ≠ 0 then .error .plain
      else
        match fromAmat oa Fin.val (0 : Matrix (Fin n) (Fin n) ℝ) 0 1 with
        | (R, none) => .ok (R, G1)
        | (_, some e) => .error e

open Classical in
/-- `np.rint`: the nearest integer, ties to the even one. -/
noncomputable def rint (x : ℝ) : ℤ :=
  if Int.fract x < 1 / 2 then ⌊x⌋
  else if 1 / 2 < Int.fract x then ⌊x⌋ + 1
  else if Even ⌊x⌋ then ⌊x⌋ else ⌊x⌋ + 1

/-- `np.around(x, decimals)` -/
noncomputable def around (decimals : ℕ) (x : ℝ) : ℝ := rint (x * 10 ^ decimals) / 10 ^ decimals

/-- `round_weights` (gaussdag.py:221-223): the result is built without node list, biases and variances. -/
noncomputable def roundWeights (oa : SetOrder Bool (ℕ × ℕ)) (decimals : ℕ) (G : Gauss n ℝ) : Step n ℝ :=
  fromAmat oa Fin.val (Matrix.of fun i j => around decimals (G.weight i j)) 0 1

/-- A `GaussDAG` whose arrays need not have matching lengths, as it is after `add_node` and `remove_node`: the graph,
`_node_list`, `_node2ix`, `_weight_mat` (size and entries, `none` is NaN), `_variances`, `_biases`. The caches are left alone by the
methods below. -/
structure Raw (K : Type) where
  dag : DAG ℕ
  names : List ℕ
  node2ix : ℕ → Option ℕ
  size : ℕ
  weight : ℕ → ℕ → Option K
  variances : List K
  biases : List K

/-- The same object. -/
def toRaw (G : Gauss n K) : Raw K where
  dag := G.dag
  names := List.ofFn G.names
  node2ix v := (G.ix v).map Fin.val
  size := n
  weight i j := if h : i < n ∧ j < n then some (G.weight ⟨i, h.1⟩ ⟨j, h.2⟩) else none
  variances := List.ofFn G.variances
  biases := List.ofFn G.biases

/-- `remove_node` (gaussdag.py:463-478). `_node2ix`, `_variances` and `_biases` are not updated; the labels of the remaining nodes
are used as indices of the weight matrix. -/
def Raw.removeNode (o : SetOrder Bool ℕ) (G : Raw K) (v : ℕ) : Raw K × Option (Exn ℕ) :=
  match G.node2ix v with
  | none => (G, some .key)
  | some k =>
      if k < G.names.length then
        let G1 := { G with names := G.names.eraseIdx k }
        if ∀ l ∈ G1.names, l < G1.size then
          let G2 := { G1 with size := G1.names.length, weight := fun i j => G1.weight (G1.names.getD i 0) (G1.names.getD j 0) }
          match DAG.removeNode false o G2.dag v with
          | (d, e) => ({ G2 with dag := d }, e)
        else (G1, some .index)
      else (G, some .index)

/-- `add_node` (gaussdag.py:447-461). -/
def Raw.addNode (G : Raw K) (v : ℕ) : Raw K :=
  let names := G.names ++ [v]
  { G with
    names := names
    size := names.length
    weight := fun i j => if i < names.length - 1 ∧ j < names.length - 1 then none else some 0 }

end Model.Gauss
