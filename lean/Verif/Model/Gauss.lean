import Verif.Model.Sampling
import Mathlib.LinearAlgebra.Matrix.NonsingularInverse

/-!
# `graphical_models/classes/dags/gaussdag.py`

Floating point numbers are elements of a field `K` (exact arithmetic). Node labels are natural numbers, because several
methods use labels as matrix indices; an object with `n` entries in its node list has `n × n` matrices. Methods that change
the number of nodes are not modelled.
-/

namespace Model

variable {K : Type}

/-- gaussdag.py:44-56: the graph part (inherited from `DAG`), `_node_list`, `_weight_mat`, `_variances`, `_biases`,
`_precision`, `_covariance`, `_correlation`. -/
structure Gauss (n : ℕ) (K : Type) where
  dag : DAG ℕ
  names : Fin n → ℕ
  weight : Matrix (Fin n) (Fin n) K
  variances : Fin n → K
  biases : Fin n → K
  precision : Option (Matrix (Fin n) (Fin n) K)
  covariance : Option (Matrix (Fin n) (Fin n) K)
  correlation : Option (Matrix (Fin n) (Fin n) K)

namespace Gauss

variable {n : ℕ}

/-- `self._node2ix.get(v)` (core_utils.py:51-52): the last position of `v` in the node list. -/
def ix (G : Gauss n K) (v : ℕ) : Option (Fin n) := lastIx G.names v

/-- A label used as an index of an array of length `n`; negative labels do not occur. -/
def at? (n v : ℕ) : Option (Fin n) := if h : v < n then some ⟨v, h⟩ else none

/-- State and exception after a call. -/
abbrev Step (n : ℕ) (K : Type) := Gauss n K × Option (Exn ℕ)

section Mutators

variable [Field K] [DecidableEq K]

/-- `W[a, b] = val` -/
def setEntry (W : Matrix (Fin n) (Fin n) K) (a b : Fin n) (val : K) : Matrix (Fin n) (Fin n) K :=
  Matrix.of fun x y => if x = a ∧ y = b then val else W x y

/-- `set_arc_weight(i, j, 0)` (gaussdag.py:242-246), also `remove_arc` (gaussdag.py:445). -/
def removeArc (G : Gauss n K) (i j : ℕ) : Step n K :=
  match G.ix i, G.ix j with
  | some a, some b =>
      let G1 := { G with weight := setEntry G.weight a b 0 }
      if (i, j) ∈ G1.dag.arcs then
        match DAG.removeArc false G1.dag i j with
        | (d, e) => ({ G1 with dag := d }, e)
      else (G1, none)
  | _, _ => (G, some .key)

/-- `set_arc_weight` (gaussdag.py:242-246). `super().add_arc(i, j)` is dag.py:804-819 with the default `check_acyclic=True`;
its rollback calls the overridden `remove_arc`, i.e. `set_arc_weight(i, j, 0)`. The caches are left alone. -/
def setArcWeight (o : SetOrder (Option ℕ) ℕ) (G : Gauss n K) (i j : ℕ) (val : K) : Option (Step n K) :=
  if val = 0 then some (G.removeArc i j)
  else
    match G.ix i, G.ix j with
    | some a, some b =>
        let G1 := { G with weight := setEntry G.weight a b val }
        if (i, j) ∉ G1.dag.arcs then
          let G2 := { G1 with dag := DAG.addArcUnchecked G1.dag i j }
          match (DAG.topologicalSort G2.dag o).run with
          | none => none
          | some (.ok _) => some (G2, none)
          | some (.error (.cycle l)) =>
              match G2.removeArc i j with
              | (G3, some e) => some (G3, some e)
              | (G3, none) => some (G3, some (.cycle l))
          | some (.error e) => some (G2, some e)
        else some (G1, none)
    | _, _ => some (G, some .key)

/-- Sequencing over a list, left at the first exception. -/
def forEach {β : Type} (body : Gauss n K → β → Step n K) : List β → Gauss n K → Step n K
  | [], G => (G, none)
  | x :: l, G =>
      match body G x with
      | (G', some e) => (G', some e)
      | (G', none) => forEach body l G'

/-- `self._weight_mat[rows, cols] = ws` (gaussdag.py:256); `none` is the `KeyError` of the index lookup before anything has
been changed. -/
def putWeights (G : Gauss n K) : List ((ℕ × ℕ) × K) → Matrix (Fin n) (Fin n) K → Option (Matrix (Fin n) (Fin n) K)
  | [], W => some W
  | e :: l, W =>
      match G.ix e.1.1, G.ix e.1.2 with
      | some a, some b => putWeights G l (setEntry W a b e.2)
      | _, _ => none

/-- `set_arc_weights` (gaussdag.py:248-260) for a dictionary given by its items. `remove_arcs_from` calls the overridden
`remove_arc`; `super().add_arcs_from` (dag.py:844-857) does not check for cycles by default; `oa` orders the set it builds. -/
def setArcWeights (oa : SetOrder Bool (ℕ × ℕ)) (G : Gauss n K) (arcs : List ((ℕ × ℕ) × K)) : Step n K :=
  if arcs.length = 0 then (G, none)
  else
    match putWeights G arcs G.weight with
    | none => (G, some .key)
    | some W =>
        match forEach (fun G (e : (ℕ × ℕ) × K) => G.removeArc e.1.1 e.1.2) (arcs.filter fun e => e.2 = 0)
            { G with weight := W } with
        | (G', some e) => (G', some e)
        | (G', none) =>
            let add := ((arcs.filter fun e => e.2 ≠ 0).map Prod.fst).toFinset
            if add.card = 0 then (G', none)
            else ({ G' with dag := DAG.addArcsUnchecked G'.dag (oa.ord false add) }, none)

/-- The constructor with a dictionary of weights (gaussdag.py:37-60); a set of arcs is the dictionary with all weights 1.
`DAG.__init__` calls the overridden `add_arcs_from`, i.e. `set_arc_weights`, which does not check for cycles. -/
def new (oa : SetOrder Bool (ℕ × ℕ)) (names : Fin n → ℕ) (arcs : List ((ℕ × ℕ) × K)) (biases variances : Fin n → K) :
    Step n K :=
  let G0 : Gauss n K :=
    { dag := DAG.empty (Finset.univ.image names), names := names, weight := 0, variances := variances, biases := biases
      precision := none, covariance := none, correlation := none }
  match setArcWeights oa G0 arcs with
  | (G, some e) => (G, some e)
  | (G, none) =>
      match putWeights G arcs G.weight with
      | none => (G, some .key)
      | some W => ({ G with weight := W }, none)

/-- `add_arc` (gaussdag.py:429). -/
def addArc (o : SetOrder (Option ℕ) ℕ) (G : Gauss n K) (i j : ℕ) : Option (Step n K) := G.setArcWeight o i j 1

/-- `set_node_variance` (gaussdag.py:284): the label is the index. -/
def setNodeVariance (G : Gauss n K) (i : ℕ) (var : K) : Step n K :=
  match at? n i with
  | some a => ({ G with variances := Function.update G.variances a var }, none)
  | none => (G, some .index)

/-- `set_node_bias` (gaussdag.py:263). -/
def setNodeBias (G : Gauss n K) (i : ℕ) (b : K) : Step n K :=
  match at? n i with
  | some a => ({ G with biases := Function.update G.biases a b }, none)
  | none => (G, some .index)

end Mutators

section Moments

variable [Field K] [DecidableEq K]

/-- `_ensure_precision` (gaussdag.py:566-573) and `precision` (344-346): the matrix and the object afterwards. -/
def readPrecision (G : Gauss n K) : Matrix (Fin n) (Fin n) K × Gauss n K :=
  match G.precision with
  | some P => (P, G)
  | none =>
      let a := G.weight
      let P := if ∀ i, G.variances i = 1 then (1 - a) * (1 - a).transpose
        else (1 - a) * Matrix.diagonal (fun i => (G.variances i)⁻¹) * (1 - a).transpose
      (P, { G with precision := some P })

/-- `_ensure_covariance` (gaussdag.py:575-584) and `covariance` (349-351). `inv` raises `LinAlgError` (a `ValueError`) on
singular matrices. -/
noncomputable def readCovariance (G : Gauss n K) : Except (Exn ℕ) (Matrix (Fin n) (Fin n) K × Gauss n K) :=
  match G.covariance with
  | some S => .ok (S, G)
  | none =>
      let a := G.weight
      if (1 - a).det = 0 then .error .value
      else
        let m := (1 - a)⁻¹
        let S := if ∀ i, G.variances i = 1 then m.transpose * m
          else m.transpose * Matrix.diagonal G.variances * m
        .ok (S, { G with covariance := some S })

/-- `means` (gaussdag.py:290-294), the loop over `i in range(nnodes)`: the parents of the node labelled `i` are looked up,
the mean is stored at position `i`. -/
def meansLoop (G : Gauss n K) (op : SetOrder ℕ ℕ) : List (Fin n) → (Fin n → K) → Except (Exn ℕ) (Fin n → K)
  | [], m => .ok m
  | i :: l, m =>
      match (op.ord i (G.dag.parents i)).mapM G.ix with
      | none => .error .key
      | some ps => meansLoop G op l
          (Function.update m i ((ps.map fun p => G.weight p i * m p).sum + G.biases i))

/-- `means` (gaussdag.py:290-294). -/
def means (G : Gauss n K) (op : SetOrder ℕ ℕ) : Except (Exn ℕ) (Fin n → K) :=
  G.meansLoop op (List.finRange n) 0

/-- `direct_effects` (gaussdag.py:140-147). -/
def directEffects (G : Gauss n K) : Matrix (Fin n) (Fin n) K :=
  ((List.range n).foldl (fun (s : Matrix (Fin n) (Fin n) K × Matrix (Fin n) (Fin n) K) _ =>
    (s.1 + s.2, s.2 * G.weight)) (0, G.weight)).1

end Moments

section Sampling

variable [Field K] {M : Type} [AddCommGroup M] [Module K M]

/-- The loop over the topological order in `sample` (gaussdag.py:608-616), for given noise; `op` orders the sets of parents.
The weights are taken from the column whose index is the label of the node. -/
def sampleLoop (G : Gauss n K) (op : SetOrder ℕ ℕ) (noise : Fin n → M) :
    List ℕ → (Fin n → M) → Except (Exn ℕ) (Fin n → M)
  | [], x => .ok x
  | v :: t, x =>
      match G.ix v with
      | none => .error .key
      | some a =>
          if (G.dag.parents v).card ≠ 0 then
            match (op.ord v (G.dag.parents v)).mapM G.ix with
            | none => .error .key
            | some ps =>
                match at? n v with
                | none => .error .index
                | some c => sampleLoop G op noise t
                    (Function.update x a ((ps.map fun p => G.weight p c • x p).sum + noise a))
          else sampleLoop G op noise t (Function.update x a (noise a))

/-- `sample` (gaussdag.py:602-617). One column of samples is an element of a vector space: `K` for one observation, `K^N`
for `N` observations, a space of random variables for the distribution of one observation. The draws from
`np.random.normal` are the argument `noise`. -/
def sample (G : Gauss n K) (o : SetOrder (Option ℕ) ℕ) (op : SetOrder ℕ ℕ) (noise : Fin n → M) :
    Option (Except (Exn ℕ) (Fin n → M)) :=
  match (DAG.topologicalSort G.dag o).run with
  | none => none
  | some (.error e) => some (.error e)
  | some (.ok t) => some (G.sampleLoop op noise t 0)

/-- The loop of `deterministic_intervention_counterfactuals` (gaussdag.py:316-323). -/
def counterLoop (G : Gauss n K) (op : SetOrder ℕ ℕ) (intervention : ℕ → Option M) (noise : Fin n → M) :
    List ℕ → (Fin n → M) → Except (Exn ℕ) (Fin n → M)
  | [], x => .ok x
  | v :: t, x =>
      match G.ix v with
      | none => .error .key
      | some a =>
          match intervention v with
          | some m => counterLoop G op intervention noise t (Function.update x a m)
          | none =>
              match (op.ord v (G.dag.parents v)).mapM G.ix with
              | none => .error .key
              | some ps =>
                  match at? n v with
                  | none => .error .index
                  | some c => counterLoop G op intervention noise t
                      (Function.update x a ((ps.map fun p => G.weight p c • x p).sum + noise a))

/-- `deterministic_intervention_counterfactuals` (gaussdag.py:311-325): `samples @ (1 - W)` is the noise. -/
def counterfactuals (G : Gauss n K) (o : SetOrder (Option ℕ) ℕ) (op : SetOrder ℕ ℕ) (samples : Fin n → M)
    (intervention : ℕ → Option M) : Option (Except (Exn ℕ) (Fin n → M)) :=
  match (DAG.topologicalSort G.dag o).run with
  | none => none
  | some (.error e) => some (.error e)
  | some (.ok t) =>
      some (G.counterLoop op intervention (fun j => ∑ i, (1 - G.weight) i j • samples i) t 0)

end Sampling

end Gauss

end Model
