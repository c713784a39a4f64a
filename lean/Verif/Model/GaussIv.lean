import Verif.Model.GaussMoments

/-!
# `gaussdag.py`: copies and interventional graphs

`self._nodes` is a set of labels, so its order of iteration matters: `on` orders it. The functions below use it as the node list of
a new graph. It has as many elements as the node list; for graphs where it has not, the model gives `none` (those are not
reached by the constructor with distinct nodes).
-/

namespace Model.Gauss

variable {n : ℕ} {K : Type} [Field K] [DecidableEq K]

/-- `arc_weights` (gaussdag.py:331-332): the labels are used as indices. `oe` orders the set of arcs. -/
def arcWeights (oe : SetOrder Unit (ℕ × ℕ)) (G : Gauss n K) : Except (Exn ℕ) (List ((ℕ × ℕ) × K)) :=
  match (oe.ord () G.dag.arcs).mapM fun e =>
    match at? n e.1, at? n e.2 with
    | some a, some b => some (e, G.weight a b)
    | _, _ => none with
  | some l => .ok l
  | none => .error .index

/-- `GaussDAG(nodes=self._nodes, arcs=arcs, biases=biases, variances=variances)`. -/
def rebuild (on : SetOrder Unit ℕ) (oa : SetOrder Bool (ℕ × ℕ)) (G : Gauss n K) (arcs : List ((ℕ × ℕ) × K))
    (biases variances : Fin n → K) : Option (Except (Exn ℕ) (Gauss n K)) :=
  if h : (on.ord () G.dag.nodes).length = n then
    match new oa (fun a => (on.ord () G.dag.nodes).get (a.cast h.symm)) arcs biases variances with
    | (H, none) => some (.ok H)
    | (_, some e) => some (.error e)
  else none

/-- `copy()` (gaussdag.py:71-72). -/
def copy (on : SetOrder Unit ℕ) (oe : SetOrder Unit (ℕ × ℕ)) (oa : SetOrder Bool (ℕ × ℕ)) (G : Gauss n K) :
    Option (Except (Exn ℕ) (Gauss n K)) :=
  match G.arcWeights oe with
  | .error e => some (.error e)
  | .ok arcs => G.rebuild on oa arcs G.biases G.variances

/-- The list comprehensions for the biases and variances (gaussdag.py:729-730, 738-739): `arr[node] if node not in interventions
else interventions[node][·]` for the nodes in the order of the set. -/
def replaced (nodes : List ℕ) (arr : Fin n → K) (iv : ℕ → Option K) : Except (Exn ℕ) (List K) :=
  match nodes.mapM fun v =>
    match iv v with
    | some x => some x
    | none => (at? n v).map arr with
  | some l => .ok l
  | none => .error .index

/-- The end of `interventional_dag` and `soft_interventional_dag`. -/
def rebuildWith (on : SetOrder Unit ℕ) (oa : SetOrder Bool (ℕ × ℕ)) (G : Gauss n K) (arcs : List ((ℕ × ℕ) × K))
    (bias variance : ℕ → Option K) : Option (Except (Exn ℕ) (Gauss n K)) :=
  match replaced (on.ord () G.dag.nodes) G.biases bias, replaced (on.ord () G.dag.nodes) G.variances variance with
  | .ok b, .ok v =>
      if h : b.length = n ∧ v.length = n then
        G.rebuild on oa arcs (fun a => b.get (a.cast h.1.symm)) (fun a => v.get (a.cast h.2.symm))
      else none
  | .error e, _ => some (.error e)
  | _, .error e => some (.error e)

/-- `interventional_dag(interventions)` (gaussdag.py:727-731); an intervention is a pair of mean and variance. -/
def interventionalDag (on : SetOrder Unit ℕ) (oe : SetOrder Unit (ℕ × ℕ)) (oa : SetOrder Bool (ℕ × ℕ)) (G : Gauss n K)
    (iv : ℕ → Option (K × K)) : Option (Except (Exn ℕ) (Gauss n K)) :=
  match G.arcWeights oe with
  | .error e => some (.error e)
  | .ok arcs => G.rebuildWith on oa (arcs.filter fun e => (iv e.1.2).isNone) (fun v => (iv v).map Prod.fst) (fun v => (iv v).map Prod.snd)

/-- `interventions[j][i]` in `soft_interventional_dag` (gaussdag.py:735), where the label `i` of a parent is used as an index of
the triple. An array (of more than one number) as a weight raises `ValueError` later, in the constructor (simplified: at once; an `IndexError` at another
arc would come first). -/
def tripleAt (t : K × K × (ℕ → K)) : ℕ → Except (Exn ℕ) K
  | 0 => .ok t.1
  | 1 => .ok t.2.1
  | 2 => .error .value
  | _ => .error .index

/-- `soft_interventional_dag(interventions)` (gaussdag.py:733-740); an intervention is a triple of bias, variance and weights of the
arcs from the parents. -/
def softInterventionalDag (on : SetOrder Unit ℕ) (oe : SetOrder Unit (ℕ × ℕ)) (oa : SetOrder Bool (ℕ × ℕ)) (G : Gauss n K)
    (iv : ℕ → Option (K × K × (ℕ → K))) : Option (Except (Exn ℕ) (Gauss n K)) :=
  match G.arcWeights oe with
  | .error e => some (.error e)
  | .ok arcs =>
      match arcs.mapM fun e => (match iv e.1.2 with
        | none => .ok e
        | some t => (tripleAt t e.1.1).map fun w => (e.1, w) : Except (Exn ℕ) ((ℕ × ℕ) × K)) with
      | .error e => some (.error e)
      | .ok arcs' => G.rebuildWith on oa arcs' (fun v => (iv v).map Prod.fst) (fun v => (iv v).map fun t => t.2.1)

/-- The loop of `deterministic_intervention_means` (gaussdag.py:301-307). -/
def doMeansLoop (G : Gauss n K) (op : SetOrder ℕ ℕ) (iv : ℕ → Option K) : List (Fin n) → (Fin n → K) → Except (Exn ℕ) (Fin n → K)
  | [], m => .ok m
  | i :: l, m =>
      match iv i with
      | some x => doMeansLoop G op iv l (Function.update m i x)
      | none =>
          match (op.ord i (G.dag.parents i)).mapM G.ix with
          | none => .error .key
          | some ps => doMeansLoop G op iv l (Function.update m i ((ps.map fun p => G.weight p i * m p).sum + G.biases i))

/-- `deterministic_intervention_means(intervention)` (gaussdag.py:296-308). -/
def doMeans (G : Gauss n K) (op : SetOrder ℕ ℕ) (iv : ℕ → Option K) : Except (Exn ℕ) (Fin n → K) :=
  G.doMeansLoop op iv (List.finRange n) 0

/-- `interventional_covariance(intervened_nodes)` (gaussdag.py:714-725). `id_ - a` subtracts a matrix with a row for each remaining
node from the identity matrix with a row for each node: `ValueError` unless all nodes remain or exactly one (broadcasting a 1 × 1
matrix to all entries). In the latter case the result has a row for each node. -/
noncomputable def interventionalCovariance (on : SetOrder Unit ℕ) (G : Gauss n K) (intervened : Finset ℕ) :
    Except (Exn ℕ) (Matrix (Fin n) (Fin n) K) :=
  let remaining := (on.ord () G.dag.nodes).filter fun v => v ∉ intervened
  match remaining.mapM (at? n) with
  | none => .error .index
  | some l =>
      let diff : Except (Exn ℕ) (Matrix (Fin n) (Fin n) K) :=
        if h : l.length = n then .ok (1 - G.weight.submatrix (fun a => l.get (a.cast h.symm)) fun a => l.get (a.cast h.symm))
        else if h : l.length = 1 then .ok (1 - Matrix.of fun _ _ => G.weight (l.get ⟨0, h ▸ Nat.one_pos⟩) (l.get ⟨0, h ▸ Nat.one_pos⟩))
        else .error .value
      match diff with
      | .error e => .error e
      | .ok d =>
          match invOrRaise d with
          | .error e => .error e
          | .ok m => .ok (if ∀ a, G.variances a = 1 then m.transpose * m else m.transpose * Matrix.diagonal G.variances * m)

end Model.Gauss
