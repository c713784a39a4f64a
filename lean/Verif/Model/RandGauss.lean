import Verif.Model.GaussIv

/-! # `graphical_models/rand/graphs.py`: random Gaussian models -/

namespace Model

variable {n : ℕ} {K : Type} [Field K] [DecidableEq K]

/-- The dictionary `arcs` of `rand_normal_wishart` (graphs.py:238-245): `weights v` are the numbers drawn for the node `v`, of which the
last one is the bias. -/
def wishartArcs (op : SetOrder ℕ ℕ) (G : DAG ℕ) (weights : ℕ → List K) (nodes : List ℕ) : List ((ℕ × ℕ) × K) :=
  nodes.flatMap fun v => ((op.ord v (G.parents v)).zip (weights v).dropLast).map fun e => ((e.1, v), e.2)

/-- `rand_normal_wishart` (graphs.py:232-246). The two lists made from the set of nodes are equal; `on` orders the set. `weights v` and
`variance v` are drawn for the node `v`. -/
def randNormalWishart (on : SetOrder Unit ℕ) (op : SetOrder ℕ ℕ) (oa : SetOrder Bool (ℕ × ℕ)) (G : DAG ℕ) (weights : ℕ → List K)
    (variance : ℕ → K) : Gauss.Step (on.ord () G.nodes).length K :=
  let nodes := on.ord () G.nodes
  Gauss.new oa nodes.get (wishartArcs op G weights nodes) (fun a => (weights (nodes.get a)).getLastD 0) fun a => variance (nodes.get a)

/-- `random.sample(l, k)` for a list without repetitions that has at least `k` members. -/
structure Draw where
  take : {β : Type} → List β → ℕ → List β
  nodup : ∀ {β : Type} {l : List β} (k : ℕ), l.Nodup → (take l k).Nodup
  subset : ∀ {β : Type} {l : List β} (k : ℕ), take l k ⊆ l
  length : ∀ {β : Type} {l : List β} {k : ℕ}, k ≤ l.length → (take l k).length = k

/-- A number and a probability, of which one should be given. -/
structure Amount where
  num : Option ℕ
  prob : Option K

namespace Gauss

/-- A loop with calls of `set_arc_weight`. -/
def setEach (o : SetOrder (Option ℕ) ℕ) : List ((ℕ × ℕ) × K) → Gauss n K → Option (Step n K)
  | [], G => some (G, none)
  | e :: l, G =>
      match G.setArcWeight o e.1.1 e.1.2 e.2 with
      | some (G', none) => setEach o l G'
      | r => r

/-- The last part of `alter_weights` (graphs.py:510-522) for the given arcs. -/
def alterCopy (on : SetOrder Unit ℕ) (oe : SetOrder Unit (ℕ × ℕ)) (oa : SetOrder Bool (ℕ × ℕ)) (o : SetOrder (Option ℕ) ℕ)
    (G : Gauss n K) (altered removed added : List (ℕ × ℕ)) (change : ℕ × ℕ → K → K) (weights : List K) :
    Option (Except (Exn ℕ) (Gauss n K)) :=
  match G.copy on oe oa, G.arcWeights oe with
  | some (.ok H), .ok w =>
      match altered.mapM fun e => (w.find? fun x => x.1 = e).map fun x => (e, change e x.2) with
      | none => some (.error .key)
      | some l =>
          match setEach o l H with
          | none => none
          | some (_, some e) => some (.error e)
          | some (H1, none) =>
              match forEach (fun H e => H.removeArc e.1 e.2) removed H1 with
              | (_, some e) => some (.error e)
              | (H2, none) =>
                  match setEach o (added.zip weights) H2 with
                  | none => none
                  | some (_, some e) => some (.error e)
                  | some (H3, none) => some (.ok H3)
  | some (.ok _), .error e => some (.error e)
  | r, _ => r

/-- `alter_weights` (graphs.py:450-522). `change` is `rand_change_fn` and may be random, `weights` is the result of `rand_weight_fn`. The
lines that draw the numbers with `np.random.binomial` are not reached without a number. -/
def alterWeights (on : SetOrder Unit ℕ) (oe : SetOrder Unit (ℕ × ℕ)) (oa : SetOrder Bool (ℕ × ℕ)) (o : SetOrder (Option ℕ) ℕ) (d : Draw)
    (G : Gauss n K) (altered added removed : Amount (K := K)) (change : ℕ × ℕ → K → K) (weights : List K) :
    Option (Except (Exn ℕ) (Gauss n K)) :=
  if altered.num = none ∧ altered.prob = none then some (.error .value)
  else if added.num = none ∧ added.prob = none then some (.error .value)
  else if removed.num = none ∧ removed.prob = none then some (.error .value)
  else
    match altered.num, removed.num with
    | some na, some nr =>
        if na + nr > G.dag.arcs.card then some (.error .value)
        else
          match added.num with
          | none => some (.error .type)
          | some nd =>
              if (nd : ℤ) > (n.choose 2 : ℤ) - G.dag.arcs.card then some (.error .value)
              else
                let alt := d.take (oe.ord () G.dag.arcs) na
                let rem := d.take (oe.ord () (G.dag.arcs \ alt.toFinset)) (min nr (G.dag.arcs.card - na))
                match (G.dag.topologicalSort o).run with
                | none => none
                | some (.error e) => some (.error e)
                | some (.ok t) =>
                    let add := d.take (oe.ord () ((DAG.pairs t).toFinset \ G.dag.arcs)) nd
                    G.alterCopy on oe oa o alt rem add change weights
    | _, _ => some (.error .type)

end Gauss

end Model
