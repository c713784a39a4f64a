import Verif.Model.Sampling
import Mathlib.Analysis.Real.Sqrt

/-!
# `graphical_models/rand/graphs.py`: `rand_additive_basis`

Numbers are real numbers, arrays of `N` Monte Carlo samples are functions on `Fin N`. The basis functions act entry by entry. What is
drawn at random is a parameter: for each node the basis functions and the weights for its parents, and its noise. Where `numpy` goes
on with `inf` or `nan` the result is `none`: such numbers are not followed.
-/

namespace Model

variable {α : Type} [DecidableEq α] {N : ℕ}

/-- `np.var`. -/
noncomputable def npVar (x : Fin N → ℝ) : ℝ := (∑ j, (x j - (∑ k, x k) / N) ^ 2) / N

/-- `_cam_mean_function` (graphs.py:283-299). The base of a parent is looked up by name, its weight by position. The assertion on the number
of weights is in `additiveStep`; the other two hold wherever the function is called. -/
noncomputable def camMean (c : ℝ) (weights : List ℝ) (base : α → ℝ → ℝ) (vals : List (Fin N → ℝ)) (parents : List α) : Fin N → ℝ :=
  fun j => c * ((List.zipWith (fun p x => base p (x j)) parents vals).zipWith (· * ·) weights).sum

/-- What is drawn. -/
structure AdditiveDraws (α : Type) (N : ℕ) where
  bases : α → List (ℝ → ℝ)
  weights : α → List ℝ
  noise : α → Fin N → ℝ

/-- The coefficients found for a node, and the dictionary of bases. -/
structure AdditiveNode (α : Type) where
  c : ℝ
  b : ℝ
  weights : List ℝ
  base : α → ℝ → ℝ

/-- `dict(zip(parents, bases))[p]`; other keys are not looked up. -/
def baseOf (parents : List α) (bases : List (ℝ → ℝ)) (p : α) : ℝ → ℝ := bases.getD (parents.idxOf p) fun _ => 0

/-- `c_node`, `b_node` for a node with parents (graphs.py:371-391). `r2` is `desired_r2`; `ValueError` if `c_node` is `nan`. -/
noncomputable def additiveScale (r2 varParents varNoise : ℝ) : Except (Exn α) (Option (ℝ × ℝ)) :=
  if varParents = 0 then if r2 ≤ 0 then .error .value else .ok none
  else if r2 / varParents < 0 then .error .value
  else if varNoise = 0 ∨ (1 - r2) / varNoise < 0 then .ok none
  else .ok (some (Real.sqrt (r2 / varParents), Real.sqrt ((1 - r2) / varNoise)))

/-- `sample_dict` and the coefficients found so far. -/
structure AdditiveState (α : Type) (N : ℕ) where
  samples : α → Option (Fin N → ℝ)
  node : α → Option (AdditiveNode α)

/-- `r2_dict`, with `r2_key="nparents"` or `r2_key="node"`. -/
inductive R2Dict (α : Type) where
  | nparents (d : ℕ → Option ℝ)
  | node (d : α → Option ℝ)

/-- The lookup (graphs.py:377-380). -/
def R2Dict.get : R2Dict α → α → ℕ → Option ℝ
  | .nparents d, _, k => d k
  | .node d, v, _ => d v

/-- `r2_dict` if it is given as a float; `None` is `1/2` (graphs.py:340-343). -/
def R2Dict.const (G : DAG α) (r : ℝ) : R2Dict α := .nparents fun k => if k < G.nodes.card then some r else none

/-- The body of the loop (graphs.py:352-399). A missing key is `KeyError` (the code expects `ValueError`). -/
noncomputable def additiveStep (G : DAG α) (op : SetOrder α α) (r2 : R2Dict α) (D : AdditiveDraws α N) (s : AdditiveState α N)
    (v : α) : Except (Exn α) (Option (AdditiveState α N)) :=
  let parents := op.ord v (G.parents v)
  let base := baseOf parents (D.bases v)
  match parents.mapM s.samples with
  | none => .error .key
  | some vals =>
      let finish (c b : ℝ) (weights : List ℝ) : AdditiveState α N :=
        ⟨Function.update s.samples v (some fun j => camMean c weights base vals parents j + D.noise v j * b),
          Function.update s.node v (some ⟨c, b, weights, base⟩)⟩
      if parents.length = 0 then
        if npVar (D.noise v) = 0 then .ok none else .ok (some (finish 0 (Real.sqrt (1 / npVar (D.noise v))) []))
      else if (D.weights v).length ≠ parents.length then .error .assertion
      else
        match r2.get v parents.length with
        | none => .error .key
        | some r =>
            match additiveScale r (npVar (camMean 1 (D.weights v) base vals parents)) (npVar (D.noise v)) with
            | .error e => .error e
            | .ok none => .ok none
            | .ok (some (c, b)) => .ok (some (finish c b (D.weights v)))

/-- The loop. -/
noncomputable def additiveLoop (G : DAG α) (op : SetOrder α α) (r2 : R2Dict α) (D : AdditiveDraws α N) :
    List α → AdditiveState α N → Except (Exn α) (Option (AdditiveState α N))
  | [], s => .ok (some s)
  | v :: t, s =>
      match additiveStep G op r2 D s v with
      | .error e => .error e
      | .ok none => .ok none
      | .ok (some s') => additiveLoop G op r2 D t s'

/-- The `CamDAG` that is returned (graphs.py:345, 396-398). Its samples have length `M`; `draws v` is what `noise(M)` returns for `v`
later on. -/
noncomputable def additiveCam {M : ℕ} (C : DAG α) (names : List α) (node : α → Option (AdditiveNode α)) (draws : α → Fin M → ℝ) :
    CamDAG names.length α (Fin M → ℝ) where
  dag := C
  names := names.get
  meanFunctions v := (node v).map fun a vals parents => camMean a.c a.weights a.base vals parents
  noises v := (node v).map fun a j => a.b * draws v j

/-- `rand_additive_basis` (graphs.py:302-400): the graph of the `CamDAG`, its node list (the iteration order `on` of the node set), and the
coefficients. -/
noncomputable def randAdditive (G : DAG α) (o : SetOrder (Option α) α) (oa : SetOrder Bool (α × α)) (on : SetOrder Unit α)
    (op : SetOrder α α) (r2 : R2Dict α) (D : AdditiveDraws α N) :
    Option (Except (Exn α) (Option (DAG α × List α × AdditiveState α N))) :=
  match DAG.new o oa G.nodes G.arcs with
  | none => none
  | some (_, some e) => some (.error e)
  | some (C, none) =>
      match (DAG.topologicalSort G o).run with
      | none => none
      | some (.error e) => some (.error e)
      | some (.ok t) =>
          match additiveLoop G op r2 D t ⟨fun _ => none, fun _ => none⟩ with
          | .error e => some (.error e)
          | .ok none => some (.ok none)
          | .ok (some s) => some (.ok (some (C, on.ord () G.nodes, s)))

end Model
