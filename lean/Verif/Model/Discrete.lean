import Verif.Model.Queries
import Mathlib.Analysis.SpecialFunctions.Log.ENNRealLog
import Mathlib.Analysis.SpecialFunctions.Log.ERealExp

/-!
# `graphical_models/classes/dags/discrete_dag.py`: marginals

An array is a shape and a function of the index; its values outside the shape mean nothing. Probabilities are exact
non-negative numbers, logarithms of probabilities are extended reals (`np.log(0)` is `-inf`), `np.exp` and `np.log` are exact.
The dictionaries of the object are total functions: a missing key is not modelled. The axis names of the `einops` patterns are
the nodes themselves: two nodes with the same `str`, a node called `_new` and nodes whose `str` is not a valid axis name are not
modelled. `EinopsError` is `Exn.plain`.
-/

namespace Model

open scoped NNReal ENNReal

/-- `np.ndarray`. -/
structure Tensor (R : Type) where
  shape : List ℕ
  val : List ℕ → R

namespace Tensor

variable {R S : Type}

/-- An elementwise function. -/
def map (f : R → S) (t : Tensor R) : Tensor S := ⟨t.shape, fun i => f (t.val i)⟩

/-- The index with `0` for the axes of length one: how numpy stretches them. -/
def clip (idx shape : List ℕ) : List ℕ := List.zipWith (fun i n => if n = 1 then 0 else i) idx shape

/-- `a + b` for arrays with equally many axes, with broadcasting; arrays with different numbers of axes do not occur. -/
noncomputable def add {α : Type} (a b : Tensor EReal) : Except (Exn α) (Tensor EReal) :=
  if a.shape.length = b.shape.length ∧ ∀ p ∈ a.shape.zip b.shape, p.1 = p.2 ∨ p.1 = 1 ∨ p.2 = 1 then
    .ok ⟨List.zipWith (fun m n => if m = 1 then n else m) a.shape b.shape,
      fun idx => a.val (clip idx a.shape) + b.val (clip idx b.shape)⟩
  else .error .value

/-- The sum over some axes of an array, as a function of the index on the other axes; `pos` counts the axes. -/
def sumAxes [AddCommMonoid R] (axes : List ℕ) : (shape : List ℕ) → (pos : ℕ) → (List ℕ → R) → (idx : List ℕ) → R
  | [], _, f, _ => f []
  | n :: shape, pos, f, idx =>
      if pos ∈ axes then ∑ i ∈ Finset.range n, sumAxes axes shape (pos + 1) (fun r => f (i :: r)) idx
      else sumAxes axes shape (pos + 1) (fun r => f (idx.headD 0 :: r)) idx.tail

/-- The shape without some axes. -/
def dropAxes (axes : List ℕ) (shape : List ℕ) : List ℕ := (shape.zipIdx.filter fun p => p.2 ∉ axes).map Prod.fst

end Tensor

variable {α R : Type} [DecidableEq α]

/-- `no_warn_log` (discrete_dag.py:28-32): entries up to `eps` count as zero. -/
noncomputable def noWarnLog (t : Tensor ℝ≥0) : Tensor EReal :=
  t.map fun x : ℝ≥0 => if x ≤ 1 / 10 ^ 10 then ⊥ else ENNReal.log (x : ℝ≥0∞)

/-- `np.log`. -/
noncomputable def npLog (t : Tensor ℝ≥0) : Tensor EReal := t.map fun x : ℝ≥0 => ENNReal.log (x : ℝ≥0∞)

/-- `einops.repeat(tensor, "left -> right", **sizes)` with names of axes: the names on either side must be distinct, the names
on the left must occur on the right, and the left side must name all axes. -/
def einopsRepeat {β : Type} [DecidableEq β] (t : Tensor R) (left right : List β) (sizes : β → ℕ) : Except (Exn α) (Tensor R) :=
  if left.Nodup ∧ right.Nodup ∧ (∀ d ∈ left, d ∈ right) ∧ left.length = t.shape.length then
    .ok ⟨right.map fun d => if d ∈ left then t.shape.getD (left.idxOf d) 0 else sizes d,
      fun idx => t.val (left.map fun d => idx.getD (right.idxOf d) 0)⟩
  else .error .plain

/-- `repeat_dimensions` (discrete_dag.py:108-123); the axis `d_new` is `none`. With `dim_sizes=None` any new axis is a
`TypeError`. -/
def repeatDimensions (t : Tensor R) (curr new : List α) (sizes : Option (α → ℕ)) (addNew : Bool) :
    Except (Exn α) (Tensor R) :=
  let start := curr.map some ++ if addNew then [none] else []
  let stop := new.map some ++ if addNew then [none] else []
  match sizes with
  | none => if ∃ d ∈ new, d ∉ curr then .error .type else einopsRepeat t start stop fun _ => 0
  | some sz => einopsRepeat t start stop fun d => d.elim 0 sz

/-- `add_variable` (discrete_dag.py:177-194, discrete_dag_torch.py:54-72). The two modules differ in `no_warn_log`, which is `lg`. -/
noncomputable def addVariableBy (lg : Tensor ℝ≥0 → Tensor EReal) (table : Tensor EReal) (current : List α) (cond : Tensor ℝ≥0)
    (dims : α → ℕ) (parents : List α) : Except (Exn α) (Tensor EReal) :=
  match repeatDimensions (lg cond) parents current (some dims) true with
  | .error e => .error e
  | .ok lc => Tensor.add ⟨table.shape ++ [1], fun idx => table.val idx.dropLast⟩ lc

/-- `add_variable` (discrete_dag.py:177-194). -/
noncomputable def addVariable (table : Tensor EReal) (current : List α) (cond : Tensor ℝ≥0) (dims : α → ℕ) (parents : List α) :
    Except (Exn α) (Tensor EReal) := addVariableBy noWarnLog table current cond dims parents

/-- `marginalize` (discrete_dag.py:197-198): `logsumexp` over some axes. -/
noncomputable def marginalize (table : Tensor EReal) (axes : List ℕ) : Tensor EReal :=
  ⟨Tensor.dropAxes axes table.shape,
    fun idx => ENNReal.log (Tensor.sumAxes axes table.shape 0 (fun i => EReal.exp (table.val i)) idx)⟩

/-- discrete_dag.py:201-224: the graph, `conditionals`, `node2parents` and `node_alphabets`. -/
structure DiscreteDAG (α : Type) where
  dag : DAG α
  cond : α → Tensor ℝ≥0
  pars : α → List α
  alph : α → List ℤ

namespace DiscreteDAG

/-- `node2dims` (discrete_dag.py:214-217). -/
def dims (D : DiscreteDAG α) (v : α) : ℕ := (D.alph v).length

/-- The constructor (discrete_dag.py:202-224): the graph is built, then the shapes are checked. The keys of `node2parents` are
taken to be the nodes. -/
def new (o : SetOrder (Option α) α) (oa : SetOrder Bool (α × α)) (nodes : Finset α) (arcs : Finset (α × α))
    (cond : α → Tensor ℝ≥0) (pars : α → List α) (alph : α → List ℤ) : Option (Except (Exn α) (DiscreteDAG α)) :=
  match DAG.new o oa nodes arcs with
  | none => none
  | some (_, some e) => some (.error e)
  | some (G, none) =>
      if ∀ v ∈ nodes, (cond v).shape = (pars v ++ [v]).map fun p => (alph p).length then some (.ok ⟨G, cond, pars, alph⟩)
      else some (.error .assertion)

/-- `self.ancestral_subgraph(set(l))` (dag.py:134-136). -/
def ancestral (D : DiscreteDAG α) (o : SetOrder (Option α) α) (oa : SetOrder Bool (α × α)) (os : SetOrder (α × Finset α) α)
    (l : List α) : Run α (DAG α) :=
  ExceptT.mk ((DAG.ancestralSubgraph o oa os D.dag l).map fun s =>
    match s.2 with
    | none => .ok s.1
    | some e => .error e)

/-- The variables of the loops. -/
structure Elim (α : Type) where
  cur : List α
  added : Finset α
  table : Tensor EReal

/-- The body of the loops (discrete_dag.py:470-494, 511-537, discrete_dag_torch.py:116-141): add the factor of `v`, then sum out the
nodes all of whose children have been added, except those to be kept. The set of these nodes is taken in the order of `current_nodes`.
`node2ix` was made before `v` was appended. -/
noncomputable def elimStepBy (lg : Tensor ℝ≥0 → Tensor EReal) (D : DiscreteDAG α) (A : DAG α) (keep : α → Bool) (s : Elim α) (v : α) :
    Except (Exn α) (Elim α) :=
  match addVariableBy lg s.table s.cur (D.cond v) D.dims (D.pars v) with
  | .error e => .error e
  | .ok table =>
      let cur := s.cur ++ [v]
      let added := insert v s.added
      let out := cur.filter fun u => A.children u ⊆ added ∧ keep u = false
      if out = [] then .ok ⟨cur, added, table⟩
      else if ∀ u ∈ out, u ∈ s.cur then
        .ok ⟨cur.filter fun u => u ∉ out, added, marginalize table (out.map fun u => s.cur.idxOf u)⟩
      else .error .key

/-- The body of the loops of `discrete_dag.py`. -/
noncomputable def elimStep (D : DiscreteDAG α) : DAG α → (α → Bool) → Elim α → α → Except (Exn α) (Elim α) := D.elimStepBy noWarnLog

/-- `get_marginals(marginal_nodes, log)` (discrete_dag.py:462-500, discrete_dag_torch.py:108-146); `f` is `np.exp`, or the identity
for `log=True`. -/
noncomputable def getMarginalsBy (lg : Tensor ℝ≥0 → Tensor EReal) (D : DiscreteDAG α) (o ot : SetOrder (Option α) α)
    (oa : SetOrder Bool (α × α)) (os : SetOrder (α × Finset α) α) (on : SetOrder Unit α) (f : EReal → R) (M : List α) :
    Run α (Tensor R) := do
  let A ← D.ancestral o oa os (on.ord () M.toFinset)
  let t ← DAG.topologicalSort A ot
  match t with
  | [] => throw .index
  | t0 :: ts =>
      let s ← ts.foldlM (fun s v => (ExceptT.mk (some (D.elimStepBy lg A (· ∈ M) s v)) : Run α (Elim α)))
        ⟨[t0], {t0}, npLog (D.cond t0)⟩
      ExceptT.mk (some (repeatDimensions (s.table.map f) s.cur M none false))

/-- `get_marginals` of `discrete_dag.py`. -/
noncomputable def getMarginals (D : DiscreteDAG α) : SetOrder (Option α) α → SetOrder (Option α) α → SetOrder Bool (α × α) →
    SetOrder (α × Finset α) α → SetOrder Unit α → (EReal → R) → List α → Run α (Tensor R) := D.getMarginalsBy noWarnLog

/-- `get_marginal(node)` (discrete_dag.py:502-541); `verbose` and `log` (unused) are left out. -/
noncomputable def getMarginal (D : DiscreteDAG α) (o ot : SetOrder (Option α) α) (oa : SetOrder Bool (α × α))
    (os : SetOrder (α × Finset α) α) (v : α) : Run α (Tensor ℝ≥0∞) := do
  let A ← D.ancestral o oa os [v]
  let t ← DAG.topologicalSort A ot
  match t with
  | [] => throw .index
  | t0 :: ts =>
      let s ← ts.foldlM (fun s v => (ExceptT.mk (some (D.elimStep A (· = v) s v)) : Run α (Elim α)))
        ⟨[t0], {t0}, noWarnLog (D.cond t0)⟩
      return s.table.map EReal.exp

/-- `get_mean_and_variance` (discrete_dag.py:715-722): `zip` stops at the shorter list. -/
noncomputable def getMeanAndVariance (D : DiscreteDAG α) (o ot : SetOrder (Option α) α) (oa : SetOrder Bool (α × α))
    (os : SetOrder (α × Finset α) α) (v : α) : Run α (ℝ × ℝ) := do
  let m ← D.getMarginal o ot oa os v
  let marginal := (List.range (m.shape.headD 0)).map fun i => (m.val [i]).toReal
  let mean := (((D.alph v).zip marginal).map fun p => (p.1 : ℝ) * p.2).sum
  return (mean, (((D.alph v).zip marginal).map fun p => ((p.1 : ℝ) - mean) ^ 2 * p.2).sum)

/-- One round of the inner loop of `get_marginals_new` (discrete_dag.py:438-447). -/
noncomputable def addChild (D : DiscreteDAG α) (s : List α × Tensor EReal) (c : α) : Except (Exn α) (List α × Tensor EReal) :=
  match addVariable s.2 s.1 (D.cond c) D.dims ((D.pars c).filter (· ∈ s.1)) with
  | .error e => .error e
  | .ok table => .ok (s.1 ++ [c], table)

/-- The body of the loop of `get_marginals_new` (discrete_dag.py:434-453). -/
noncomputable def elimNew (D : DiscreteDAG α) (A : DAG α) (oc : SetOrder α α) (M : List α) (s : List α × Tensor EReal) (v : α) :
    Except (Exn α) (List α × Tensor EReal) := do
  let s ← (oc.ord v (A.children v \ s.1.toFinset)).foldlM (D.addChild) s
  if v ∈ M then return s
  else if v ∈ s.1 then return (s.1.filter (· ≠ v), marginalize s.2 [s.1.idxOf v])
  else throw .value

/-- `get_marginals_new(marginal_nodes, log)` (discrete_dag.py:425-460); `f` is `np.exp`, or the identity for `log=True`. -/
noncomputable def getMarginalsNew [One R] (D : DiscreteDAG α) (o ot : SetOrder (Option α) α) (oa : SetOrder Bool (α × α))
    (os : SetOrder (α × Finset α) α) (on : SetOrder Unit α) (oc : SetOrder α α) (f : EReal → R) (M : List α) :
    Run α (Tensor R) :=
  if M = [] then return ⟨[], fun _ => 1⟩ else do
    let A ← D.ancestral o oa os (on.ord () M.toFinset)
    let t ← DAG.topologicalSort A ot
    match t with
    | [] => throw .index
    | t0 :: _ =>
        let s ← t.foldlM (fun s v => (ExceptT.mk (some (D.elimNew A oc M s v)) : Run α (List α × Tensor EReal)))
          ([t0], npLog (D.cond t0))
        ExceptT.mk (some (repeatDimensions (s.2.map f) s.1 M none false))

/-- `get_conditional` after the marginal of all nodes has been computed (discrete_dag.py:675-713). `N` is
`marginal_nodes_no_repeats`. Subtracting `-inf` from `-inf` gives `nan` in the code; these entries are overwritten in either case.
In the patterns `(v, false)` is the axis `d{v}` and `(v, true)` the axis `r{v}`. `NotImplementedError` is `Exn.plain`. -/
noncomputable def conditionalFrom (D : DiscreteDAG α) (M N C : List α) (full : Tensor EReal) : Except (Exn α) (Tensor ℝ≥0∞) :=
  let condMarginal := marginalize full (List.range N.length)
  let conditional : Tensor ℝ≥0∞ := ⟨full.shape, fun idx =>
    if condMarginal.val (idx.drop N.length) = ⊥ then 1 / ((N.map D.dims).prod : ℝ≥0∞)
    else EReal.exp (full.val idx - condMarginal.val (idx.drop N.length))⟩
  if M.length = N.length then .ok conditional
  else
    let start := (N ++ C).map fun v => (v, false)
    let stop := (M.map fun v => (v, decide (v ∉ N))) ++ C.map fun v => (v, false)
    match einopsRepeat conditional start stop (fun d => D.dims d.1), M.filter (· ∈ C) with
    | .error e, _ => .error e
    | .ok cond, [v] =>
        match einopsRepeat (⟨[D.dims v, D.dims v], fun i => if i.getD 0 0 = i.getD 1 0 then 1 else 0⟩ : Tensor ℝ≥0∞)
          [(v, false), (v, true)] stop (fun d => D.dims d.1) with
        | .error e => .error e
        | .ok ones => .ok ⟨cond.shape, fun idx => cond.val idx * ones.val idx⟩
    | .ok _, _ => .error .plain

/-- `get_conditional(marginal_nodes, cond_nodes, method)` (discrete_dag.py:664-713); `new` is `method == "new"`. -/
noncomputable def getConditional (D : DiscreteDAG α) (o ot : SetOrder (Option α) α) (oa : SetOrder Bool (α × α))
    (os : SetOrder (α × Finset α) α) (on : SetOrder Unit α) (oc : SetOrder α α) (new : Bool) (M C : List α) :
    Run α (Tensor ℝ≥0∞) := do
  let N := M.filter (· ∉ C)
  let full ← if new then D.getMarginalsNew o ot oa os on oc id (N ++ C) else D.getMarginals o ot oa os on id (N ++ C)
  ExceptT.mk (some (D.conditionalFrom M N C full))

end DiscreteDAG

end Model
