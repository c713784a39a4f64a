import Verif.Model.DiscreteSample

/-!
# `DiscreteDAG` objects whose dictionary of tables is shared with the caller

The constructor keeps the dictionary it is given as `conditionals` (discrete_dag.py:211), and `set_conditional` writes to it (line 230). Here
the dictionaries lie in a memory, the objects and the variables of the caller hold addresses. The tables themselves, `node2parents` and
`node_alphabets` are left as values: no method changes them.
-/

namespace Model.DiscreteHeap

open scoped NNReal

variable {α : Type} [DecidableEq α]

/-- The attributes of a `DiscreteDAG` object (discrete_dag.py:210-219), with the address of `conditionals`. -/
structure Obj (α : Type) where
  dag : DAG α
  cond : ℕ
  pars : α → List α
  alph : α → List ℤ

/-- The memory, the first free address, the objects, and the addresses held by the caller's variables. -/
structure Mem (α : Type) where
  cell : ℕ → α → Tensor ℝ≥0
  next : ℕ
  objs : List (Obj α)
  vars : List ℕ

/-- A statement of the caller. Objects and variables are numbered in the order in which they are created. -/
inductive Op (α : Type)
  /-- a new dictionary -/
  | dict (d : α → Tensor ℝ≥0)
  /-- `x[v] = t` -/
  | assign (x : ℕ) (v : α) (t : Tensor ℝ≥0)
  /-- `DiscreteDAG(nodes, arcs, x, pars, alph)` -/
  | new (x : ℕ) (nodes : Finset α) (arcs : Finset (α × α)) (pars : α → List α) (alph : α → List ℤ)
  /-- `g.set_conditional(v, t)` -/
  | setConditional (k : ℕ) (v : α) (t : Tensor ℝ≥0)
  /-- a new object `g.copy()` -/
  | copy (k : ℕ)
  /-- a new object `g.get_hard_interventional_dag(target, value)` -/
  | intervene (k : ℕ) (target : α) (value : ℤ)
  /-- a new variable for `g.conditionals` -/
  | conditionals (k : ℕ)
  /-- any query of `g`, which is a function of the graph and the dictionaries -/
  | look (k : ℕ)

/-- What the caller sees of a statement: nothing, what queries of an object depend on, an exception, or no end. -/
inductive Out (α : Type)
  | nothing
  | object (D : DiscreteDAG α)
  | raised (e : Exn α)
  | forever

namespace Mem

/-- The object at the given attributes, as seen by its methods. -/
def value (H : Mem α) (O : Obj α) : DiscreteDAG α := ⟨O.dag, H.cell O.cond, O.pars, O.alph⟩

/-- An object with a new dictionary. -/
def push (H : Mem α) (D : DiscreteDAG α) : Mem α :=
  { H with cell := Function.update H.cell H.next D.cond, next := H.next + 1, objs := H.objs ++ [⟨D.dag, H.next, D.pars, D.alph⟩] }

/-- One statement. A variable or object that does not exist does nothing. The constructor (discrete_dag.py:202-224) keeps the dictionary;
`set_conditional` (lines 229-230) writes to the dictionary of the object; `copy` (lines 226-227) is a deep copy;
`get_hard_interventional_dag` (lines 331-349) builds a new dictionary. -/
def exec (o : SetOrder (Option α) α) (oa : SetOrder Bool (α × α)) (H : Mem α) : Op α → Mem α × Out α
  | .dict d => ({ H with cell := Function.update H.cell H.next d, next := H.next + 1, vars := H.vars ++ [H.next] }, .nothing)
  | .assign x v t =>
      match H.vars[x]? with
      | none => (H, .nothing)
      | some a => ({ H with cell := Function.update H.cell a (Function.update (H.cell a) v t) }, .nothing)
  | .new x nodes arcs pars alph =>
      match H.vars[x]? with
      | none => (H, .nothing)
      | some a =>
          match DiscreteDAG.new o oa nodes arcs (H.cell a) pars alph with
          | none => (H, .forever)
          | some (.error e) => (H, .raised e)
          | some (.ok D) => ({ H with objs := H.objs ++ [⟨D.dag, a, D.pars, D.alph⟩] }, .nothing)
  | .setConditional k v t =>
      match H.objs[k]? with
      | none => (H, .nothing)
      | some O => ({ H with cell := Function.update H.cell O.cond (Function.update (H.cell O.cond) v t) }, .nothing)
  | .copy k =>
      match H.objs[k]? with
      | none => (H, .nothing)
      | some O => (H.push (H.value O), .nothing)
  | .intervene k target value =>
      match H.objs[k]? with
      | none => (H, .nothing)
      | some O =>
          match (H.value O).hardInterventional o oa target value with
          | none => (H, .forever)
          | some (.error e) => (H, .raised e)
          | some (.ok D) => (H.push D, .nothing)
  | .conditionals k =>
      match H.objs[k]? with
      | none => (H, .nothing)
      | some O => ({ H with vars := H.vars ++ [O.cond] }, .nothing)
  | .look k =>
      match H.objs[k]? with
      | none => (H, .nothing)
      | some O => (H, .object (H.value O))

/-- A sequence of statements, with what the caller sees of each. -/
def run (o : SetOrder (Option α) α) (oa : SetOrder Bool (α × α)) : Mem α → List (Op α) → Mem α × List (Out α)
  | H, [] => (H, [])
  | H, op :: l => ((run o oa (H.exec o oa op).1 l).1, (H.exec o oa op).2 :: (run o oa (H.exec o oa op).1 l).2)

/-- Before the first statement. -/
def init : Mem α := ⟨fun _ _ => ⟨[], fun _ => 0⟩, 0, [], []⟩

end Mem

end Model.DiscreteHeap
