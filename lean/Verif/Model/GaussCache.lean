import Verif.Model.GGMHeap

/-!
# The arrays returned by `GaussDAG` objects

The accessors `weight_mat`, `precision` and `covariance` return copies (gaussdag.py:335-351), `correlation` returns the cached array itself
(lines 366-369). Here the cached correlations and the arrays of the caller lie in a memory. The other attributes are never given away and
are values; the attribute `correlation` of `Gauss` is not used. The number of nodes stays `n`.
-/

namespace Model.GaussCache

open Model.GGMHeap (Out partialOf)

variable {n : ℕ}

/-- A `GaussDAG` object, and the address of `_correlation`. -/
structure Obj (n : ℕ) where
  dag : Gauss n ℝ
  correlation : Option ℕ

/-- The memory, the first free address, the objects, and the addresses held by the caller's variables. -/
structure Mem (n : ℕ) where
  cell : ℕ → Matrix (Fin n) (Fin n) ℝ
  next : ℕ
  objs : List (Obj n)
  vars : List ℕ

/-- A method that changes the object and returns nothing. -/
inductive Change
  | setArcWeight (i j : ℕ) (val : ℝ)
  | setNodeVariance (i : ℕ) (val : ℝ)
  | setNodeBias (i : ℕ) (val : ℝ)

/-- An accessor that returns a copy. -/
inductive Copied
  | weightMat
  | precision
  | covariance

/-- A statement of the caller. Objects and variables are numbered in the order in which they are created. -/
inductive Op (n : ℕ)
  /-- a new array -/
  | array (m : Matrix (Fin n) (Fin n) ℝ)
  /-- `x[:] = m` -/
  | write (x : ℕ) (m : Matrix (Fin n) (Fin n) ℝ)
  /-- `GaussDAG(names, arcs, biases, variances)` -/
  | new (names : Fin n → ℕ) (arcs : List ((ℕ × ℕ) × ℝ)) (biases variances : Fin n → ℝ)
  | change (k : ℕ) (c : Change)
  /-- a new variable for `g.weight_mat` etc. -/
  | read (k : ℕ) (c : Copied)
  /-- a new variable for `g.correlation` -/
  | correlation (k : ℕ)
  /-- `g.partial_correlation(i, j, cond)` -/
  | partialCorrelation (k i j : ℕ) (cond : Finset ℕ)

/-- The orders in which sets are iterated. -/
structure Orders where
  top : SetOrder (Option ℕ) ℕ
  arcs : SetOrder Bool (ℕ × ℕ)
  cond : SetOrder Unit ℕ

/-- `set_arc_weight` (gaussdag.py:242-246), `set_node_variance` (284), `set_node_bias` (263). -/
noncomputable def Change.run (w : Orders) (G : Gauss n ℝ) : Change → Option (Gauss.Step n ℝ)
  | .setArcWeight i j val => G.setArcWeight w.top i j val
  | .setNodeVariance i val => some (G.setNodeVariance i val)
  | .setNodeBias i val => some (G.setNodeBias i val)

/-- `weight_mat` (gaussdag.py:335-337), `precision` (343-346), `covariance` (348-351): the matrix and the object afterwards. -/
noncomputable def Copied.run (G : Gauss n ℝ) : Copied → Except (Exn ℕ) (Matrix (Fin n) (Fin n) ℝ × Gauss n ℝ)
  | .weightMat => .ok (G.weight, G)
  | .precision => .ok G.readPrecision
  | .covariance => G.readCovariance

namespace Mem

/-- A new array. -/
def alloc (H : Mem n) (m : Matrix (Fin n) (Fin n) ℝ) : Mem n := { H with cell := Function.update H.cell H.next m, next := H.next + 1 }

/-- `_ensure_correlation` and `correlation` (gaussdag.py:361-369): the address of the result, the memory and the object. -/
noncomputable def readCorrelation (H : Mem n) (O : Obj n) : Except (Exn ℕ) (ℕ × Mem n × Obj n) :=
  match O.correlation with
  | some a => .ok (a, H, O)
  | none =>
      match O.dag.readCovariance with
      | .error e => .error e
      | .ok (S, G1) =>
          .ok (H.next, H.alloc (Matrix.of fun a b => S a b / √(S b b) / √(S a a)), ⟨G1, some H.next⟩)

/-- One statement; `none` if a method does not return. A variable or object that does not exist does nothing. -/
noncomputable def exec (w : Orders) (H : Mem n) : Op n → Option (Mem n × Out n)
  | .array m => some ({ H.alloc m with vars := H.vars ++ [H.next] }, .nothing)
  | .write x m =>
      match H.vars[x]? with
      | none => some (H, .nothing)
      | some a => some ({ H with cell := Function.update H.cell a m }, .nothing)
  | .new names arcs b v =>
      match Gauss.new w.arcs names arcs b v with
      | (_, some e) => some (H, .raised e)
      | (G, none) => some ({ H with objs := H.objs ++ [⟨G, none⟩] }, .nothing)
  | .change k c =>
      match H.objs[k]? with
      | none => some (H, .nothing)
      | some O =>
          match c.run w O.dag with
          | none => none
          | some (G, some e) => some ({ H with objs := H.objs.set k ⟨G, O.correlation⟩ }, .raised e)
          | some (G, none) => some ({ H with objs := H.objs.set k ⟨G, O.correlation⟩ }, .nothing)
  | .read k c =>
      match H.objs[k]? with
      | none => some (H, .nothing)
      | some O =>
          match c.run O.dag with
          | .error e => some (H, .raised e)
          | .ok (m, G) =>
              some ({ H.alloc m with objs := H.objs.set k ⟨G, O.correlation⟩, vars := H.vars ++ [H.next] }, .matrix m)
  | .correlation k =>
      match H.objs[k]? with
      | none => some (H, .nothing)
      | some O =>
          match H.readCorrelation O with
          | .error e => some (H, .raised e)
          | .ok (a, H1, O1) => some ({ H1 with objs := H1.objs.set k O1, vars := H1.vars ++ [a] }, .matrix (H1.cell a))
  | .partialCorrelation k i j cond =>
      match H.objs[k]? with
      | none => some (H, .nothing)
      | some O =>
          match H.readCorrelation O with
          | .error e => some (H, .raised e)
          | .ok (a, H1, O1) => some ({ H1 with objs := H1.objs.set k O1 }, .ofExcept (partialOf w.cond (H1.cell a) i j cond))

/-- A sequence of statements, with what the caller sees of each. -/
noncomputable def run (w : Orders) : Mem n → List (Op n) → Option (Mem n × List (Out n))
  | H, [] => some (H, [])
  | H, op :: l => (H.exec w op).bind fun r => (run w r.1 l).map fun s => (s.1, r.2 :: s.2)

/-- Before the first statement. -/
def init : Mem n := ⟨fun _ => 0, 0, [], []⟩

end Mem

end Model.GaussCache
