import Verif.Model.GGM

/-!
# `GGM` objects in a memory shared with the caller

numpy arrays are passed and returned by reference. A `GGM` keeps the array it is given as `precision_matrix` (ggm.py:20), `from_covariance`
keeps the array of the caller as `_covariance` (line 33), `covariance` and `correlation` return the arrays they keep (lines 59-67). Here the
matrices lie in a memory, the objects and the variables of the caller hold addresses. `means` is left as a value: only `sample` and
`to_gauss_dag` use it.
-/

namespace Model.GGMHeap

variable {n : ℕ}

/-- The attributes of a `GGM` object (ggm.py:18-28), with the addresses of the arrays. -/
structure Obj (n : ℕ) where
  graph : UG ℕ
  precision : ℕ
  means : Fin n → ℝ
  covariance : Option ℕ
  correlation : Option ℕ

/-- The memory, the first free address, the objects, and the addresses held by the caller's variables. -/
structure Mem (n : ℕ) where
  cell : ℕ → Matrix (Fin n) (Fin n) ℝ
  next : ℕ
  objs : List (Obj n)
  vars : List ℕ

/-- A statement of the caller. Objects and variables are numbered in the order in which they are created. -/
inductive Op (n : ℕ)
  /-- a new array -/
  | array (m : Matrix (Fin n) (Fin n) ℝ)
  /-- `x[:] = m` -/
  | write (x : ℕ) (m : Matrix (Fin n) (Fin n) ℝ)
  /-- `GGM(x, means)` -/
  | new (x : ℕ) (means : Option (Fin n → ℝ))
  /-- `GGM.from_covariance(x, means)` -/
  | fromCovariance (x : ℕ) (means : Option (Fin n → ℝ))
  /-- a new variable for `g.covariance` -/
  | covariance (k : ℕ)
  /-- a new variable for `g.correlation` -/
  | correlation (k : ℕ)
  /-- `g.partial_correlation(i, j, cond)` -/
  | partialCorrelation (k i j : ℕ) (cond : Finset ℕ)

/-- What the caller sees of a statement: nothing, an array (its entries), a number, or an exception. -/
inductive Out (n : ℕ)
  | nothing
  | matrix (m : Matrix (Fin n) (Fin n) ℝ)
  | number (r : ℝ)
  | raised (e : Exn ℕ)

/-- The orders in which sets are iterated. -/
structure Orders where
  nodes : SetOrder Unit ℕ
  edges : SetOrder Unit (Finset ℕ)
  pair : SetOrder Unit ℕ
  cond : SetOrder Unit ℕ

namespace Mem

/-- A new array. -/
def alloc (H : Mem n) (m : Matrix (Fin n) (Fin n) ℝ) : Mem n := { H with cell := Function.update H.cell H.next m, next := H.next + 1 }

/-- `_ensure_covariance` and `covariance` (ggm.py:50-52, 59-62): the address of the result, the memory and the object. -/
noncomputable def readCovariance (H : Mem n) (O : Obj n) : Except (Exn ℕ) (ℕ × Mem n × Obj n) :=
  match O.covariance with
  | some a => .ok (a, H, O)
  | none =>
      match Gauss.invOrRaise (H.cell O.precision) with
      | .error e => .error e
      | .ok S => .ok (H.next, H.alloc S, { O with covariance := some H.next })

/-- `_ensure_correlation` and `correlation` (ggm.py:54-57, 64-67). -/
noncomputable def readCorrelation (H : Mem n) (O : Obj n) : Except (Exn ℕ) (ℕ × Mem n × Obj n) :=
  match O.correlation with
  | some a => .ok (a, H, O)
  | none =>
      match H.readCovariance O with
      | .error e => .error e
      | .ok (a, H1, O1) =>
          let S := H1.cell a
          .ok (H1.next, H1.alloc (Matrix.of fun a b => S a b / √(S b b) / √(S a a)), { O1 with correlation := some H1.next })

/-- The constructor (ggm.py:18-28) on the array at address `a`. -/
noncomputable def construct (w : Orders) (H : Mem n) (a : ℕ) (means : Option (Fin n → ℝ)) : Obj n :=
  let nodes := Finset.range n
  let edges := ((DAG.pairs (w.nodes.ord () nodes)).filter fun e => GGM.entry (H.cell a) e.1 e.2 ≠ 0).toFinset
  ⟨UG.new w.edges w.pair nodes edges, a, means.getD fun _ => 1, none, none⟩

end Mem

/-- The number computed by `partial_correlation` (ggm.py:84-88) from `self.correlation`. -/
noncomputable def partialOf (oc : SetOrder Unit ℕ) (R : Matrix (Fin n) (Fin n) ℝ) (i j : ℕ) (cond : Finset ℕ) : Except (Exn ℕ) ℝ :=
  if cond.card = 0 then
    match Gauss.at? n i, Gauss.at? n j with
    | some a, some b => .ok (R a b)
    | _, _ => .error .index
  else
    match Gauss.positions n (Matrix.vecCons i (Matrix.vecCons j (oc.ord () cond).get)) with
    | none => .error .index
    | some l =>
        match Gauss.invOrRaise (R.submatrix l l) with
        | .error e => .error e
        | .ok θ => .ok (-θ 0 1 / √(θ 0 0 * θ 1 1))

/-- What the caller sees of a number. -/
def Out.ofExcept : Except (Exn ℕ) ℝ → Out n
  | .ok r => .number r
  | .error e => .raised e

namespace Mem

/-- One statement. A variable or object that does not exist does nothing. -/
noncomputable def exec (w : Orders) (H : Mem n) : Op n → Mem n × Out n
  | .array m => ({ H.alloc m with vars := H.vars ++ [H.next] }, .nothing)
  | .write x m =>
      match H.vars[x]? with
      | none => (H, .nothing)
      | some a => ({ H with cell := Function.update H.cell a m }, .nothing)
  | .new x means =>
      match H.vars[x]? with
      | none => (H, .nothing)
      | some a => ({ H with objs := H.objs ++ [H.construct w a means] }, .nothing)
  | .fromCovariance x means =>
      match H.vars[x]? with
      | none => (H, .nothing)
      | some a =>
          match Gauss.invOrRaise (H.cell a) with
          | .error e => (H, .raised e)
          | .ok p =>
              let H1 := H.alloc p
              ({ H1 with objs := H1.objs ++ [{ H1.construct w H.next means with covariance := some a }] }, .nothing)
  | .covariance k =>
      match H.objs[k]? with
      | none => (H, .nothing)
      | some O =>
          match H.readCovariance O with
          | .error e => (H, .raised e)
          | .ok (a, H1, O1) => ({ H1 with objs := H1.objs.set k O1, vars := H1.vars ++ [a] }, .matrix (H1.cell a))
  | .correlation k =>
      match H.objs[k]? with
      | none => (H, .nothing)
      | some O =>
          match H.readCorrelation O with
          | .error e => (H, .raised e)
          | .ok (a, H1, O1) => ({ H1 with objs := H1.objs.set k O1, vars := H1.vars ++ [a] }, .matrix (H1.cell a))
  | .partialCorrelation k i j cond =>
      match H.objs[k]? with
      | none => (H, .nothing)
      | some O =>
          match H.readCorrelation O with
          | .error e => (H, .raised e)
          | .ok (a, H1, O1) => ({ H1 with objs := H1.objs.set k O1 }, .ofExcept (partialOf w.cond (H1.cell a) i j cond))

/-- A sequence of statements, with what the caller sees of each. -/
noncomputable def run (w : Orders) : Mem n → List (Op n) → Mem n × List (Out n)
  | H, [] => (H, [])
  | H, op :: l => ((run w (H.exec w op).1 l).1, (H.exec w op).2 :: (run w (H.exec w op).1 l).2)

/-- Before the first statement. -/
def init : Mem n := ⟨fun _ => 0, 0, [], []⟩

end Mem

end Model.GGMHeap
