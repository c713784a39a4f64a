import Verif.Model.GGMHeap

/-! # `GGM` objects and arrays as values -/

namespace Model.GGMHeap

variable {n : ℕ}

/-- The objects, the caller's arrays, and the variables whose array is known to an object: passed to a constructor or returned. -/
structure Val (n : ℕ) where
  objs : List (GGM n)
  vars : List (Matrix (Fin n) (Fin n) ℝ)
  lent : Finset ℕ

namespace Val

/-- One statement if arrays are passed and returned by value; the methods are those of `Model.GGM`. -/
noncomputable def exec (w : Orders) (V : Val n) : Op n → Val n × Out n
  | .array m => ({ V with vars := V.vars ++ [m] }, .nothing)
  | .write x m => ({ V with vars := V.vars.set x m }, .nothing)
  | .new x means =>
      match V.vars[x]? with
      | none => (V, .nothing)
      | some m => ({ V with objs := V.objs ++ [GGM.new w.nodes w.edges w.pair m means], lent := insert x V.lent }, .nothing)
  | .fromCovariance x means =>
      match V.vars[x]? with
      | none => (V, .nothing)
      | some m =>
          match GGM.fromCovariance w.nodes w.edges w.pair m means with
          | .error e => (V, .raised e)
          | .ok G => ({ V with objs := V.objs ++ [G], lent := insert x V.lent }, .nothing)
  | .covariance k =>
      match V.objs[k]? with
      | none => (V, .nothing)
      | some G =>
          match G.readCovariance with
          | .error e => (V, .raised e)
          | .ok (S, G1) => (⟨V.objs.set k G1, V.vars ++ [S], insert V.vars.length V.lent⟩, .matrix S)
  | .correlation k =>
      match V.objs[k]? with
      | none => (V, .nothing)
      | some G =>
          match G.readCorrelation with
          | .error e => (V, .raised e)
          | .ok (R, G1) => (⟨V.objs.set k G1, V.vars ++ [R], insert V.vars.length V.lent⟩, .matrix R)
  | .partialCorrelation k i j cond =>
      match V.objs[k]? with
      | none => (V, .nothing)
      | some G =>
          ({ V with objs := V.objs.set k (match G.readCorrelation with | .error _ => G | .ok (_, G1) => G1) },
            match G.partialCorrelation w.cond i j cond with
            | .error e => .raised e
            | .ok (r, _) => .number r)

/-- A sequence of statements, with what the caller sees of each. -/
noncomputable def run (w : Orders) : Val n → List (Op n) → Val n × List (Out n)
  | V, [] => (V, [])
  | V, op :: l => ((run w (V.exec w op).1 l).1, (V.exec w op).2 :: (run w (V.exec w op).1 l).2)

/-- The caller changes no array that an object knows. -/
def Polite (w : Orders) : Val n → List (Op n) → Prop
  | _, [] => True
  | V, op :: l => (∀ x m, op = .write x m → x ∉ V.lent) ∧ Polite w (V.exec w op).1 l

/-- Before the first statement. -/
def init : Val n := ⟨[], [], ∅⟩

end Val

/-- The object at the given attributes, as a value. -/
def Mem.value (H : Mem n) (O : Obj n) : GGM n :=
  ⟨O.graph, H.cell O.precision, O.means, O.covariance.map H.cell, O.correlation.map H.cell⟩

end Model.GGMHeap
