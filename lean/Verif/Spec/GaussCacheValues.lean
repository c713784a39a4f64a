import Verif.Model.GaussCache

/-! # `GaussDAG` objects and arrays as values -/

namespace Model.GaussCache

open Model.GGMHeap (Out)

variable {n : ℕ}

/-- The objects, the caller's arrays, and the variables for arrays returned by `correlation`. -/
structure Val (n : ℕ) where
  objs : List (Gauss n ℝ)
  vars : List (Matrix (Fin n) (Fin n) ℝ)
  lent : Finset ℕ

namespace Val

/-- One statement if arrays are returned by value; the methods are those of `Model.Gauss`. -/
noncomputable def exec (w : Orders) (V : Val n) : Op n → Option (Val n × Out n)
  | .array m => some ({ V with vars := V.vars ++ [m] }, .nothing)
  | .write x m => some ({ V with vars := V.vars.set x m }, .nothing)
  | .new names arcs b v =>
      match Gauss.new w.arcs names arcs b v with
      | (_, some e) => some (V, .raised e)
      | (G, none) => some ({ V with objs := V.objs ++ [G] }, .nothing)
  | .change k c =>
      match V.objs[k]? with
      | none => some (V, .nothing)
      | some G =>
          match c.run w G with
          | none => none
          | some (G1, some e) => some ({ V with objs := V.objs.set k G1 }, .raised e)
          | some (G1, none) => some ({ V with objs := V.objs.set k G1 }, .nothing)
  | .read k c =>
      match V.objs[k]? with
      | none => some (V, .nothing)
      | some G =>
          match c.run G with
          | .error e => some (V, .raised e)
          | .ok (m, G1) => some ({ V with objs := V.objs.set k G1, vars := V.vars ++ [m] }, .matrix m)
  | .correlation k =>
      match V.objs[k]? with
      | none => some (V, .nothing)
      | some G =>
          match G.readCorrelation with
          | .error e => some (V, .raised e)
          | .ok (R, G1) => some (⟨V.objs.set k G1, V.vars ++ [R], insert V.vars.length V.lent⟩, .matrix R)
  | .partialCorrelation k i j cond =>
      match V.objs[k]? with
      | none => some (V, .nothing)
      | some G =>
          some ({ V with objs := V.objs.set k (match G.readCorrelation with | .error _ => G | .ok (_, G1) => G1) },
            match G.partialCorrelation w.cond i j cond with
            | .error e => .raised e
            | .ok (r, _) => .number r)

/-- A sequence of statements, with what the caller sees of each. -/
noncomputable def run (w : Orders) : Val n → List (Op n) → Option (Val n × List (Out n))
  | V, [] => some (V, [])
  | V, op :: l => (V.exec w op).bind fun r => (run w r.1 l).map fun s => (s.1, r.2 :: s.2)

/-- The caller changes no array that was returned by `correlation`. -/
def Polite (w : Orders) : Val n → List (Op n) → Prop
  | _, [] => True
  | V, op :: l => (∀ x m, op = .write x m → x ∉ V.lent) ∧ ∀ r, V.exec w op = some r → Polite w r.1 l

/-- Before the first statement. -/
def init : Val n := ⟨[], [], ∅⟩

end Val

/-- The object, as a value. -/
def Mem.value (H : Mem n) (O : Obj n) : Gauss n ℝ := { O.dag with correlation := O.correlation.map H.cell }

end Model.GaussCache
