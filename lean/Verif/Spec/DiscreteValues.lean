import Verif.Model.DiscreteHeap
import Mathlib.Data.Finset.Insert

/-! # `DiscreteDAG` objects as values -/

namespace Model.DiscreteHeap

open scoped NNReal

variable {α : Type} [DecidableEq α]

/-- The objects, the caller's dictionaries, and the variables whose dictionary is the one of an object. -/
structure Val (α : Type) where
  objs : List (DiscreteDAG α)
  vars : List (α → Tensor ℝ≥0)
  lent : Finset ℕ

namespace Val

/-- One statement if dictionaries are passed and returned by value: a statement changes only the object or the dictionary it names. -/
def exec (o : SetOrder (Option α) α) (oa : SetOrder Bool (α × α)) (V : Val α) : Op α → Val α × Out α
  | .dict d => ({ V with vars := V.vars ++ [d] }, .nothing)
  | .assign x v t =>
      match V.vars[x]? with
      | none => (V, .nothing)
      | some d => ({ V with vars := V.vars.set x (Function.update d v t) }, .nothing)
  | .new x nodes arcs pars alph =>
      match V.vars[x]? with
      | none => (V, .nothing)
      | some d =>
          match DiscreteDAG.new o oa nodes arcs d pars alph with
          | none => (V, .forever)
          | some (.error e) => (V, .raised e)
          | some (.ok D) => ({ V with objs := V.objs ++ [D], lent := insert x V.lent }, .nothing)
  | .setConditional k v t =>
      match V.objs[k]? with
      | none => (V, .nothing)
      | some D => ({ V with objs := V.objs.set k { D with cond := Function.update D.cond v t } }, .nothing)
  | .copy k =>
      match V.objs[k]? with
      | none => (V, .nothing)
      | some D => ({ V with objs := V.objs ++ [D] }, .nothing)
  | .intervene k target value =>
      match V.objs[k]? with
      | none => (V, .nothing)
      | some D =>
          match D.hardInterventional o oa target value with
          | none => (V, .forever)
          | some (.error e) => (V, .raised e)
          | some (.ok D') => ({ V with objs := V.objs ++ [D'] }, .nothing)
  | .conditionals k =>
      match V.objs[k]? with
      | none => (V, .nothing)
      | some D => ({ V with vars := V.vars ++ [D.cond], lent := insert V.vars.length V.lent }, .nothing)
  | .look k =>
      match V.objs[k]? with
      | none => (V, .nothing)
      | some D => (V, .object D)

/-- A sequence of statements, with what the caller sees of each. -/
def run (o : SetOrder (Option α) α) (oa : SetOrder Bool (α × α)) : Val α → List (Op α) → Val α × List (Out α)
  | V, [] => (V, [])
  | V, op :: l => ((run o oa (V.exec o oa op).1 l).1, (V.exec o oa op).2 :: (run o oa (V.exec o oa op).1 l).2)

/-- The caller does not change the dictionary of an object behind its back, and passes no dictionary to a second object. -/
def Polite (o : SetOrder (Option α) α) (oa : SetOrder Bool (α × α)) : Val α → List (Op α) → Prop
  | _, [] => True
  | V, op :: l => (∀ x v t, op = .assign x v t → x ∉ V.lent) ∧ (∀ x nodes arcs pars alph, op = .new x nodes arcs pars alph → x ∉ V.lent) ∧
      Polite o oa (V.exec o oa op).1 l

/-- Before the first statement. -/
def init : Val α := ⟨[], [], ∅⟩

end Val

end Model.DiscreteHeap
