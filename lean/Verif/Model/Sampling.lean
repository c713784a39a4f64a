import Verif.Model.Queries

/-!
# `graphical_models/classes/dags/sample_dag.py` and `camdag.py`: sampling

A column of the sample matrix is an element of `S`, so the functions of the nodes act on lists of columns. The random draws
are part of these functions. The node list of the object is `names`.
-/

namespace Model

variable {α S : Type} [DecidableEq α] {n : ℕ}

/-- `self._node2ix.get(v)` (core_utils.py:51-52): the last position of `v` in the node list. -/
def lastIx (names : Fin n → α) (v : α) : Option (Fin n) := (List.finRange n).reverse.find? fun a => names a = v

/-- sample_dag.py:18-21: the graph, the node list and the dictionary of conditionals. -/
structure SampleDAG (n : ℕ) (α S : Type) where
  dag : DAG α
  names : Fin n → α
  conditionals : α → Option (List S → S)

/-- An entry of `intervention` (sample_dag.py:44-49): a soft or a perfect distribution, or something else. -/
inductive Ivn (S : Type) where
  | soft (f : List S → S)
  | perfect (s : S)
  | other

namespace SampleDAG

/-- The loop of `sample` (sample_dag.py:29-32). -/
def loop (D : SampleDAG n α S) (op : SetOrder α α) : List α → (Fin n → S) → Except (Exn α) (Fin n → S)
  | [], x => .ok x
  | v :: t, x =>
      match lastIx D.names v, (op.ord v (D.dag.parents v)).mapM (lastIx D.names), D.conditionals v with
      | some a, some ps, some f => loop D op t (Function.update x a (f (ps.map x)))
      | _, _, _ => .error .key

/-- `sample` (sample_dag.py:26-33); `z` is the zero column. -/
def sample (D : SampleDAG n α S) (o : SetOrder (Option α) α) (op : SetOrder α α) (z : S) :
    Option (Except (Exn α) (Fin n → S)) :=
  match (DAG.topologicalSort D.dag o).run with
  | none => none
  | some (.error e) => some (.error e)
  | some (.ok t) => some (D.loop op t fun _ => z)

/-- The loop of `sample_interventional` (sample_dag.py:39-51). -/
def ivnLoop (D : SampleDAG n α S) (op : SetOrder α α) (ivn : α → Option (Ivn S)) :
    List α → (Fin n → S) → Except (Exn α) (Fin n → S)
  | [], x => .ok x
  | v :: t, x =>
      match lastIx D.names v, (op.ord v (D.dag.parents v)).mapM (lastIx D.names) with
      | some a, some ps =>
          match ivn v with
          | some (.soft f) => ivnLoop D op ivn t (Function.update x a (f (ps.map x)))
          | some (.perfect s) => ivnLoop D op ivn t (Function.update x a s)
          | some .other => ivnLoop D op ivn t x
          | none =>
              match D.conditionals v with
              | some f => ivnLoop D op ivn t (Function.update x a (f (ps.map x)))
              | none => .error .key
      | _, _ => .error .key

/-- `sample_interventional` (sample_dag.py:35-53). -/
def sampleInterventional (D : SampleDAG n α S) (o : SetOrder (Option α) α) (op : SetOrder α α) (z : S)
    (ivn : α → Option (Ivn S)) : Option (Except (Exn α) (Fin n → S)) :=
  match (DAG.topologicalSort D.dag o).run with
  | none => none
  | some (.error e) => some (.error e)
  | some (.ok t) => some (D.ivnLoop op ivn t fun _ => z)

end SampleDAG

/-- camdag.py:19-23: the graph, the node list, the mean functions (of the parents' columns and the list of parents) and the
noise of each node. -/
structure CamDAG (n : ℕ) (α S : Type) where
  dag : DAG α
  names : Fin n → α
  meanFunctions : α → Option (List S → List α → S)
  noises : α → Option S

namespace CamDAG

variable [AddMonoid S]

/-- The loop of `sample` (camdag.py:36-44). -/
def loop (D : CamDAG n α S) (op : SetOrder α α) : List α → (Fin n → S) → Except (Exn α) (Fin n → S)
  | [], x => .ok x
  | v :: t, x =>
      let parents := op.ord v (D.dag.parents v)
      let means : Except (Exn α) S :=
        if parents.length > 0 then
          match parents.mapM (lastIx D.names), D.meanFunctions v with
          | some ps, some f => .ok (f (ps.map x) parents)
          | _, _ => .error .key
        else .ok 0
      match means with
      | .error e => .error e
      | .ok m =>
          match D.noises v, lastIx D.names v with
          | some e, some a => loop D op t (Function.update x a (m + e))
          | _, _ => .error .key

/-- `sample` (camdag.py:31-46). -/
def sample (D : CamDAG n α S) (o : SetOrder (Option α) α) (op : SetOrder α α) :
    Option (Except (Exn α) (Fin n → S)) :=
  match (DAG.topologicalSort D.dag o).run with
  | none => none
  | some (.error e) => some (.error e)
  | some (.ok t) => some (D.loop op t 0)

end CamDAG

end Model
