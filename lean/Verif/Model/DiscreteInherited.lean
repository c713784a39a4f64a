import Verif.Model.DiscreteSample

/-!
# `graphical_models/classes/dags/discrete_dag.py`: mutators inherited from `DAG`

`DiscreteDAG` overrides no mutator of `DAG` (discrete_dag.py:201, functional_dag.py:11-13): they change the attributes of the graph and
leave `conditionals`, `node2parents`, `node_alphabets`, `node2dims`, `_node_list` and `_node2ix` as they are.
-/

namespace Model.DiscreteDAG

variable {α : Type} [DecidableEq α]

/-- The object after a mutator of the graph has run, and the exception. -/
abbrev Mutated (α : Type) := DiscreteDAG α × Option (Exn α)

/-- `add_arc` (dag.py:804-819). -/
def addArc (check : Bool) (o : SetOrder (Option α) α) (D : DiscreteDAG α) (i j : α) : Option (Mutated α) :=
  (DAG.addArc check o D.dag i j).map fun s => ({ D with dag := s.1 }, s.2)

/-- `add_arcs_from` (dag.py:846-865). -/
def addArcsFrom (check : Bool) (o : SetOrder (Option α) α) (oa : SetOrder Bool (α × α)) (D : DiscreteDAG α) (arcs : Finset (α × α)) :
    Option (Mutated α) :=
  (DAG.addArcsFrom check o oa D.dag arcs).map fun s => ({ D with dag := s.1 }, s.2)

/-- `remove_arc` (dag.py:888-898). -/
def removeArc (ignoreError : Bool) (D : DiscreteDAG α) (i j : α) : Mutated α :=
  ({ D with dag := (DAG.removeArc ignoreError D.dag i j).1 }, (DAG.removeArc ignoreError D.dag i j).2)

/-- `reverse_arc` (dag.py:945-946). -/
def reverseArc (ignoreError check : Bool) (o : SetOrder (Option α) α) (D : DiscreteDAG α) (i j : α) : Option (Mutated α) :=
  (DAG.reverseArc ignoreError check o D.dag i j).map fun s => ({ D with dag := s.1 }, s.2)

end Model.DiscreteDAG
