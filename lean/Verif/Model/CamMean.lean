import Verif.Model.Sampling

/-! # `CamDAG.conditional_mean` (`graphical_models/classes/dags/camdag.py`) -/

namespace Model.CamDAG

variable {α S : Type} [DecidableEq α] {n : ℕ} [AddMonoid S]

/-- The loop over `remaining_nodes` (camdag.py:60-64). -/
def meanLoop (D : CamDAG n α S) (op : SetOrder α α) : List α → (Fin n → S) → Except (Exn α) (Fin n → S)
  | [], x => .ok x
  | v :: t, x =>
      let parents := op.ord v (D.dag.parents v)
      match parents.mapM (lastIx D.names), D.meanFunctions v, lastIx D.names v with
      | some ps, some f, some a => meanLoop D op t (Function.update x a (f (ps.map x) parents))
      | _, _, _ => .error .key

/-- `conditional_mean` (camdag.py:48-66). A column of `cond_values` is an element of `S`. Looking up the parents of something that is not
a node adds an entry to the dictionary of parents in Python; here it is empty anyway. `Exn.type` comes from `set.union()` without arguments. -/
def conditionalMean (D : CamDAG n α S) (o : SetOrder (Option α) α) (op : SetOrder α α) (condValues : List S) (condNodes : List α)
    (checkValid : Bool := false) : Option (Except (Exn α) (Fin n → S)) :=
  if condNodes.length ≠ condValues.length then some (.error .assertion)
  else if checkValid ∧ condNodes = [] then some (.error .type)
  else if checkValid ∧ ¬ ∀ v ∈ condNodes, D.dag.parents v ⊆ condNodes.toFinset then some (.error .assertion)
  else
    match (DAG.topologicalSort D.dag o).run with
    | none => none
    | some (.error e) => some (.error e)
    | some (.ok t) =>
        let remaining := t.filter (· ∉ condNodes)
        match condNodes.mapM (lastIx D.names) with
        | none => some (.error .key)
        | some ixs => some (D.meanLoop op remaining ((ixs.zip condValues).foldl (fun x p => Function.update x p.1 p.2) 0))

end Model.CamDAG
