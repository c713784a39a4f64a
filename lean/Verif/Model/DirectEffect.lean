import Verif.Model.Base
import Mathlib.Data.Real.Basic
import Mathlib.Data.List.Perm.Subperm

/-! # `graphical_models/classes/dags/camdag.py`: `direct_effect` -/

namespace Model.Cam

variable {α : Type} [DecidableEq α]

/-- The body of the loop of `direct_effect` (camdag.py:70-74) for the node `p.1` at position `p.2` and `width` columns. A column is filled with
`None`, i.e. `nan`, here `none`. -/
def directStep (cond : List α) (width : ℕ) (M : ℕ → ℕ → Option ℝ) (p : α × ℕ) : Except (Exn α) (ℕ → ℕ → Option ℝ) :=
  if p.1 ∈ cond then .ok M
  else if p.2 < width then .ok fun r c => if c = p.2 then none else M r c
  else .error .index

/-- `direct_effect(cond_values, cond_nodes)` (camdag.py:68-75) for a DAG with the list `nodes` (`_node_list`). The entry in row `r` and
column `c`, below the width `len(nodes) - len(cond_nodes)`; a negative width is a `ValueError`. The parents looked up in lines 72-73 are not
used. -/
noncomputable def directEffect (nodes cond : List α) : Except (Exn α) (ℕ → ℕ → Option ℝ) :=
  if nodes.length < cond.length then .error .value
  else nodes.zipIdx.foldlM (directStep cond (nodes.length - cond.length)) fun _ _ => some 0

end Model.Cam
