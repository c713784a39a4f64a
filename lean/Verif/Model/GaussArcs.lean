import Verif.Model.Gauss

/-! # `graphical_models/classes/dags/gaussdag.py`: `add_arcs_from` -/

namespace Model.Gauss

variable {n : ℕ} {K : Type} [Field K] [DecidableEq K]

/-- `add_arcs_from` (gaussdag.py:494-495) for a set of arcs, given in the order of its iteration: all weights are 1 and `check_acyclic` is
ignored. For a dictionary it is `set_arc_weights`. -/
def addArcsFrom (oa : SetOrder Bool (ℕ × ℕ)) (G : Gauss n K) (arcs : List (ℕ × ℕ)) : Step n K :=
  G.setArcWeights oa (arcs.map fun a => (a, 1))

end Model.Gauss
