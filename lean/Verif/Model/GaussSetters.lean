import Verif.Model.Gauss

/-! # `graphical_models/classes/dags/gaussdag.py`: `set_node_mean` -/

namespace Model.Gauss

variable {n : ℕ} {K : Type} [Field K] [DecidableEq K]

/-- `set_node_mean` (gaussdag.py:265-267): sets the bias and then raises `DeprecationWarning`, here `plain`. -/
def setNodeMean (G : Gauss n K) (i : ℕ) (mean : K) : Step n K :=
  match G.setNodeBias i mean with
  | (G', some e) => (G', some e)
  | (G', none) => (G', some .plain)

end Model.Gauss
