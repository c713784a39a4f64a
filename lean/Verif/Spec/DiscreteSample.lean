import Verif.Spec.Discrete
import Mathlib.Probability.Independence.Basic
import Mathlib.MeasureTheory.Constructions.BorelSpace.Real
import Mathlib.MeasureTheory.Measure.Lebesgue.Basic

/-! # Random draws and interventions of discrete graphs -/

namespace Spec

open MeasureTheory ProbabilityTheory

/-- The random variables `u` are independent and uniform on `[0, 1)`: what `np.random.random` is meant to deliver. -/
structure UniformNoise {α Ω : Type} [MeasurableSpace Ω] (μ : Measure Ω) (u : α → Ω → ℝ) : Prop where
  meas : ∀ v, Measurable (u v)
  range : ∀ v ω, u v ω ∈ Set.Ico (0 : ℝ) 1
  indep : iIndepFun u μ
  law : ∀ v, μ.map (u v) = volume.restrict (Set.Ico (0 : ℝ) 1)

end Spec

namespace Model.DiscreteDAG

open scoped NNReal

variable {α : Type} [DecidableEq α]

/-- Every alphabet is `0, 1, ..., k-1`. -/
def Counting (D : DiscreteDAG α) : Prop := ∀ v ∈ D.dag.nodes, D.alph v = (List.range (D.dims v)).map fun i : ℕ => (i : ℤ)

open scoped Classical in
/-- The distribution after an intervention that sets node `v` to `c` if `iv v = some c`: the tables of the other nodes only. -/
noncomputable def lawDo (D : DiscreteDAG α) (iv : α → Option ℕ) (y : α → ℕ) : ℝ≥0 :=
  if ∀ v ∈ D.dag.nodes, ∀ c, iv v = some c → y v = c then
    ∏ v ∈ D.dag.nodes with iv v = none, (D.cond v).val ((D.pars v ++ [v]).map y)
  else 0

end Model.DiscreteDAG
