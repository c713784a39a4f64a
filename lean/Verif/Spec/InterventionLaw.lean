import Verif.Model.Interventions
import Mathlib.Probability.Distributions.Gaussian.Real

/-! # Distributions of perfect interventions -/

namespace Model.PerfectIv

open MeasureTheory ProbabilityTheory

/-- The distribution of the samples of an intervention. -/
noncomputable def law : PerfectIv → Measure ℝ
  | .gauss mean variance => gaussianReal mean variance.toNNReal
  | .binary a b p => ENNReal.ofReal p • a.law + ENNReal.ofReal (1 - p) • b.law
  | .multinomial _ pvals ivs => ∑ i, ENNReal.ofReal (pvals i) • (ivs i).law
  | .constant val => Measure.dirac val

/-- Mixtures of two of normal distributions with positive variance. -/
inductive Smooth : PerfectIv → Prop
  | gauss {mean variance : ℝ} : 0 < variance → Smooth (.gauss mean variance)
  | binary {a b : PerfectIv} {p : ℝ} : Smooth a → Smooth b → 0 ≤ p → p ≤ 1 → Smooth (.binary a b p)

end Model.PerfectIv
