import Mathlib.Probability.Distributions.Gaussian.Real
import Mathlib.Probability.Independence.Basic

/-! # Rows of normal noise -/

namespace Spec

open MeasureTheory ProbabilityTheory

variable {n : ℕ} {Ω : Type} [MeasurableSpace Ω]

/-- An infinite sequence of rows of independent noise; the entries of column `k` are normal with mean `b k` and variance `v k`. -/
structure NormalRows (μ : Measure Ω) (b v : Fin n → ℝ) (e : ℕ × Fin n → Ω → ℝ) : Prop where
  meas : ∀ p, Measurable (e p)
  indep : iIndepFun e μ
  law : ∀ p, μ.map (e p) = gaussianReal (b p.2) (v p.2).toNNReal

end Spec
