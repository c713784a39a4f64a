import Mathlib.Probability.Distributions.Gaussian.Real
import Mathlib.Probability.Independence.Basic

/-! # Densities -/

namespace Spec

open MeasureTheory ProbabilityTheory

variable {n : ℕ} {Ω : Type} [MeasurableSpace Ω]

/-- The random variables `e` are independent and normal with the given means and variances: what `np.random.normal` is meant to
deliver. -/
structure NormalNoise (μ : Measure Ω) (b v : Fin n → ℝ) (e : Fin n → Ω → ℝ) : Prop where
  meas : ∀ k, Measurable (e k)
  indep : iIndepFun e μ
  law : ∀ k, μ.map (e k) = gaussianReal (b k) (v k).toNNReal

/-- Independent noise under an intervention: normal with the given means and variances where there is none, with log density `f`
where the intervention replaces the distribution by one with log density `f`. -/
structure IvNoise (μ : Measure Ω) (b v : Fin n → ℝ) (iv : Fin n → Option (ℝ → ℝ)) (e : Fin n → Ω → ℝ) : Prop where
  meas : ∀ k, Measurable (e k)
  indep : iIndepFun e μ
  law_none : ∀ k, iv k = none → μ.map (e k) = gaussianReal (b k) (v k).toNNReal
  law_some : ∀ k f, iv k = some f → μ.map (e k) = volume.withDensity fun y => ENNReal.ofReal (Real.exp (f y))

/-- `exp ∘ f` is a density of the joint law of `x` with respect to Lebesgue measure. -/
def HasLogDensity (μ : Measure Ω) (x : Fin n → Ω → ℝ) (f : (Fin n → ℝ) → ℝ) : Prop :=
  μ.map (fun ω j => x j ω) = volume.withDensity fun y => ENNReal.ofReal (Real.exp (f y))

end Spec
