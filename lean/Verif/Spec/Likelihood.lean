import Mathlib.Probability.Distributions.Gaussian.Real

/-! # Likelihood of a linear Gaussian structural equation model -/

namespace Spec

open ProbabilityTheory

variable {n r : ℕ}

/-- What the equation of node `j` leaves unexplained in one observation. -/
def residual (A : Matrix (Fin n) (Fin n) ℝ) (b y : Fin n → ℝ) (j : Fin n) : ℝ := y j - (∑ i, A i j * y i + b j)

/-- The log likelihood of the observations in the rows of `x`: each variable is normal given its parents. -/
noncomputable def logLik (A : Matrix (Fin n) (Fin n) ℝ) (b v : Fin n → ℝ) (x : Matrix (Fin r) (Fin n) ℝ) : ℝ :=
  ∑ a, ∑ j, Real.log (gaussianPDFReal (∑ i, A i j * x a i + b j) (v j).toNNReal (x a j))

end Spec
