import Verif.Model.Gauss
import Verif.Spec.Linear
import Mathlib.Analysis.SpecialFunctions.Sqrt
import Mathlib.LinearAlgebra.Matrix.DotProduct

/-! # Covariances of linear combinations

A vector `u` stands for the linear combination `Σ_i u_i X_i` of random variables with covariance matrix `S`. -/

namespace Spec

open Matrix

variable {ι : Type} [Fintype ι]

/-- Covariance of two linear combinations. -/
def lcov {K : Type} [Semiring K] (S : Matrix ι ι K) (u w : ι → K) : K := u ⬝ᵥ S *ᵥ w

/-- `u` is what is left of variable `i` after regression on the variables in `C`: variable `i` minus a linear combination of the
variables in `C`, uncorrelated with each of them. -/
structure Residual [DecidableEq ι] (S : Matrix ι ι ℝ) (i : ι) (C : Set ι) (u : ι → ℝ) : Prop where
  self : u i = 1
  support : ∀ a, a ≠ i → a ∉ C → u a = 0
  uncorrelated : ∀ c ∈ C, lcov S (Pi.single c 1) u = 0

/-- `ρ` is the partial correlation of the variables `i` and `j` given `C`: the correlation of their residuals. -/
def PartialCorr [DecidableEq ι] (S : Matrix ι ι ℝ) (i j : ι) (C : Set ι) (ρ : ℝ) : Prop :=
  ∃ u w, Residual S i C u ∧ Residual S j C w ∧ 0 < lcov S u u ∧ 0 < lcov S w w ∧
    ρ = lcov S u w / (√(lcov S u u) * √(lcov S w w))

/-- Variable `t` minus the linear combination of the variables `p a` with coefficients `β a`. -/
def remainder {κ : Type} [Fintype κ] [DecidableEq ι] (t : ι) (p : κ → ι) (β : κ → ℝ) : ι → ℝ :=
  Pi.single t 1 - ∑ a, β a • Pi.single (p a) 1

/-- `β` are the coefficients of the best linear prediction of variable `t` from the variables `p a`: every other choice leaves
a larger variance. -/
def BestPredictor {κ : Type} [Fintype κ] [DecidableEq ι] (S : Matrix ι ι ℝ) (t : ι) (p : κ → ι) (β : κ → ℝ) : Prop :=
  ∀ γ, γ ≠ β → lcov S (remainder t p β) (remainder t p β) < lcov S (remainder t p γ) (remainder t p γ)

/-- The covariance matrix of the solution of the structural equations with weights `A` for uncorrelated noise with variances
`v`; see `C50_covariance`. -/
noncomputable def semCov {K : Type} [Field K] [DecidableEq ι] (A : Matrix ι ι K) (v : ι → K) : Matrix ι ι K :=
  (1 - A)⁻¹.transpose * Matrix.diagonal v * (1 - A)⁻¹

end Spec

namespace Model

open Spec

/-- What is cached is what would be computed from the current weights and variances. -/
structure Gauss.Current {n : ℕ} {K : Type} [Field K] [DecidableEq K] (G : Gauss n K) : Prop where
  covariance : ∀ S, G.covariance = some S → S = semCov G.weight G.variances
  precision : ∀ P, G.precision = some P → P = (semCov G.weight G.variances)⁻¹

/-- The same for the correlation. -/
structure Gauss.CurrentR {n : ℕ} (G : Gauss n ℝ) : Prop extends G.Current where
  correlation : ∀ R, G.correlation = some R → ∀ a b, R a b =
    semCov G.weight G.variances a b / (√(semCov G.weight G.variances a a) * √(semCov G.weight G.variances b b))

end Model
