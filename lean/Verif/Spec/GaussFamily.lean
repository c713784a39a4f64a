import Verif.Spec.Gaussian

/-! # The Gaussian distributions of a graph -/

namespace Spec

variable {n : ℕ}

/-- The normal distribution with covariance matrix `S` and mean `m` is that of linear structural equations on the graph `E`, whose
nodes are `0, …, n - 1`: every variable is a linear combination of its parents plus a constant plus an independent error of positive
variance. -/
def GaussOn (E : ℕ → ℕ → Prop) (S : Matrix (Fin n) (Fin n) ℝ) (m : Fin n → ℝ) : Prop :=
  ∃ (A : Matrix (Fin n) (Fin n) ℝ) (b v : Fin n → ℝ), (∀ i j, A i j ≠ 0 → E i.val j.val) ∧ (∀ i, 0 < v i) ∧ S = semCov A v ∧
    LinearSEM A b m

end Spec
