import Verif.Spec.GaussFamily

/-! # Linear structural equations before and after interventions -/

namespace Spec

variable {n : ℕ}

/-- The equations with weights `A`, constants `b` and error variances `v` are equations on the graph `E`; their solution has covariance
matrix `S` and mean `m`. -/
structure EquationsOn (E : ℕ → ℕ → Prop) (A : Matrix (Fin n) (Fin n) ℝ) (b v : Fin n → ℝ) (S : Matrix (Fin n) (Fin n) ℝ) (m : Fin n → ℝ) :
    Prop where
  arcs : ∀ i j, A i j ≠ 0 → E i.val j.val
  pos : ∀ i, 0 < v i
  cov : S = semCov A v
  mean : LinearSEM A b m

/-- The normal distribution with covariance matrix `S` and mean `m` (without intervention) and those with `T k`, `μ k` (in experiment `k`)
come from linear structural equations on the graph `E`. Experiment `k` changes only the equations of its targets `J k`: weights of arcs
from the parents, constant and error variance. If the interventions are `perfect`, the targets no longer depend on their parents. -/
def GaussExplains {κ : Type} (perfect : Prop) (E : ℕ → ℕ → Prop) (J : κ → Finset ℕ) (S : Matrix (Fin n) (Fin n) ℝ) (m : Fin n → ℝ)
    (T : κ → Matrix (Fin n) (Fin n) ℝ) (μ : κ → Fin n → ℝ) : Prop :=
  ∃ A b v, EquationsOn E A b v S m ∧ ∀ k, ∃ A' b' v', EquationsOn E A' b' v' (T k) (μ k) ∧
    (∀ j, j.val ∉ J k → (∀ i, A' i j = A i j) ∧ v' j = v j ∧ b' j = b j) ∧ (perfect → ∀ j, j.val ∈ J k → ∀ i, A' i j = 0)

end Spec
