import Verif.Model.AdditiveBasis

/-! # Additive structural equations with prescribed variances -/

namespace Spec

open Model

variable {α : Type} [DecidableEq α] {N : ℕ}

/-- The mean of the squared deviations from the mean. -/
noncomputable def variance (x : Fin N → ℝ) : ℝ := (∑ j, (x j - (∑ k, x k) / N) ^ 2) / N

/-- `c` times the weighted sum of the bases at the values of the parents. -/
noncomputable def additiveMean (c : ℝ) (terms : List (α × ℝ × (ℝ → ℝ))) (x : α → Fin N → ℝ) : Fin N → ℝ :=
  fun j => c * (terms.map fun t => t.2.1 * t.2.2 (x t.1 j)).sum

/-- The parents of `v`, in the order in which the set of parents is iterated over, with their weights and bases. -/
def drawnTerms (G : DAG α) (op : SetOrder α α) (D : AdditiveDraws α N) (v : α) : List (α × ℝ × (ℝ → ℝ)) :=
  (op.ord v (G.parents v)).zip ((D.weights v).zip (D.bases v))

/-- As many bases and weights as parents. -/
structure DrawsFit (G : DAG α) (D : AdditiveDraws α N) : Prop where
  bases : ∀ v ∈ G.nodes, (D.bases v).length = (G.parents v).card
  weights : ∀ v ∈ G.nodes, (D.weights v).length = (G.parents v).card

/-- At the nodes `P`, the coefficients `c` and `b` and the columns `x` satisfy the additive equations with the drawn noise. The part that
comes from the parents has variance `r2`, and the noise `1 - r2`; for a node without parents the noise has variance one. -/
structure CalibratedOn (P : Set α) (G : DAG α) (op : SetOrder α α) (r2 : R2Dict α) (D : AdditiveDraws α N) (c b : α → ℝ)
    (x : α → Fin N → ℝ) : Prop where
  equation : ∀ v ∈ P, ∀ j, x v j = additiveMean (c v) (drawnTerms G op D v) x j + b v * D.noise v j
  nonneg : ∀ v ∈ P, 0 ≤ c v ∧ 0 ≤ b v
  root : ∀ v ∈ P, (∀ u, (u, v) ∉ G.arcs) → variance (fun j => b v * D.noise v j) = 1
  inner : ∀ v ∈ P, ∀ u, (u, v) ∈ G.arcs → ∃ r, r2.get v (G.parents v).card = some r ∧
    variance (additiveMean (c v) (drawnTerms G op D v) x) = r ∧ variance (fun j => b v * D.noise v j) = 1 - r

/-- No noise is constant, and no weighted sum of bases of calibrated parents is constant. -/
structure NonConstant (G : DAG α) (op : SetOrder α α) (r2 : R2Dict α) (D : AdditiveDraws α N) : Prop where
  noise : ∀ v ∈ G.nodes, variance (D.noise v) ≠ 0
  parents : ∀ v ∈ G.nodes, ∀ P c b x, (∀ u, (u, v) ∈ G.arcs → u ∈ P) → CalibratedOn P G op r2 D c b x → (∃ u, (u, v) ∈ G.arcs) →
    variance (additiveMean 1 (drawnTerms G op D v) x) ≠ 0

end Spec
