import Verif.Spec.Digraph
import Mathlib.Data.Matrix.Mul

/-! # Linear structural equations -/

namespace Spec

variable {ι K M : Type} [Fintype ι]

/-- `x_j = Σ_i A_ij x_i + e_j` for every `j`. -/
def LinearSEM [Semiring K] [AddCommMonoid M] [Module K M] (A : Matrix ι ι K) (e x : ι → M) : Prop :=
  ∀ j, x j = ∑ i, A i j • x i + e j

/-- The graph of the nonzero weights has no directed cycle. -/
def AcyclicWeights [Zero K] (A : Matrix ι ι K) : Prop := Acyclic fun i j => A i j ≠ 0

end Spec
