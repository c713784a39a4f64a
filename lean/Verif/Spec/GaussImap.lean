import Verif.Spec.Gaussian
import Verif.Spec.Markov

/-! # I-maps of a covariance matrix -/

namespace Spec

variable {ι : Type} [Fintype ι] [DecidableEq ι]

/-- d-separated variables have partial correlation zero. -/
def GaussImap (E : ι → ι → Prop) (S : Matrix ι ι ℝ) : Prop :=
  ∀ i j C, i ≠ j → i ∉ C → j ∉ C → DSep E {i} {j} C → PartialCorr S i j C 0

/-- No graph with fewer arcs is an I-map. -/
def MinimalGaussImap (E : ι → ι → Prop) (S : Matrix ι ι ℝ) : Prop :=
  GaussImap E S ∧ ∀ F : ι → ι → Prop, (∀ i j, F i j → E i j) → GaussImap F S → ∀ i j, E i j → F i j

/-- Partial correlations are zero or larger than `ε` in absolute value. -/
def NoTinyCorr (S : Matrix ι ι ℝ) (ε : ℝ) : Prop :=
  ∀ i j C ρ, i ≠ j → i ∉ C → j ∉ C → PartialCorr S i j C ρ → ρ = 0 ∨ ε < |ρ|

end Spec
