import Verif.Spec.Linear
import Mathlib.MeasureTheory.MeasurableSpace.Constructions
import Mathlib.Data.Real.Basic

/-! # Conditioning on the parents -/

namespace Spec

/-- The values of the parents of `a`, as one random variable. -/
def parentValues {n : ℕ} {Ω : Type} (A : Matrix (Fin n) (Fin n) ℝ) (x : Fin n → Ω → ℝ) (a : Fin n) :
    Ω → ({p : Fin n // A p a ≠ 0} → ℝ) :=
  fun ω p => x p ω

end Spec
