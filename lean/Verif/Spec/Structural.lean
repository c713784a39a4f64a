import Mathlib.Data.Fin.Basic

/-! # Structural equations -/

namespace Spec

/-- Position `a` carries the node `names a`, whose parents are listed by `pa`. Every value is the function of its position
at the values of its parents. -/
def Solves {n : ℕ} {α S : Type} (names : Fin n → α) (pa : α → List α) (f : Fin n → List S → S) (x : Fin n → S) : Prop :=
  ∀ a, ∃ ps : List (Fin n), ps.map names = pa (names a) ∧ x a = f a (ps.map x)

end Spec
