import Mathlib.Data.Finset.Pi
import Mathlib.Data.Finset.Image
import Mathlib.Algebra.BigOperators.Group.Finset.Basic

/-! # Discrete distributions given by a joint probability function -/

namespace Spec

open scoped Classical in
/-- The assignments that give each `v ∈ V` a value below `d v`, and `0` to everything else. -/
noncomputable def assignments {α : Type} (V : Finset α) (d : α → ℕ) : Finset (α → ℕ) :=
  (V.pi fun v => Finset.range (d v)).image fun y v => if h : v ∈ V then y v h else 0

theorem mem_assignments {α : Type} {V : Finset α} {d y : α → ℕ} :
    y ∈ assignments V d ↔ (∀ v ∈ V, y v < d v) ∧ ∀ v, v ∉ V → y v = 0 := by
  classical
  simp only [assignments, Finset.mem_image, Finset.mem_pi, Finset.mem_range]
  constructor
  · rintro ⟨z, h, rfl⟩
    exact ⟨fun v hv => by simp [hv, h], fun v hv => by simp [hv]⟩
  · rintro ⟨h1, h2⟩
    refine ⟨fun v _ => y v, h1, funext fun v => ?_⟩
    by_cases hv : v ∈ V
    · simp [hv]
    · simp [hv, h2 v hv]

open scoped Classical in
/-- The probability of the event `A` if `p y` is the probability of the assignment `y`. -/
noncomputable def prob {α R : Type} [AddCommMonoid R] (V : Finset α) (d : α → ℕ) (p : (α → ℕ) → R) (A : (α → ℕ) → Prop) :
    R := ∑ y ∈ assignments V d with A y, p y

/-- The probability of an assignment in a Bayesian network: the product of the entries of the conditional probability tables.
The table of `v` is indexed by the values of the parents, in the order of `pars v`, followed by the value of `v`. -/
def joint {α R : Type} [CommMonoid R] (V : Finset α) (pars : α → List α) (tab : α → List ℕ → R) (y : α → ℕ) : R :=
  ∏ v ∈ V, tab v ((pars v ++ [v]).map y)

end Spec
