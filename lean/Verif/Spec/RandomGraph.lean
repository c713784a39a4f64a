import Mathlib.Data.Real.Basic
import Mathlib.Data.List.Permutation
import Mathlib.Data.List.OfFn
import Mathlib.Algebra.BigOperators.Group.Finset.Basic
import Mathlib.Data.Fintype.Pi

/-! # Independent coins and a uniformly random permutation -/

namespace Spec.Random

/-- The possible outcomes of `N` coins. -/
def coins (N : ℕ) : Finset (List Bool) := Finset.univ.image (List.ofFn : (Fin N → Bool) → List Bool)

/-- The probability of an outcome, if the coins are independent and show heads with probability `p`. -/
def coinProb (p : ℝ) (bs : List Bool) : ℝ := (bs.map fun b => if b then p else 1 - p).prod

/-- The orders of `0, …, n-1`. -/
def permutations (n : ℕ) : Finset (List ℕ) := (List.range n).permutations.toFinset

/-- The expectation of a quantity that depends on `N` coins. -/
def coinMean (p : ℝ) (N : ℕ) (X : List Bool → ℝ) : ℝ := ∑ b ∈ coins N, coinProb p b * X b

/-- The expectation of a quantity that depends on `N` coins and an independent uniformly random permutation. -/
noncomputable def mean (p : ℝ) (N n : ℕ) (X : List Bool → List ℕ → ℝ) : ℝ :=
  (∑ t ∈ permutations n, coinMean p N fun b => X b t) / (permutations n).card

open Classical in
/-- The probability of an event that depends on `N` coins. -/
noncomputable def coinPr (p : ℝ) (N : ℕ) (ev : List Bool → Prop) : ℝ := coinMean p N fun b => if ev b then 1 else 0

open Classical in
/-- The probability of an event that depends on `N` coins and an independent uniformly random permutation. -/
noncomputable def pr (p : ℝ) (N n : ℕ) (ev : List Bool → List ℕ → Prop) : ℝ := mean p N n fun b t => if ev b t then 1 else 0

end Spec.Random
