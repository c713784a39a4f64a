import Verif.Model.DiscreteLearn
import Verif.Spec.DiscreteSample

/-! # Classifiers -/

namespace Model

open scoped NNReal

/-- The predicted probability of class `c` for the row `z`. -/
noncomputable def Classifier.prob (m : Classifier) (z : List ℤ) (c : ℕ) : ℝ≥0 := if c ∈ m.classes then m.proba z (m.classes.idxOf c) else 0

/-- What is asked of a method: for a column with several values the classes are these values in increasing order, and the predicted
probabilities sum to one. -/
def Trains {N : ℕ} (train : Trainer N) : Prop :=
  ∀ X y, (∃ i j, y i ≠ y j) → ∃ m, train X y = .ok m ∧ m.classes.Pairwise (· < ·) ∧ (∀ c, c ∈ m.classes ↔ ∃ j, y j = c) ∧
    ∀ z, ∑ i ∈ Finset.range m.classes.length, m.proba z i = 1

end Model
