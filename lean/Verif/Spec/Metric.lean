import Verif.Spec.Digraph
import Mathlib.Data.Set.Card

/-! # Pairs of nodes on which two graphs differ -/

namespace Spec

universe u
variable {α : Type u} [DecidableEq α]

/-- The unordered pairs for which a symmetric relation holds. -/
def pairsOf (R : α → α → Prop) : Set (Finset α) := {s | ∃ i j, i ≠ j ∧ s = {i, j} ∧ R i j}

/-- Two graphs with arcs `A`, `A'` and undirected edges `U`, `U'` treat the pair `i`, `j` differently (none, forward,
backward, undirected). -/
def Differ (A U A' U' : α → α → Prop) (i j : α) : Prop :=
  ¬ ((A i j ↔ A' i j) ∧ (A j i ↔ A' j i) ∧ (U i j ↔ U' i j))

/-- The pair is adjacent in one graph only. -/
def AdjDiffer (R R' : α → α → Prop) (i j : α) : Prop := ¬ (R i j ↔ R' i j)

end Spec
