import Verif.Spec.Mixed
import Mathlib.Data.Finset.Insert

/-! # Mixed graphs as graphs with hidden causes and with selection

Richardson and Spirtes (2002), section 6.1: every bidirected edge stands for a hidden common cause, every undirected edge for a common
effect that decides whether a sample is kept. -/

namespace Spec

variable {α : Type} [DecidableEq α]

/-- The directed graph with a further node for every edge that is not directed: a common cause for `u ↔ v`, a common effect for `u − v`. -/
inductive Hidden (M : Mixed α) : α ⊕ Finset α → α ⊕ Finset α → Prop
  | dir {u v : α} : M.dir u v → Hidden M (.inl u) (.inl v)
  | cause {u v : α} : M.bi u v → Hidden M (.inr {u, v}) (.inl v)
  | effect {u v : α} : M.un u v → Hidden M (.inl u) (.inr {u, v})

/-- The common effects that decide about the selection. -/
def Selected (M : Mixed α) : Set (α ⊕ Finset α) := {s | ∃ u v, M.un u v ∧ s = .inr {u, v}}

end Spec
