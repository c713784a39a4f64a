import Verif.Model.Pgm
import Verif.Spec.Digraph

/-! # Bayesian networks of `pgmpy` -/

namespace Spec

open Model
open scoped NNReal

variable {β : Type} [DecidableEq β]

/-- What `check_model` asks for: a table for each node, with the parents as evidence and an axis of length `card u` for each variable `u`. -/
structure PgmFits (M : Pgm β) (card : β → ℕ) : Prop where
  fst_mem : ∀ a ∈ M.arcs, a.1 ∈ M.nodes
  snd_mem : ∀ a ∈ M.arcs, a.2 ∈ M.nodes
  acyclic : Acyclic fun a b => (a, b) ∈ M.arcs
  table : ∀ v ∈ M.nodes, ∃ ev t, M.cpd v = some (ev, t) ∧ ev.Nodup ∧ (∀ u, u ∈ ev ↔ (u, v) ∈ M.arcs) ∧ t.shape = (v :: ev).map card

/-- The probability of an assignment. The first axis of a table belongs to the node itself. -/
noncomputable def pgmLaw (M : Pgm β) (x : β → ℕ) : ℝ≥0 :=
  ∏ v ∈ M.nodes, match M.cpd v with
    | some (ev, t) => t.val ((v :: ev).map x)
    | none => 0

end Spec
