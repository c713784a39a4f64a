import Verif.Model.GGM
import Verif.Spec.Gaussian
import Verif.Spec.Undirected
import Mathlib.LinearAlgebra.Matrix.PosDef

/-! # What a `GGM` is meant to be -/

namespace Model.GGM

variable {n : ℕ}

/-- What is cached belongs to the precision matrix. -/
structure Current (G : GGM n) : Prop where
  covariance : ∀ S, G.covariance = some S → S = G.precision⁻¹
  correlation : ∀ R, G.correlation = some R → ∀ a b, R a b = G.precision⁻¹ a b / (√(G.precision⁻¹ a a) * √(G.precision⁻¹ b b))

/-- The nodes are the row numbers, and the edges are the nonzero entries off the diagonal. -/
structure Drawn (G : GGM n) : Prop where
  nodes : ∀ v, v ∈ G.graph.nodes ↔ v < n
  edges : ∀ a b : Fin n, G.graph.hasEdge a b = true ↔ a ≠ b ∧ G.precision a b ≠ 0

end Model.GGM
