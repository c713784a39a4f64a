import Verif.Spec.Hidden
import Verif.Spec.AGViews
import Verif.Spec.Discrete

/-! # Distributions with hidden causes and selection -/

namespace Spec

open Model

variable {α : Type} [DecidableEq α]

/-- `D` are tables for the nodes of the ancestral graph `G`, for the hidden common causes of its bidirected edges and for the common effects
of its undirected edges. -/
structure HiddenTables (G : AG α) (D : DiscreteDAG (α ⊕ Finset α)) : Prop where
  proper : D.Proper
  arcs : D.dag.E = Hidden G.mixed
  nodes : ∀ v, .inl v ∈ D.dag.nodes ↔ v ∈ G.nodes

/-- The common effects, on which all observations are conditioned. -/
noncomputable def selection (G : AG α) : List (α ⊕ Finset α) := G.undirected.toList.map .inr

/-- For the values `x`: P(A, B, C, s) P(C, s) = P(A, C, s) P(B, C, s), where `s` are the values of the common effects. -/
def IndepAt (G : AG α) (D : DiscreteDAG (α ⊕ Finset α)) (A B C : List α) (x : α ⊕ Finset α → ℕ) : Prop :=
  D.pr (A.map .inl ++ B.map .inl ++ (C.map .inl ++ selection G)) x * D.pr (C.map .inl ++ selection G) x =
    D.pr (A.map .inl ++ (C.map .inl ++ selection G)) x * D.pr (B.map .inl ++ (C.map .inl ++ selection G)) x

/-- In the samples with the values `s` of the common effects, `A` and `B` are independent given `C`, for all `s`. -/
def Indep (G : AG α) (D : DiscreteDAG (α ⊕ Finset α)) (A B C : List α) : Prop :=
  ∀ x : α ⊕ Finset α → ℕ, (∀ v ∈ D.dag.nodes, x v < D.dims v) → IndepAt G D A B C x

/-- In the network `D`: P(A, B, C) P(C) = P(A, C) P(B, C) for all values. -/
def Independent (D : DiscreteDAG α) (A B C : List α) : Prop :=
  ∀ x : α → ℕ, (∀ v ∈ A ++ B ++ C, x v < D.dims v) → D.pr (A ++ B ++ C) x * D.pr C x = D.pr (A ++ C) x * D.pr (B ++ C) x

end Spec
