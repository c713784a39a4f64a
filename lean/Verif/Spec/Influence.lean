import Verif.Spec.Discrete
import Verif.Model.Influence
import Mathlib.Analysis.Calculus.Deriv.Basic

/-! # Influence functions in a Bayesian network -/

namespace Model.DiscreteDAG

open scoped NNReal

variable {α : Type} [DecidableEq α]

/-- A direction in which the tables of the nodes of `S` can be moved: the entries of the table of `v` are multiplied by `1 + ε h v`,
and the rows go on summing to one. -/
structure Direction (D : DiscreteDAG α) (S : Finset α) (h : α → (α → ℕ) → ℝ) : Prop where
  looks : ∀ v ∈ S, ∀ x y : α → ℕ, (∀ u ∈ D.pars v ++ [v], x u = y u) → h v x = h v y
  zero : ∀ v ∈ S, ∀ x : α → ℕ, (∀ u ∈ D.pars v, x u < D.dims u) →
    ∑ i ∈ Finset.range (D.dims v), ((D.cond v).val ((D.pars v).map x ++ [i]) : ℝ) * h v (Function.update x v i) = 0

/-- The expectation of `g` after moving the tables of the nodes of `S` by `ε` in the direction `h`. -/
noncomputable def expectAlong (D : DiscreteDAG α) (S : Finset α) (h : α → (α → ℕ) → ℝ) (g : (α → ℕ) → ℝ) (ε : ℝ) : ℝ :=
  ∑ y ∈ Spec.assignments D.dag.nodes D.dims,
    (∏ v ∈ D.dag.nodes, ((D.cond v).val ((D.pars v ++ [v]).map y) : ℝ) * if v ∈ S then 1 + ε * h v y else 1) * g y

/-- `φ` is the efficient influence function of the functional `E[g]` among the distributions of the network if the tables of the nodes of
`S` are free: it is the score of a direction, and its inner product with the score of any direction is the derivative of the functional. -/
structure EfficientInfluence (D : DiscreteDAG α) (S : Finset α) (g φ : (α → ℕ) → ℝ) : Prop where
  tangent : ∃ h, D.Direction S h ∧ ∀ y, (∀ v ∈ D.dag.nodes, y v < D.dims v) → φ y = ∑ v ∈ S, h v y
  gradient : ∀ h, D.Direction S h →
    HasDerivAt (D.expectAlong S h g) (D.expect fun y => φ y * ∑ v ∈ S, h v y) 0

open scoped Classical in
/-- The expectation of `f` given that the nodes of `s` have the values `x`. -/
noncomputable def condMean (D : DiscreteDAG α) (f : (α → ℕ) → ℝ) (s : Finset α) (x : α → ℕ) : ℝ :=
  (∑ y ∈ Spec.assignments D.dag.nodes D.dims with ∀ v ∈ s, y v = x v, (D.law y : ℝ) * f y) /
    (Spec.prob D.dag.nodes D.dims D.law fun y => ∀ v ∈ s, y v = x v : ℝ≥0)

/-- The query answers with the conditional probabilities wherever these exist. -/
def ExactQuery (D : DiscreteDAG ℕ) (q : Query) : Prop :=
  ∀ N C : List ℕ, N ≠ [] → (N ++ C).Nodup → (∀ v ∈ N ++ C, v ∈ D.dag.nodes) →
    ∀ x : ℕ → ℕ, (∀ v ∈ C, x v < D.dims v) → D.pr C x ≠ 0 →
    ∃ t, q N (C.zip (C.map x)) = .ok t ∧ t.shape = N.map D.dims ∧
      ∀ y : ℕ → ℕ, (∀ v ∈ N, y v < D.dims v) → (∀ v ∈ C, y v = x v) → t.val (N.map y) = (D.pr (N ++ C) y / D.pr C x : ℝ≥0)

/-- The inference answers, with an array of the right shape, also for evidence of probability zero. -/
def Responds (D : DiscreteDAG ℕ) (q : Query) : Prop :=
  ∀ N C : List ℕ, N ≠ [] → (N ++ C).Nodup → (∀ v ∈ N ++ C, v ∈ D.dag.nodes) → ∀ x : ℕ → ℕ, (∀ v ∈ C, x v < D.dims v) →
    ∃ t, q N (C.zip (C.map x)) = .ok t ∧ t.shape = N.map D.dims

end Model.DiscreteDAG
