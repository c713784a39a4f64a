import Verif.Model.Discrete
import Verif.Spec.Bayes
import Verif.Spec.Views

/-! # What a `DiscreteDAG` is meant to be -/

namespace Model.DiscreteDAG

open scoped NNReal

variable {α : Type} [DecidableEq α]

/-- The tables fit the graph, which may have further arcs: the nodes that the table of a node depends on are parents, listed once each, and
the shapes are right. -/
structure Fits (D : DiscreteDAG α) : Prop where
  valid : D.dag.Valid
  nodup : ∀ v ∈ D.dag.nodes, (D.pars v).Nodup
  pars_sub : ∀ v ∈ D.dag.nodes, ∀ u ∈ D.pars v, (u, v) ∈ D.dag.arcs
  shape : ∀ v ∈ D.dag.nodes, (D.cond v).shape = (D.pars v ++ [v]).map D.dims

/-- The same, and each row of a table sums to one. -/
structure Tabled (D : DiscreteDAG α) : Prop extends Fits D where
  total : ∀ v ∈ D.dag.nodes, ∀ x : α → ℕ, (∀ u ∈ D.pars v, x u < D.dims u) →
    ∑ i ∈ Finset.range (D.dims v), (D.cond v).val ((D.pars v).map x ++ [i]) = 1

/-- The tables fit the graph exactly: the parents are listed once each and the shapes are right (the constructor checks the latter). -/
structure Shaped (D : DiscreteDAG α) : Prop where
  valid : D.dag.Valid
  nodup : ∀ v ∈ D.dag.nodes, (D.pars v).Nodup
  pars_iff : ∀ v ∈ D.dag.nodes, ∀ u, u ∈ D.pars v ↔ (u, v) ∈ D.dag.arcs
  shape : ∀ v ∈ D.dag.nodes, (D.cond v).shape = (D.pars v ++ [v]).map D.dims

/-- The tables of the object are conditional probability tables of its graph: moreover each row sums to one. -/
structure Proper (D : DiscreteDAG α) : Prop extends Shaped D where
  total : ∀ v ∈ D.dag.nodes, ∀ x : α → ℕ, (∀ u ∈ D.pars v, x u < D.dims u) →
    ∑ i ∈ Finset.range (D.dims v), (D.cond v).val ((D.pars v).map x ++ [i]) = 1

theorem Shaped.fits {D : DiscreteDAG α} (h : D.Shaped) : D.Fits :=
  ⟨h.valid, h.nodup, fun v hv u hu => (h.pars_iff v hv u).1 hu, h.shape⟩

theorem Proper.tabled {D : DiscreteDAG α} (h : D.Proper) : D.Tabled := ⟨h.toShaped.fits, h.total⟩

instance {D : DiscreteDAG α} : Coe D.Shaped D.Fits := ⟨Shaped.fits⟩
instance {D : DiscreteDAG α} : Coe D.Proper D.Tabled := ⟨Proper.tabled⟩
instance {D : DiscreteDAG α} : Coe D.Proper D.Fits := ⟨fun h => h.toShaped.fits⟩

/-- No entry of a table is positive but at most `1e-10`. -/
def Cut (D : DiscreteDAG α) : Prop :=
  ∀ v ∈ D.dag.nodes, ∀ x : α → ℕ, (∀ u ∈ D.pars v ++ [v], x u < D.dims u) →
    (D.cond v).val ((D.pars v ++ [v]).map x) = 0 ∨ 1 / 10 ^ 10 < (D.cond v).val ((D.pars v ++ [v]).map x)

/-- The joint distribution. -/
noncomputable def law (D : DiscreteDAG α) : (α → ℕ) → ℝ≥0 := Spec.joint D.dag.nodes D.pars fun v => (D.cond v).val

/-- The probability that the nodes of `S` have the values given by `x`. -/
noncomputable def pr (D : DiscreteDAG α) (S : List α) (x : α → ℕ) : ℝ≥0 :=
  Spec.prob D.dag.nodes D.dims D.law fun y => ∀ v ∈ S, y v = x v

/-- The conditional probability of the values of `N` given those of `C`, uniform if the condition has probability zero. -/
noncomputable def condPr (D : DiscreteDAG α) (N C : List α) (x : α → ℕ) : ℝ≥0 :=
  if D.pr C x = 0 then 1 / ((N.map D.dims).prod : ℝ≥0) else D.pr (N ++ C) x / D.pr C x

/-- The expectation of a function of the values. -/
noncomputable def expect (D : DiscreteDAG α) (g : (α → ℕ) → ℝ) : ℝ :=
  ∑ y ∈ Spec.assignments D.dag.nodes D.dims, (D.law y : ℝ) * g y

end Model.DiscreteDAG
