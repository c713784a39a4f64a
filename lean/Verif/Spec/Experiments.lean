import Verif.Spec.Discrete

/-! # Tables before and after interventions -/

namespace Spec

open Model
open scoped NNReal

variable {α ι : Type} [DecidableEq α]

/-- The tables `D` on the graph `G` and, for each experiment `k`, the tables `X k` on the same graph after an intervention that may
change the tables of the nodes in `J k` in any way, but no other table. -/
structure Experiment (G : DAG α) (J : ι → Finset α) (D : DiscreteDAG α) (X : ι → DiscreteDAG α) : Prop where
  dag : D.dag = G
  proper : D.Proper
  dag' : ∀ k, (X k).dag = G
  proper' : ∀ k, (X k).Proper
  alph' : ∀ k, (X k).alph = D.alph
  same : ∀ k, ∀ v ∈ G.nodes, v ∉ J k → (X k).pars v = D.pars v ∧ (X k).cond v = D.cond v

/-- The alphabets `a` and the distributions `p` (without intervention) and `q k` (in experiment `k`) are those of tables on `G`. -/
def Explains (G : DAG α) (J : ι → Finset α) (a : α → List ℤ) (p : List α → (α → ℕ) → ℝ≥0) (q : ι → List α → (α → ℕ) → ℝ≥0) : Prop :=
  ∃ D X, Experiment G J D X ∧ D.alph = a ∧ D.pr = p ∧ ∀ k, (X k).pr = q k

/-- The interventions are perfect: after them the values of the targets no longer depend on the parents. -/
def Perfect (J : ι → Finset α) (X : ι → DiscreteDAG α) : Prop :=
  ∀ k, ∀ v ∈ J k, ∀ x y : α → ℕ, (∀ u ∈ (X k).pars v, x u < (X k).dims u ∧ y u < (X k).dims u) → ∀ i < (X k).dims v,
    ((X k).cond v).val (((X k).pars v).map x ++ [i]) = ((X k).cond v).val (((X k).pars v).map y ++ [i])

/-- The same for perfect interventions. -/
def ExplainsPerfect (G : DAG α) (J : ι → Finset α) (a : α → List ℤ) (p : List α → (α → ℕ) → ℝ≥0) (q : ι → List α → (α → ℕ) → ℝ≥0) : Prop :=
  ∃ D X, Experiment G J D X ∧ Perfect J X ∧ D.alph = a ∧ D.pr = p ∧ ∀ k, (X k).pr = q k

end Spec
