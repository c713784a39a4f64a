import Verif.Proof.DiscreteTorch
import Verif.Props.Discrete

/-! # C184: marginals of `DiscreteDAGTorch` -/

namespace Props

open Model Spec
open scoped NNReal ENNReal
variable {α : Type} [DecidableEq α] {D : DiscreteDAG α}

/-- C184. `DiscreteDAGTorch.get_marginals(nodes)` returns the marginal distribution, also if some probabilities are tiny. -/
theorem C184_marginals (hD : D.Proper) (o ot : SetOrder (Option α) α) (oa : SetOrder Bool (α × α)) (os : SetOrder (α × Finset α) α)
    (on : SetOrder Unit α) {M : List α} (hM : M.Nodup) (h0 : M ≠ []) (hMn : ∀ v ∈ M, v ∈ D.dag.nodes) :
    ∃ T, (D.torchMarginals o ot oa os on EReal.exp M).run = some (.ok T) ∧ T.shape = M.map D.dims ∧
      ∀ x : α → ℕ, (∀ v ∈ M, x v < D.dims v) → T.val (M.map x) = (D.pr M x : ℝ≥0∞) := by
  obtain ⟨T, h1, h2, h3⟩ := DiscreteDAG.getMarginalsBy_run hD (DiscreteDAG.logs_npLog D) o ot oa os on EReal.exp hM h0 hMn
  refine ⟨T, h1, h2, fun x hx => ?_⟩
  obtain ⟨e, h4, h5⟩ := h3 x hx
  rw [h4, h5]

/-- C184. `get_marginals(nodes, log=True)` returns the logarithms. -/
theorem C184_log (hD : D.Proper) (o ot : SetOrder (Option α) α) (oa : SetOrder Bool (α × α)) (os : SetOrder (α × Finset α) α)
    (on : SetOrder Unit α) {M : List α} (hM : M.Nodup) (h0 : M ≠ []) (hMn : ∀ v ∈ M, v ∈ D.dag.nodes) :
    ∃ T, (D.torchMarginals o ot oa os on id M).run = some (.ok T) ∧ T.shape = M.map D.dims ∧
      ∀ x : α → ℕ, (∀ v ∈ M, x v < D.dims v) → T.val (M.map x) = ENNReal.log (D.pr M x) := by
  obtain ⟨T, h1, h2, h3⟩ := DiscreteDAG.getMarginalsBy_run hD (DiscreteDAG.logs_npLog D) o ot oa os on id hM h0 hMn
  refine ⟨T, h1, h2, fun x hx => ?_⟩
  obtain ⟨e, h4, h5⟩ := h3 x hx
  rw [h4, ← h5, EReal.log_exp]; rfl

/-- C184. `get_marginals_torch(nodes)` returns the marginal distribution. -/
theorem C184_einsum (hD : D.Proper) (o ot : SetOrder (Option α) α) (oa : SetOrder Bool (α × α)) (os : SetOrder (α × Finset α) α)
    (on : SetOrder Unit α) {M : List α} (hM : M.Nodup) (h0 : M ≠ []) (hMn : ∀ v ∈ M, v ∈ D.dag.nodes) :
    ∃ T, (D.einsumMarginals o ot oa os on M).run = some (.ok T) ∧ T.shape = M.map D.dims ∧
      ∀ x : α → ℕ, (∀ v ∈ M, x v < D.dims v) → T.val (M.map x) = D.pr M x :=
  DiscreteDAG.einsumMarginals_run hD o ot oa os on hM h0 hMn

/-- C184. Without nodes both functions raise. -/
theorem C184_no_nodes (hD : D.Proper) (o ot : SetOrder (Option α) α) (oa : SetOrder Bool (α × α)) (os : SetOrder (α × Finset α) α)
    (on : SetOrder Unit α) :
    (∃ e, (D.torchMarginals o ot oa os on EReal.exp []).run = some (.error e)) ∧
      ∃ e, (D.einsumMarginals o ot oa os on []).run = some (.error e) :=
  ⟨⟨_, (DiscreteDAG.einsumMarginals_empty hD o ot oa os on _).2⟩, ⟨_, (DiscreteDAG.einsumMarginals_empty hD o ot oa os on EReal.exp).1⟩⟩

example : ∃ T, ((Sample.parity {((0 : Fin 3), 2), (1, 2)}).einsumMarginals Sample.order Sample.order Sample.order Sample.order
    Sample.order [2, 0]).run = some (.ok T) ∧ T.shape = [2, 2] := by
  obtain ⟨T, h1, h2, -⟩ := C184_einsum (D := Sample.parity {((0 : Fin 3), 2), (1, 2)}) (Sample.parity_proper (by decide)) Sample.order
    Sample.order Sample.order Sample.order Sample.order (M := [2, 0]) (by decide) (by decide) (fun v _ => Finset.mem_univ v)
  exact ⟨T, h1, h2⟩

/-- The probability that `get_marginal` of `DiscreteDAG` loses (`C127_violated`). -/
example : ∃ T, (tiny.torchMarginals Sample.order Sample.order Sample.order Sample.order Sample.order EReal.exp [0]).run = some (.ok T) ∧
    T.val [1] = (tiny.pr [0] (fun _ => 1) : ℝ≥0∞) := by
  obtain ⟨T, h1, -, h3⟩ := C184_marginals tiny_proper Sample.order Sample.order Sample.order Sample.order Sample.order (M := [0])
    (by decide) (by decide) (fun v _ => Finset.mem_univ v)
  exact ⟨T, h1, h3 (fun _ => 1) fun v _ => by change 1 < 2; omega⟩

end Props
