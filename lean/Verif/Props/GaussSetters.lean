import Verif.Model.GaussSetters
import Verif.Model.GaussFactor
import Verif.Props.Gauss
import Verif.Props.GaussCache

/-! # C262: biases and variances of nodes; singular covariances (C113); the weight matrix seen by the caller (C255) -/

namespace Props

open Model

set_option linter.unusedSectionVars false

variable {n : ℕ} {K : Type} [Field K] [DecidableEq K]

/-- C262. If the labels are the positions, `set_node_bias` raises nothing, sets the bias of the node and changes nothing else. -/
theorem C262_bias_partial {G : Gauss n K} (hG : ∀ a, G.names a = a) (a : Fin n) (b : K) :
    ∃ G', G.setNodeBias (G.names a) b = (G', none) ∧ G'.biases a = b ∧ (∀ c, c ≠ a → G'.biases c = G.biases c) ∧
      G'.dag = G.dag ∧ G'.names = G.names ∧ G'.weight = G.weight ∧ G'.variances = G.variances := by
  refine ⟨{ G with biases := Function.update G.biases a b }, ?_, by simp, fun c hc => by simp [hc], rfl, rfl, rfl, rfl⟩
  simp [Gauss.setNodeBias, hG, Gauss.at?]

/-- C262. If the labels are the positions, `set_node_variance` raises nothing, sets the variance of the node and changes nothing else. -/
theorem C262_variance_partial {G : Gauss n K} (hG : ∀ a, G.names a = a) (a : Fin n) (x : K) :
    ∃ G', G.setNodeVariance (G.names a) x = (G', none) ∧ G'.variances a = x ∧ (∀ c, c ≠ a → G'.variances c = G.variances c) ∧
      G'.dag = G.dag ∧ G'.names = G.names ∧ G'.weight = G.weight ∧ G'.biases = G.biases := by
  refine ⟨{ G with variances := Function.update G.variances a x }, ?_, by simp, fun c hc => by simp [hc], rfl, rfl, rfl, rfl⟩
  simp [Gauss.setNodeVariance, hG, Gauss.at?]

/-- C262. `set_node_mean` raises for every node, after it has set the bias. -/
theorem C262_mean_partial {G : Gauss n K} (hG : ∀ a, G.names a = a) (a : Fin n) (b : K) :
    ∃ G', G.setNodeMean (G.names a) b = (G', some .plain) ∧ G'.biases a = b ∧ (∀ c, c ≠ a → G'.biases c = G.biases c) := by
  obtain ⟨G', h1, h2, h3, -⟩ := C262_bias_partial hG a b
  exact ⟨G', by simp [Gauss.setNodeMean, h1], h2, h3⟩

/-- C262. Labels that are not positions raise `IndexError`, and nothing is changed. -/
theorem C262_index_partial (G : Gauss n K) {i : ℕ} (hi : n ≤ i) (x : K) :
    G.setNodeBias i x = (G, some .index) ∧ G.setNodeVariance i x = (G, some .index) ∧ G.setNodeMean i x = (G, some .index) := by
  have : Gauss.at? n i = none := by simp [Gauss.at?, Nat.not_lt.2 hi]
  simp [Gauss.setNodeMean, Gauss.setNodeBias, Gauss.setNodeVariance, this]

/-- C262, violated: with nodes `[1, 0]`, `set_node_bias(1, 5)` and `set_node_variance(1, 5)` change node 0, not node 1. -/
theorem C262_violated (oa : SetOrder Bool (ℕ × ℕ)) : ∃ G : Gauss 2 ℚ, Gauss.new oa ![1, 0] [] 0 1 = (G, none) ∧ G.names 0 = 1 ∧ G.names 1 = 0 ∧
    ((G.setNodeBias 1 5).1.biases 0 = 0 ∧ (G.setNodeBias 1 5).1.biases 1 = 5) ∧
    (G.setNodeVariance 1 5).1.variances 0 = 1 ∧ (G.setNodeVariance 1 5).1.variances 1 = 5 := by
  refine ⟨_, rfl, rfl, rfl, ⟨rfl, rfl⟩, rfl, rfl⟩

example (oa : SetOrder Bool (ℕ × ℕ)) : ∃ G : Gauss 2 ℚ, Gauss.new oa Fin.val [] 0 1 = (G, none) ∧ ∀ a, G.names a = a :=
  ⟨_, rfl, fun _ => rfl⟩

/-- C113, the error branch: `from_covariance` raises for every singular matrix. -/
theorem C113_singular (oa : SetOrder Bool (ℕ × ℕ)) {S : Matrix (Fin n) (Fin n) ℝ} (hS : S.det = 0) (order : Fin n ≃ Fin n) (check : Bool) :
    Gauss.fromCovariance oa S order check = some (.error .value) := by
  unfold Gauss.fromCovariance Gauss.invOrRaise
  split_ifs <;> rfl

example : (!![1, 1; 1, 1] : Matrix (Fin 2) (Fin 2) ℝ).det = 0 := by simp [Matrix.det_fin_two]

/-- C255. The caller who builds a Gaussian DAG and reads `weight_mat` sees the weights of the dictionary in the rows of the sources and the columns
of the targets, and zeros elsewhere. -/
theorem C255_weight_mat_partial (w : GaussCache.Orders) {names : Fin n → ℕ} (hi : Function.Injective names)
    {arcs : List ((ℕ × ℕ) × ℝ)} (hk : ∀ e ∈ arcs, (∃ a, names a = e.1.1) ∧ ∃ b, names b = e.1.2)
    (hn : (arcs.map Prod.fst).Nodup) (biases variances : Fin n → ℝ) :
    ∃ H W, GaussCache.Mem.init.run w [.new names arcs biases variances, .read 0 .weightMat] = some (H, [.nothing, .matrix W]) ∧
      (∀ a b v, ((names a, names b), v) ∈ arcs → W a b = v) ∧ ∀ a b, (∀ v, ((names a, names b), v) ∉ arcs) → W a b = 0 := by
  obtain ⟨G, h1, -, -, -, -, -, h2, h3, -⟩ := C77_constructor_partial w.arcs hi hk hn biases variances
  have hr : ∃ H, GaussCache.Mem.init.run w [.new names arcs biases variances, .read 0 .weightMat] = some (H, [.nothing, .matrix G.weight]) := by
    simp [GaussCache.Mem.run, GaussCache.Mem.exec, h1, GaussCache.Mem.init, GaussCache.Copied.run]
  obtain ⟨H, hr⟩ := hr
  exact ⟨H, G.weight, hr, h2, h3⟩

example : ∀ e ∈ [((3, 5), (2 : ℝ))], (∃ a, (![3, 5] : Fin 2 → ℕ) a = e.1.1) ∧ ∃ b, (![3, 5] : Fin 2 → ℕ) b = e.1.2 := by
  intro e he
  rw [List.mem_singleton] at he
  subst he
  exact ⟨⟨0, rfl⟩, 1, rfl⟩

end Props
