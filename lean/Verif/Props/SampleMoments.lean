import Verif.Props.GaussFitLimit

/-! # C266: the moments of many samples -/

namespace Props

open Model Spec MeasureTheory ProbabilityTheory Filter Topology

variable {n : ℕ} {Ω : Type} [MeasurableSpace Ω] {μ : Measure Ω} [IsProbabilityMeasure μ]

private theorem moments_linear {ι : Type} [Fintype ι] [DecidableEq ι] {z : ℕ → ι → ℝ} {V : ι → ℝ}
    (hQ : ∀ p q, Tendsto (fun r => secondMoment z r p q) atTop (𝓝 (if p = q then V p else 0))) (L L' : ι → ℝ) :
    Tendsto (fun N : ℕ => (∑ a ∈ Finset.range N, (∑ p, L p * z a p) * ∑ q, L' q * z a q) / N) atTop (𝓝 (∑ p, L p * L' p * V p)) := by
  have h1 : ∀ N : ℕ, (∑ a ∈ Finset.range N, (∑ p, L p * z a p) * ∑ q, L' q * z a q) / N = ∑ p, ∑ q, L p * L' q * secondMoment z N p q := by
    intro N
    have : ∀ a, (∑ p, L p * z a p) * ∑ q, L' q * z a q = ∑ p, ∑ q, L p * L' q * (z a p * z a q) := fun a => by
      rw [Finset.sum_mul_sum]; exact Finset.sum_congr rfl fun p _ => Finset.sum_congr rfl fun q _ => by ring
    rw [Finset.sum_congr rfl fun a _ => this a, Finset.sum_comm, Finset.sum_div]
    refine Finset.sum_congr rfl fun p _ => ?_
    rw [Finset.sum_comm, Finset.sum_div]
    refine Finset.sum_congr rfl fun q _ => ?_
    rw [← Finset.mul_sum, mul_div_assoc]; rfl
  simp only [h1]
  have h2 := tendsto_finsetSum Finset.univ fun p _ => tendsto_finsetSum Finset.univ fun q _ => (hQ p q).const_mul (L p * L' q)
  simpa [mul_ite] using h2

/-- C266. Let `g` be a `GaussDAG` on the nodes `0, …, n-1` without a cached covariance matrix, with nonnegative variances, and let `m`
solve the equations of the means. With probability one, as `N` grows, `get_extended_cov(g.sample(N)) / N` converges: the entries of
the variables to `g.covariance` plus the products of the means, those of the additional column to the means and to 1. -/
theorem C266_sample_moments {G : Gauss n ℝ} (hG : G.Plain) (hc : G.covariance = none) (hv : ∀ k, 0 ≤ G.variances k)
    (o : SetOrder (Option ℕ) ℕ) (op : SetOrder ℕ ℕ) {e : ℕ × Fin n → Ω → ℝ} (he : NormalRows μ G.biases G.variances e) {m : Fin n → ℝ}
    (hm : LinearSEM G.weight G.biases m) :
    ∃ S G1, G.readCovariance = .ok (S, G1) ∧ ∀ᵐ ω ∂μ, ∃ x : ∀ N : ℕ, Fin n → Fin N → ℝ,
      (∀ N, G.sample o op (fun k (a : Fin N) => e (a, k) ω) = some (.ok (x N))) ∧
      (∀ i j, Tendsto (fun N : ℕ => Gauss.extendedCov (Matrix.of fun a i => x N i a) (some i) (some j) / N) atTop (𝓝 (S i j + m i * m j))) ∧
      (∀ i, Tendsto (fun N : ℕ => Gauss.extendedCov (Matrix.of fun a i => x N i a) (some i) none / N) atTop (𝓝 (m i)) ∧
        Tendsto (fun N : ℕ => Gauss.extendedCov (Matrix.of fun a i => x N i a) none (some i) / N) atTop (𝓝 (m i))) ∧
      Tendsto (fun N : ℕ => Gauss.extendedCov (Matrix.of fun a i => x N i a) none none / N) atTop (𝓝 1) := by
  obtain ⟨G1, hS, -⟩ := Gauss.readCovariance_fresh hc hG.acyclic
  refine ⟨_, G1, hS, ?_⟩
  filter_upwards [he.moments hv] with ω hQ
  choose x h1 h2 using fun N : ℕ => hG.sample_spec o op fun k (a : Fin N) => e (a, k) ω
  refine ⟨x, h1, ?_⟩
  let z : ℕ → Option (Fin n) → ℝ := fun a p => p.elim 1 fun k => e (a, k) ω - G.biases k
  let L : Option (Fin n) → Option (Fin n) → ℝ := fun q p =>
    match q, p with
    | some i, some k => (1 - G.weight)⁻¹ k i
    | some i, none => m i
    | none, some _ => 0
    | none, none => 1
  have hx : ∀ (N : ℕ) (a : Fin N) q, Gauss.extendedSamples (Matrix.of fun a i => x N i a) a q = ∑ p, L q p * z a p := by
    intro N a q
    rw [Fintype.sum_option]
    rcases q with _ | i
    · simp [Gauss.extendedSamples, L, z]
    · have s1 := congrFun (sem_solution hG.acyclic (h2 N) i) a
      have s2 := sem_solution hG.acyclic hm i
      simp only [Finset.sum_apply, Pi.smul_apply, smul_eq_mul] at s1 s2
      simp only [Gauss.extendedSamples, Matrix.of_apply, L, z, Option.elim, mul_one]
      rw [s1, s2, ← Finset.sum_add_distrib]
      exact Finset.sum_congr rfl fun k _ => by ring
  have hC : ∀ (N : ℕ) p q, Gauss.extendedCov (Matrix.of fun a i => x N i a) p q =
      ∑ a ∈ Finset.range N, (∑ p', L p p' * z a p') * ∑ q', L q q' * z a q' := by
    intro N p q
    unfold Gauss.extendedCov
    rw [Matrix.mul_apply, Finset.sum_range]
    exact Finset.sum_congr rfl fun a _ => by rw [Matrix.transpose_apply, hx, hx]
  have hlim := fun p q => moments_linear (z := z) hQ (L p) (L q)
  simp only [hC]
  refine ⟨fun i j => ?_, fun i => ⟨?_, ?_⟩, ?_⟩
  · convert hlim (some i) (some j) using 2
    rw [Fintype.sum_option, Matrix.mul_apply]
    simp only [Matrix.mul_diagonal, Matrix.transpose_apply, L, Option.elim, mul_one]
    rw [add_comm]
    congr 1
    exact Finset.sum_congr rfl fun k _ => by ring
  · convert hlim (some i) none using 2
    rw [Fintype.sum_option]; simp [L]
  · convert hlim none (some i) using 2
    rw [Fintype.sum_option]; simp [L]
  · convert hlim none none using 2
    rw [Fintype.sum_option]; simp [L]

/-- A case: the arc `0 → 1` with weight 2, biases 1 and 0, variances 1 and 0; the mean of variable 1 is 2. -/
example (o : SetOrder (Option ℕ) ℕ) (op : SetOrder ℕ ℕ) (oa : SetOrder Bool (ℕ × ℕ)) :
    ∃ (G : Gauss 2 ℝ) (e x : ∀ N : ℕ, Fin 2 → Fin N → ℝ), G.weight = !![0, 2; 0, 0] ∧ (∀ N, G.sample o op (e N) = some (.ok (x N))) ∧
      Tendsto (fun N : ℕ => Gauss.extendedCov (Matrix.of fun a i => x N i a) (some 1) none / N) atTop (𝓝 2) := by
  have hA : AcyclicWeights (!![0, 2; 0, 0] : Matrix (Fin 2) (Fin 2) ℝ) :=
    acyclicWeights_of_rank ![0, 1] fun i j => by fin_cases i <;> fin_cases j <;> simp
  obtain ⟨G, -, h2, h3, h4, h5, h6, -, h8, -⟩ := Gauss.fromAmat_spec oa (!![0, 2; 0, 0] : Matrix (Fin 2) (Fin 2) ℝ) ![1, 0] ![1, 0]
  have hm : LinearSEM G.weight G.biases ![1, 2] := by
    rw [h4, h5]
    intro j
    fin_cases j <;> simp
  obtain ⟨S, G1, -, h⟩ := C266_sample_moments (Linked.plain h2 h3 (h4 ▸ hA)) h8 (by
    rw [h6]; intro k; fin_cases k <;> simp) o op (normalRows_exists G.biases G.variances) hm
  obtain ⟨ω, x, g1, -, g3, -⟩ := h.exists
  exact ⟨G, _, x, h4, g1, by simpa using (g3 1).1⟩

end Props
