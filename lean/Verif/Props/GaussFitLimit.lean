import Verif.Proof.GaussFitLimit
import Verif.Props.GaussFit
import Mathlib.Probability.Independence.InfinitePi

/-! # C265: `fit_mle` on samples of a `GaussDAG` -/

namespace Props

open Model Spec MeasureTheory ProbabilityTheory Filter Topology

variable {n : ℕ} {Ω : Type} [MeasurableSpace Ω] {μ : Measure Ω} [IsProbabilityMeasure μ]

/-- C265 (partial: the variances have to be divided by the number of samples). Let `g` be a `GaussDAG` on the nodes `0, …, n-1` with
positive variances and let `dag` be a DAG on the same nodes that has all arcs of `g`. Neither `g.sample(N)` nor
`fit_mle(dag, g.sample(N))` raises anything, and with probability one, as `N` grows, the fitted weights and biases converge to those
of `g`, and the fitted variances divided by `N` to the variances of `g`. -/
theorem C265_partial {G : Gauss n ℝ} (hG : G.Plain) (hv : ∀ k, 0 < G.variances k) {D : DAG ℕ} (hD : D.Sortable)
    (hn : ∀ v, v ∈ D.nodes ↔ v < n) (hs : ∀ i j, (i, j) ∈ G.dag.arcs → (i, j) ∈ D.arcs) (lstsq : Gauss.Lstsq)
    (o : SetOrder (Option ℕ) ℕ) (op op' : SetOrder ℕ ℕ) (od : SetOrder Unit ℕ) (oa : SetOrder Bool (ℕ × ℕ))
    {e : ℕ × Fin n → Ω → ℝ} (he : NormalRows μ G.biases G.variances e) :
    ∀ᵐ ω ∂μ, ∃ (x : ∀ N : ℕ, Fin n → Fin N → ℝ) (F : ℕ → Gauss n ℝ),
      (∀ N, G.sample o op (fun k (a : Fin N) => e (a, k) ω) = some (.ok (x N)) ∧
        Gauss.fitMle lstsq od op' oa D (Matrix.of fun a i => x N i a) = .ok (F N)) ∧
      (∀ i j, Tendsto (fun N => (F N).weight i j) atTop (𝓝 (G.weight i j))) ∧
      (∀ j, Tendsto (fun N => (F N).biases j) atTop (𝓝 (G.biases j))) ∧
      ∀ j, Tendsto (fun N : ℕ => (F N).variances j / N) atTop (𝓝 (G.variances j)) := by
  filter_upwards [he.moments fun k => (hv k).le] with ω hQ
  choose x h1 h2 using fun N : ℕ => hG.sample_spec o op fun k (a : Fin N) => e (a, k) ω
  choose F f1 _ _ f4 using fun N : ℕ => Gauss.fitMle_spec lstsq od op' oa hD hn (Matrix.of fun a i => x N i a)
  have hx : ∀ (N : ℕ) (a : Fin N) j, (Matrix.of fun a i => x N i a) a j =
      ∑ i, G.weight i j * (Matrix.of fun a i => x N i a) a i + e (a, j) ω := by
    intro N a j
    have := congrFun (h2 N j) a
    simpa [Finset.sum_apply] using this
  have hA : ∀ i j : Fin n, G.weight i j ≠ 0 → (i.val, j.val) ∈ D.arcs := fun i j hij => hs _ _ ((hG.arcs i j).2 hij)
  have key := fun j => Gauss.nodeFit_limit hD hG.acyclic hA hv (e := fun a k => e (a, k) ω) hQ hx (fun N => f4 N j)
  exact ⟨x, F, fun N => ⟨h1 N, f1 N⟩, fun i j => (key j).1 i, fun j => (key j).2.1, fun j => (key j).2.2⟩

/-- C265 is violated: the fitted variances do not converge to the variances of `g`; with probability one they grow without bound. -/
theorem C265_violated {G : Gauss n ℝ} (hG : G.Plain) (hv : ∀ k, 0 < G.variances k) (lstsq : Gauss.Lstsq)
    (o : SetOrder (Option ℕ) ℕ) (op op' : SetOrder ℕ ℕ) (od : SetOrder Unit ℕ) (oa : SetOrder Bool (ℕ × ℕ))
    {e : ℕ × Fin n → Ω → ℝ} (he : NormalRows μ G.biases G.variances e) :
    ∀ᵐ ω ∂μ, ∃ (x : ∀ N : ℕ, Fin n → Fin N → ℝ) (F : ℕ → Gauss n ℝ),
      (∀ N, G.sample o op (fun k (a : Fin N) => e (a, k) ω) = some (.ok (x N)) ∧
        Gauss.fitMle lstsq od op' oa G.dag (Matrix.of fun a i => x N i a) = .ok (F N)) ∧
      ∀ j, Tendsto (fun N => (F N).variances j) atTop atTop := by
  filter_upwards [C265_partial hG hv hG.valid hG.nodes (fun _ _ h => h) lstsq o op op' od oa he] with ω hω
  obtain ⟨x, F, h1, -, -, h4⟩ := hω
  refine ⟨x, F, h1, fun j => ?_⟩
  refine ((h4 j).pos_mul_atTop (hv j) tendsto_natCast_atTop_atTop).congr' ?_
  filter_upwards [eventually_gt_atTop 0] with N hN
  have : (N : ℝ) ≠ 0 := by exact_mod_cast hN.ne'
  rw [div_mul_cancel₀ _ this]

/-- Rows of normal noise exist. -/
theorem normalRows_exists (b v : Fin n → ℝ) :
    NormalRows (Measure.infinitePi fun p : ℕ × Fin n => gaussianReal (b p.2) (v p.2).toNNReal) b v fun p ω => ω p where
  meas := measurable_pi_apply
  indep := iIndepFun_infinitePi (X := fun _ (y : ℝ) => y) fun _ => measurable_id
  law p := Measure.infinitePi_map_eval _ p

/-- A case for both theorems: the chain `0 → 1 → 2`. -/
example (o : SetOrder (Option ℕ) ℕ) (op : SetOrder ℕ ℕ) (od : SetOrder Unit ℕ) (oa : SetOrder Bool (ℕ × ℕ)) :
    ∃ (G : Gauss 3 ℝ) (e x : ∀ N : ℕ, Fin 3 → Fin N → ℝ) (F : ℕ → Gauss 3 ℝ), G.weight = !![0, 2, 0; 0, 0, 3; 0, 0, 0] ∧
      (∀ N, G.sample o op (e N) = some (.ok (x N)) ∧
        Gauss.fitMle GaussCase.leastSquares od op oa G.dag (Matrix.of fun a i => x N i a) = .ok (F N)) ∧
      Tendsto (fun N => (F N).weight 1 2) atTop (𝓝 3) ∧ Tendsto (fun N => (F N).variances 0) atTop atTop := by
  obtain ⟨G, h1, h2, h3, -, -⟩ := GaussCase.chain oa
  have he := normalRows_exists G.biases G.variances
  obtain ⟨ω, ⟨x, F, g1, g2, -, -⟩, x', F', k1, k2⟩ :=
    ((C265_partial h1 h3 h1.valid h1.nodes (fun _ _ h => h) GaussCase.leastSquares o op op od oa he).and
      (C265_violated h1 h3 GaussCase.leastSquares o op op od oa he)).exists
  have hx : x' = x := funext fun N => by
    have := (k1 N).1
    rw [(g1 N).1] at this
    exact (Except.ok.inj (Option.some.inj this)).symm
  subst hx
  have hF : F' = F := funext fun N => by
    have := (k1 N).2
    rw [(g1 N).2] at this
    exact (Except.ok.inj this).symm
  subst hF
  refine ⟨G, _, x', F', h2, g1, ?_, k2 0⟩
  have := g2 1 2
  rw [h2] at this
  simpa using this

end Props
