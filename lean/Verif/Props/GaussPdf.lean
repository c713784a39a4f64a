import Verif.Proof.GaussEigh
import Verif.Props.GaussMoments
import Mathlib.Analysis.Matrix.Spectrum

/-! # `GaussDAG`: log densities and interventions (properties C115–C120)

The samples are random variables on a probability space: `G.sample o op e` is the random vector that `sample` returns when the draws
from `np.random.normal` are the random variables `e`. -/

namespace Props

set_option linter.unusedSectionVars false

open Model Spec MeasureTheory ProbabilityTheory

variable {n k : ℕ} {Ω : Type} [MeasurableSpace Ω] {μ : Measure Ω} [IsProbabilityMeasure μ]

/-- Independent normal variables exist. -/
theorem normalNoise_exists (b v : Fin n → ℝ) :
    NormalNoise (Measure.pi fun i => gaussianReal (b i) (v i).toNNReal) b v fun i ω => ω i where
  meas := measurable_pi_apply
  indep := iIndepFun_pi (X := fun _ => id) fun _ => measurable_id.aemeasurable
  law i := (measurePreserving_eval _ i).map_eq

theorem acyclicWeights_mono {K : Type} [Zero K] {A B : Matrix (Fin n) (Fin n) K} (hA : AcyclicWeights A)
    (h : ∀ i j, B i j ≠ 0 → A i j ≠ 0) : AcyclicWeights B := by
  have : ∀ i j, Path (fun i j => B i j ≠ 0) i j → Path (fun i j => A i j ≠ 0) i j := fun i j hij => by
    induction hij with
    | single h' => exact .single (h _ _ h')
    | tail _ h' ih => exact ih.tail (h _ _ h')
  exact fun v hv => hA v (this v v hv)

/-! ## C115 -/

theorem logpdf_zero {A : Matrix (Fin n) (Fin n) ℝ} (hA : AcyclicWeights A) {v : Fin n → ℝ} (hv : ∀ i, 0 < v i)
    {e x : Fin n → Ω → ℝ} (he : NormalNoise μ 0 v e) (hx : LinearSEM A e x) :
    HasLogDensity μ x fun y => ∑ j, Gauss.normLogpdf (y j - ∑ i, A i j * y i) √(v j) := by
  refine Gauss.sem_logDensity hA he.meas he.indep (f := fun j y => Gauss.normLogpdf y √(v j))
    (fun j => Gauss.measurable_normLogpdf _) (fun j => ?_) hx
  rw [he.law, Gauss.gaussian_logDensity (hv j)]
  simp

/-- C115, exactly when it holds: `logpdf` is the log density of the distribution that `sample` draws from if and only if all biases
are zero. -/
theorem C115_iff {G : Gauss n ℝ} (h : G.Plain) (hv : ∀ i, 0 < G.variances i) (o : SetOrder (Option ℕ) ℕ) (op : SetOrder ℕ ℕ)
    {e : Fin n → Ω → ℝ} (he : NormalNoise μ G.biases G.variances e) :
    ∃ x f, G.sample o op e = some (.ok x) ∧ (∀ y, G.logpdf o op y = some (.ok (f y))) ∧
      (HasLogDensity μ x f ↔ G.biases = 0) := by
  obtain ⟨x, h1, h2⟩ := h.sample_spec o op e
  refine ⟨x, _, h1, fun y => h.logpdf_spec o op y, fun hd => ?_, fun hb => ?_⟩
  · have he' := normalNoise_exists (n := n) 0 G.variances
    obtain ⟨x', -, g2⟩ := h.sample_spec o op (fun i (ω : Fin n → ℝ) => ω i)
    have hd' := logpdf_zero h.acyclic hv he' g2
    have hm := Gauss.mean_of_density (Gauss.sem_measurable h.acyclic he.meas h2) (Gauss.sem_measurable h.acyclic he'.meas g2) hd hd'
    have m1 := Gauss.sem_mean h.acyclic (fun k => (he.gaussian k).memLp_two.integrable (by norm_num)) he.mean h2
    have m2 := Gauss.sem_mean h.acyclic (fun k => (he'.gaussian k).memLp_two.integrable (by norm_num)) he'.mean g2
    funext j
    have a1 := m1 j
    have a2 := m2 j
    simp only [hm] at a1
    beta_reduce at a2
    rw [a1] at a2
    exact add_left_cancel a2
  · exact logpdf_zero h.acyclic hv (hb ▸ he) h2

/-- C115 for zero biases: `logpdf` raises nothing and is the log density of the distribution that `sample` draws from. Missing: nonzero
biases. -/
theorem C115_logpdf_partial {G : Gauss n ℝ} (h : G.Plain) (hv : ∀ i, 0 < G.variances i) (hb : G.biases = 0)
    (o : SetOrder (Option ℕ) ℕ) (op : SetOrder ℕ ℕ) {e : Fin n → Ω → ℝ} (he : NormalNoise μ G.biases G.variances e) :
    ∃ x f, G.sample o op e = some (.ok x) ∧ (∀ y, G.logpdf o op y = some (.ok (f y))) ∧ HasLogDensity μ x f := by
  obtain ⟨x, f, h1, h2, h3⟩ := C115_iff h hv o op he
  exact ⟨x, f, h1, h2, h3.2 hb⟩

/-- C115 is violated: a graph with one node and bias 1. -/
theorem C115_violated (oa : SetOrder Bool (ℕ × ℕ)) (o : SetOrder (Option ℕ) ℕ) (op : SetOrder ℕ ℕ) :
    ∃ G : Gauss 1 ℝ, Gauss.fromAmat oa Fin.val 0 1 1 = (G, none) ∧ G.Plain ∧
      ∃ (μ : Measure (Fin 1 → ℝ)) (e : Fin 1 → (Fin 1 → ℝ) → ℝ), IsProbabilityMeasure μ ∧ NormalNoise μ G.biases G.variances e ∧
        ∃ x f, G.sample o op e = some (.ok x) ∧ (∀ y, G.logpdf o op y = some (.ok (f y))) ∧ ¬ HasLogDensity μ x f := by
  obtain ⟨G, h1, h2, h3, h4, h5, -⟩ := plain_of_amat (n := 1) oa (A := 0) (acyclicWeights_of_rank (fun _ => 0) (by simp)) 1 1
  refine ⟨G, h1, h2, _, _, inferInstance, normalNoise_exists G.biases G.variances, ?_⟩
  obtain ⟨x, f, g1, g2, g3⟩ := C115_iff h2 (by rw [h5]; simp) o op (normalNoise_exists G.biases G.variances)
  refine ⟨x, f, g1, g2, fun hd => ?_⟩
  have := congrFun (g3.1 hd) 0
  rw [h4] at this
  simp at this

/-! ## C116 -/

/-- C116, exactly when it holds: `fast_logpdf(nodes)` is the log density of these coordinates of `sample` if and only if `means` is
right about them. -/
theorem C116_iff {G : Gauss n ℝ} (h : G.Plain) (hv : ∀ i, 0 < G.variances i) (hc : G.Current) (eigh : Gauss.Eigh)
    (o : SetOrder (Option ℕ) ℕ) (op : SetOrder ℕ ℕ) {l : Fin k → Fin n} (hl : Function.Injective l) {e : Fin n → Ω → ℝ}
    (he : NormalNoise μ G.biases G.variances e) :
    ∃ x f m, G.sample o op e = some (.ok x) ∧ (∀ y, G.fastLogpdf eigh op y (fun a => (l a).val) = .ok (f fun a => y (l a))) ∧
      G.means op = .ok m ∧ (HasLogDensity μ (fun a => x (l a)) f ↔ ∀ a, m (l a) = ∫ ω, x (l a) ω ∂μ) := by
  obtain ⟨x, h1, h2⟩ := h.sample_spec o op e
  obtain ⟨m, hm⟩ := h.means_run op
  refine ⟨x, _, m, h1, fun y => h.fastLogpdf_run hv hc eigh op hm hl y, hm, fun hd a => ?_, fun hma => ?_⟩
  · -- another graph, for which `m` is right
    let b' : Fin n → ℝ := fun j => m j - ∑ i, G.weight i j • m i
    have hb' : LinearSEM G.weight b' m := fun j => by simp [b']
    have he' := normalNoise_exists (n := n) b' G.variances
    obtain ⟨x', -, g2⟩ := h.sample_spec o op (fun i (ω : Fin n → ℝ) => ω i)
    have hd' := Gauss.eighLog_density h.acyclic hv he' g2 hb' eigh hl
    have e1 := Gauss.mean_of_density (fun a => Gauss.sem_measurable h.acyclic he.meas h2 (l a))
      (fun a => Gauss.sem_measurable h.acyclic he'.meas g2 (l a)) hd hd' a
    have m2 := Gauss.sem_mean h.acyclic (fun k => (he'.gaussian k).memLp_two.integrable (by norm_num)) he'.mean g2
    rw [e1]
    exact (congrFun (sem_unique h.acyclic m2 hb') (l a)).symm
  · have m1 := Gauss.sem_mean h.acyclic (fun k => (he.gaussian k).memLp_two.integrable (by norm_num)) he.mean h2
    have := Gauss.eighLog_density h.acyclic hv he h2 m1 eigh hl
    have e1 : (fun a => ∫ ω, x (l a) ω ∂μ) = fun a => m (l a) := funext fun a => (hma a).symm
    rw [e1] at this
    exact this

/-- C116 for graphs whose arcs go from smaller to larger labels, and for zero biases: `fast_logpdf(nodes)` raises nothing and is the log
density of these coordinates of `sample`. Missing: nonzero biases in graphs with an arc to a smaller label, where `means` can be
wrong. -/
theorem C116_fast_logpdf_partial {G : Gauss n ℝ} (h : G.Plain) (hv : ∀ i, 0 < G.variances i) (hc : G.Current)
    (hb : G.biases = 0 ∨ ∀ i j : Fin n, (i.val, j.val) ∈ G.dag.arcs → i < j) (eigh : Gauss.Eigh)
    (o : SetOrder (Option ℕ) ℕ) (op : SetOrder ℕ ℕ) {l : Fin k → Fin n} (hl : Function.Injective l) {e : Fin n → Ω → ℝ}
    (he : NormalNoise μ G.biases G.variances e) :
    ∃ x f, G.sample o op e = some (.ok x) ∧ (∀ y, G.fastLogpdf eigh op y (fun a => (l a).val) = .ok (f fun a => y (l a))) ∧
      HasLogDensity μ (fun a => x (l a)) f := by
  obtain ⟨x, f, m, h1, h2, h3, h4⟩ := C116_iff h hv hc eigh o op hl he
  refine ⟨x, f, h1, h2, h4.2 fun a => ?_⟩
  obtain ⟨x', g1, g2⟩ := h.sample_spec o op e
  rw [h1] at g1
  cases g1
  have m1 := Gauss.sem_mean h.acyclic (fun k => (he.gaussian k).memLp_two.integrable (by norm_num)) he.mean g2
  have hm : LinearSEM G.weight G.biases m := by
    rcases hb with hb | hb
    · rw [h.means_zero hb] at h3
      cases h3
      intro j; simp [hb]
    · obtain ⟨m', g3, g4⟩ := h.means_spec hb op
      rw [h3] at g3
      cases g3
      exact g4
  exact congrFun (sem_unique h.acyclic hm m1) (l a)

/-- C116 for all nodes. -/
theorem C116_log_probability_partial {G : Gauss n ℝ} (h : G.Plain) (hv : ∀ i, 0 < G.variances i) (hc : G.Current)
    (hb : G.biases = 0 ∨ ∀ i j : Fin n, (i.val, j.val) ∈ G.dag.arcs → i < j) (eigh : Gauss.Eigh)
    (o : SetOrder (Option ℕ) ℕ) (op : SetOrder ℕ ℕ) {e : Fin n → Ω → ℝ} (he : NormalNoise μ G.biases G.variances e) :
    ∃ x f, G.sample o op e = some (.ok x) ∧ (∀ y, G.logProbability eigh op y = .ok (f y)) ∧ HasLogDensity μ x f :=
  C116_fast_logpdf_partial h hv hc hb eigh o op (l := id) Function.injective_id he

/-- C116 is violated: the graph 1 → 0 with weight 1 and biases 0, 1. -/
theorem C116_violated (oa : SetOrder Bool (ℕ × ℕ)) (eigh : Gauss.Eigh) (o : SetOrder (Option ℕ) ℕ) (op : SetOrder ℕ ℕ) :
    ∃ G : Gauss 2 ℝ, Gauss.fromAmat oa Fin.val !![0, 0; 1, 0] ![0, 1] 1 = (G, none) ∧ G.Plain ∧ G.Current ∧
      ∃ (μ : Measure (Fin 2 → ℝ)) (e : Fin 2 → (Fin 2 → ℝ) → ℝ), IsProbabilityMeasure μ ∧ NormalNoise μ G.biases G.variances e ∧
        ∃ x f, G.sample o op e = some (.ok x) ∧ (∀ y, G.logProbability eigh op y = .ok (f y)) ∧ ¬ HasLogDensity μ x f := by
  obtain ⟨G, h1, h2, h3, h4, h5, h6⟩ := plain_of_amat (n := 2) oa (A := !![0, 0; 1, 0])
    (acyclicWeights_of_rank ![1, 0] fun i j => by fin_cases i <;> fin_cases j <;> simp) ![0, 1] 1
  have he := normalNoise_exists G.biases G.variances
  refine ⟨G, h1, h2, h6.toCurrent, _, _, inferInstance, he, ?_⟩
  obtain ⟨x, f, m, g1, g2, g3, g4⟩ := C116_iff h2 (by rw [h5]; simp) h6.toCurrent eigh o op (l := id) Function.injective_id he
  refine ⟨x, f, g1, g2, fun hd => ?_⟩
  have hm : G.means op = .ok ![0, 1] := by
    unfold Gauss.means
    rw [h2.meansLoop_eq, show List.finRange 2 = [0, 1] from rfl]
    congr 1
    simp only [steps, id, h3, h4, Fin.sum_univ_two]
    funext i
    fin_cases i <;> simp
  rw [hm] at g3
  cases g3
  obtain ⟨x', k1, k2⟩ := h2.sample_spec o op (fun i (ω : Fin 2 → ℝ) => ω i)
  rw [g1] at k1
  cases k1
  have m1 := Gauss.sem_mean h2.acyclic (fun k => (he.gaussian k).memLp_two.integrable (by norm_num)) he.mean k2 0
  have e0 := g4.1 hd 0
  have e1 := g4.1 hd 1
  simp only [id] at e0 e1
  beta_reduce at m1
  rw [Fin.sum_univ_two, ← e0, ← e1, h3, h4] at m1
  simp at m1

/-! ## C117 -/

/-- C117. With zero biases `log_probability(samples)` and `logpdf(samples)` are equal. -/
theorem C117_agree {G : Gauss n ℝ} (h : G.Plain) (hv : ∀ i, 0 < G.variances i) (hc : G.Current) (hb : G.biases = 0)
    (eigh : Gauss.Eigh) (o : SetOrder (Option ℕ) ℕ) (op : SetOrder ℕ ℕ) (y : Fin n → ℝ) :
    ∃ r, G.logProbability eigh op y = .ok r ∧ G.logpdf o op y = some (.ok r) := by
  refine ⟨_, h.fastLogpdf_run hv hc eigh op (h.means_zero hb op) (l := id) Function.injective_id y, ?_⟩
  rw [h.logpdf_spec]
  congr 2
  have := Gauss.eighLog_formula h.acyclic hv eigh 0 y
  simp only [Pi.zero_apply, sub_zero] at this
  exact this.symm

/-! ## C118 -/

/-- C118. `sample_interventional_perfect` raises nothing and returns the only solution of the structural equations in which the
equation of each intervened node has been replaced by the draw for this node. -/
theorem C118_perfect {K : Type} [Field K] {M : Type} [AddCommGroup M] [Module K M] {G : Gauss n K} (h : G.Plain)
    (o : SetOrder (Option ℕ) ℕ) (op : SetOrder ℕ ℕ) (intervened : ℕ → Bool) (noise : Fin n → M) :
    ∃ x, G.samplePerfect o op intervened noise = some (.ok x) ∧
      ∀ z, (∀ j : Fin n, z j = if intervened j.val then noise j else ∑ i, G.weight i j • z i + noise j) ↔ z = x := by
  obtain ⟨x, h1, h2⟩ := h.samplePerfect_spec o op intervened noise
  have hA : AcyclicWeights (Matrix.of fun i j : Fin n => if intervened j.val then 0 else G.weight i j) :=
    acyclicWeights_mono h.acyclic fun i j hij hw => by simp [hw] at hij
  have hiff : ∀ z : Fin n → M, (∀ j : Fin n, z j = if intervened j.val then noise j else ∑ i, G.weight i j • z i + noise j) ↔
      LinearSEM (Matrix.of fun i j : Fin n => if intervened j.val then 0 else G.weight i j) noise z := by
    intro z
    refine forall_congr' fun j => ?_
    by_cases hi : intervened j.val <;> simp [hi]
  refine ⟨x, h1, fun z => ?_⟩
  rw [hiff]
  exact ⟨fun hz => sem_unique hA hz h2, fun e => e ▸ h2⟩

/-- C118. `sample_interventional` raises nothing; each node without intervention satisfies its structural equation, a perfect
intervention sets its value, a soft one computes it from the values of the parents, listed in the order of iteration. -/
theorem C118_general {K : Type} [Field K] {M : Type} [AddCommGroup M] [Module K M] {G : Gauss n K} (h : G.Plain)
    (o : SetOrder (Option ℕ) ℕ) (op : SetOrder ℕ ℕ) (iv : ℕ → Option (Gauss.IvDist M)) (noise : Fin n → M) :
    ∃ (x : Fin n → M) (ps : Fin n → List (Fin n)), G.sampleIv o op iv noise = some (.ok x) ∧
      (∀ j : Fin n, (ps j).map Fin.val = op.ord j.val (G.dag.parents j.val)) ∧
      ∀ j : Fin n, (iv j.val = none → x j = ∑ i, G.weight i j • x i + noise j) ∧
        (∀ m, iv j.val = some (.perfect m) → x j = m) ∧ ∀ f, iv j.val = some (.soft f) → x j = f ((ps j).map x) := by
  obtain ⟨x, ps, h1, h2, h3⟩ := h.sampleIv_spec o op iv noise
  refine ⟨x, ps, h1, h2, fun j => ⟨fun hn => ?_, fun m hn => ?_, fun f hn => ?_⟩⟩ <;> rw [h3 j, hn]

/-! ## C119 -/

/-- C119 where the nodes without intervention have zero bias: `logpdf(samples, interventions, exclude_intervention_prob=False)` raises
nothing and is the log density of the distribution that `sample_interventional_perfect` draws from; with the default `True` the log
densities of the interventions are left out. Missing: nonzero biases. -/
theorem C119_interventions_partial {G : Gauss n ℝ} (h : G.Plain) {iv : ℕ → Option (ℝ → ℝ)}
    (hf : ∀ v f, iv v = some f → Measurable f) (hv : ∀ j : Fin n, iv j.val = none → 0 < G.variances j)
    (hb : ∀ j : Fin n, iv j.val = none → G.biases j = 0) (o : SetOrder (Option ℕ) ℕ) (op : SetOrder ℕ ℕ) {e : Fin n → Ω → ℝ}
    (he : IvNoise μ G.biases G.variances (fun j => iv j.val) e) :
    ∃ (x : Fin n → Ω → ℝ) (F F1 : (Fin n → ℝ) → ℝ), G.samplePerfect o op (fun v => (iv v).isSome) e = some (.ok x) ∧ HasLogDensity μ x F ∧
      (∀ y, G.logpdfIv o op iv false y = some (.ok (F y))) ∧ (∀ y, G.logpdfIv o op iv true y = some (.ok (F1 y))) ∧
      ∀ y, F y = F1 y + ∑ j : Fin n, (match iv j.val with | some f => f (y j) | none => 0) := by
  obtain ⟨x, h1, h2⟩ := h.samplePerfect_spec o op (fun v => (iv v).isSome) e
  have hA : AcyclicWeights (Matrix.of fun i j : Fin n => if (iv j.val).isSome then 0 else G.weight i j) :=
    acyclicWeights_mono h.acyclic fun i j hij hw => by simp [hw] at hij
  refine ⟨x, _, _, h1, ?_, fun y => h.logpdfIv_spec o op iv false y, fun y => h.logpdfIv_spec o op iv true y, fun y => ?_⟩
  · have := Gauss.sem_logDensity hA he.meas he.indep
      (f := fun j y => match iv j.val with
        | some f => f y
        | none => Gauss.normLogpdf y √(G.variances j))
      (fun j => by
        cases hj : iv j.val with
        | none => exact Gauss.measurable_normLogpdf _
        | some f => exact hf _ f hj)
      (fun j => by
        cases hj : iv j.val with
        | none =>
          rw [he.law_none j hj, hb j hj, Gauss.gaussian_logDensity (hv j hj)]
          simp
        | some f => rw [he.law_some j f hj]) h2
    refine (congrArg (HasLogDensity μ x) ?_).mp this
    funext y
    refine Finset.sum_congr rfl fun j _ => ?_
    cases hj : iv j.val with
    | none => simp [hj]
    | some f => simp [hj]
  · rw [← Finset.sum_add_distrib]
    refine Finset.sum_congr rfl fun j _ => ?_
    cases hj : iv j.val <;> simp

/-- C119 is violated: one node with bias 1, and no intervention. -/
theorem C119_violated (oa : SetOrder Bool (ℕ × ℕ)) (o : SetOrder (Option ℕ) ℕ) (op : SetOrder ℕ ℕ) :
    ∃ G : Gauss 1 ℝ, Gauss.fromAmat oa Fin.val 0 1 1 = (G, none) ∧ G.Plain ∧
      ∃ (μ : Measure (Fin 1 → ℝ)) (e : Fin 1 → (Fin 1 → ℝ) → ℝ), IsProbabilityMeasure μ ∧
        IvNoise μ G.biases G.variances (fun _ => none) e ∧
        ∃ x F, G.samplePerfect o op (fun _ => false) e = some (.ok x) ∧
          (∀ y, G.logpdfIv o op (fun _ => none) false y = some (.ok (F y))) ∧ ¬ HasLogDensity μ x F := by
  obtain ⟨G, h1, h2, h3, h4, h5, -⟩ := plain_of_amat (n := 1) oa (A := 0) (acyclicWeights_of_rank (fun _ => 0) (by simp)) 1 1
  have he := normalNoise_exists G.biases G.variances
  refine ⟨G, h1, h2, _, _, inferInstance, ⟨he.meas, he.indep, fun k _ => he.law k, fun k f hk => by simp at hk⟩, ?_⟩
  obtain ⟨x, f, g1, g2, g3⟩ := C115_iff h2 (by rw [h5]; simp) o op he
  obtain ⟨x', k1, k2⟩ := h2.samplePerfect_spec o op (fun _ => false) (fun i (ω : Fin 1 → ℝ) => ω i)
  obtain ⟨x'', l1, l2⟩ := h2.sample_spec o op (fun i (ω : Fin 1 → ℝ) => ω i)
  rw [g1] at l1
  cases l1
  have hxx : x' = x := sem_unique h2.acyclic k2 l2
  refine ⟨x', f, k1, fun y => ?_, fun hd => ?_⟩
  · have e1 := h2.logpdf_spec o op y
    rw [g2 y] at e1
    rw [h2.logpdfIv_spec]
    exact e1.symm
  · rw [hxx] at hd
    have := congrFun (g3.1 hd) 0
    rw [h4] at this
    simp at this

/-! ## C120 -/

/-- The biases after the shifts. -/
def shiftedBiases (b : Fin n → ℝ) (shift : ℕ → Option ℝ) (j : Fin n) : ℝ := b j + (shift j.val).getD 0

/-- C120 for `sample_interventional`: with a `ShiftIntervention` at each node of a set it raises nothing and draws from the distribution
that `sample` draws from once the shifts are added to the biases. -/
theorem C120_sample_interventional {G : Gauss n ℝ} (h : G.Plain) (o : SetOrder (Option ℕ) ℕ) (op : SetOrder ℕ ℕ)
    (shift : ℕ → Option ℝ) {e : Fin n → Ω → ℝ} (he : NormalNoise μ (G.shiftLoc shift) G.variances e)
    {Ω' : Type} [MeasurableSpace Ω'] {μ' : Measure Ω'} [IsProbabilityMeasure μ'] {e' : Fin n → Ω' → ℝ}
    (he' : NormalNoise μ' (shiftedBiases G.biases shift) G.variances e') :
    ∃ x x', G.sampleShift o op shift e = some (.ok x) ∧
      { G with biases := shiftedBiases G.biases shift }.sample o op e' = some (.ok x') ∧
      μ.map (fun ω j => x j ω) = μ'.map fun ω j => x' j ω := by
  obtain ⟨x, h1, h2⟩ := h.sampleShift_spec o op shift e
  have h' : Gauss.Plain { G with biases := shiftedBiases G.biases shift } := ⟨⟨h.listed, h.arcs_iff⟩, h.names⟩
  obtain ⟨x', h3, h4⟩ := h'.sample_spec o op e'
  have hloc : G.shiftLoc shift = shiftedBiases G.biases shift := by
    funext j
    unfold Gauss.shiftLoc shiftedBiases
    rw [h.names]
    cases shift j.val <;> simp
  exact ⟨x, x', h1, h3, Gauss.sem_law h.acyclic (hloc ▸ he) he' h2 h4⟩

/-- C120 for `sample_interventional_soft` where the nodes without a shift have zero bias. Missing: nonzero biases. -/
theorem C120_soft_partial {G : Gauss n ℝ} (h : G.Plain) (o : SetOrder (Option ℕ) ℕ) (op : SetOrder ℕ ℕ)
    (shift : ℕ → Option ℝ) (hb : ∀ j : Fin n, shift j.val = none → G.biases j = 0) {e : Fin n → Ω → ℝ}
    (he : NormalNoise μ (G.softShiftLoc shift) G.variances e)
    {Ω' : Type} [MeasurableSpace Ω'] {μ' : Measure Ω'} [IsProbabilityMeasure μ'] {e' : Fin n → Ω' → ℝ}
    (he' : NormalNoise μ' (shiftedBiases G.biases shift) G.variances e') :
    ∃ x x', G.sampleShift o op shift e = some (.ok x) ∧
      { G with biases := shiftedBiases G.biases shift }.sample o op e' = some (.ok x') ∧
      μ.map (fun ω j => x j ω) = μ'.map fun ω j => x' j ω := by
  refine C120_sample_interventional h o op shift (μ := μ) ?_ he'
  have hloc : G.softShiftLoc shift = G.shiftLoc shift := by
    funext j
    unfold Gauss.shiftLoc Gauss.softShiftLoc
    rw [h.names]
    cases hs : shift j.val with
    | some s => rfl
    | none => exact (hb j hs).symm
  exact hloc ▸ he

/-- C120 is violated: `sample_interventional_soft({})` on one node with bias 1 has mean 0, `sample()` has mean 1. -/
theorem C120_violated (oa : SetOrder Bool (ℕ × ℕ)) (o : SetOrder (Option ℕ) ℕ) (op : SetOrder ℕ ℕ) :
    ∃ G : Gauss 1 ℝ, Gauss.fromAmat oa Fin.val 0 1 1 = (G, none) ∧ G.Plain ∧
      ∃ (μ μ' : Measure (Fin 1 → ℝ)) (e : Fin 1 → (Fin 1 → ℝ) → ℝ), IsProbabilityMeasure μ ∧ IsProbabilityMeasure μ' ∧
        NormalNoise μ (G.softShiftLoc fun _ => none) G.variances e ∧ NormalNoise μ' G.biases G.variances e ∧
        ∃ x x', G.sampleShift o op (fun _ => none) e = some (.ok x) ∧ G.sample o op e = some (.ok x') ∧
          ∫ ω, x 0 ω ∂μ = 0 ∧ ∫ ω, x' 0 ω ∂μ' = 1 := by
  obtain ⟨G, h1, h2, h3, h4, h5, -⟩ := plain_of_amat (n := 1) oa (A := 0) (acyclicWeights_of_rank (fun _ => 0) (by simp)) 1 1
  have he := normalNoise_exists (G.softShiftLoc fun _ => none) G.variances
  have he' := normalNoise_exists G.biases G.variances
  refine ⟨G, h1, h2, _, _, _, inferInstance, inferInstance, he, he', ?_⟩
  obtain ⟨x, g1, g2⟩ := h2.sampleShift_spec o op (fun _ => none) (fun i (ω : Fin 1 → ℝ) => ω i)
  obtain ⟨x', l1, l2⟩ := h2.sample_spec o op (fun i (ω : Fin 1 → ℝ) => ω i)
  have m1 := Gauss.sem_mean h2.acyclic (fun k => (he.gaussian k).memLp_two.integrable (by norm_num)) he.mean g2 0
  have m2 := Gauss.sem_mean h2.acyclic (fun k => (he'.gaussian k).memLp_two.integrable (by norm_num)) he'.mean l2 0
  refine ⟨x, x', g1, l1, ?_, ?_⟩
  · simpa [h3, Gauss.softShiftLoc] using m1
  · simpa [h3, h4] using m2

/-! ## Concrete cases of the hypotheses -/

namespace GaussCase

theorem hermitian {m : Matrix (Fin k) (Fin k) ℝ} (h : m.transpose = m) : m.IsHermitian := by
  rw [Matrix.IsHermitian, Matrix.conjTranspose_eq_transpose_of_trivial, h]

/-- An `Eigh` from the spectral theorem. -/
noncomputable def spectral : Gauss.Eigh where
  vals m := if h : m.transpose = m then (hermitian h).eigenvalues else 0
  vecs m := if h : m.transpose = m then ((hermitian h).eigenvectorUnitary : Matrix _ _ ℝ) else 0
  orthogonal m h := by
    rw [dif_pos h, ← Matrix.conjTranspose_eq_transpose_of_trivial, ← Matrix.star_eq_conjTranspose]
    exact Unitary.coe_star_mul_self _
  decompose m h := by
    rw [dif_pos h, dif_pos h, ← Matrix.conjTranspose_eq_transpose_of_trivial, ← Matrix.star_eq_conjTranspose]
    conv_rhs => rw [(hermitian h).spectral_theorem]
    rw [Unitary.conjStarAlgAut_apply]
    rfl

/-- The collider 0 → 2 ← 1 with weights 2, 3, variances 1, 4, 5. -/
theorem collider (oa : SetOrder Bool (ℕ × ℕ)) (b : Fin 3 → ℝ) :
    ∃ G : Gauss 3 ℝ, G.Plain ∧ G.weight = !![0, 0, 2; 0, 0, 3; 0, 0, 0] ∧ G.biases = b ∧ (∀ i, 0 < G.variances i) ∧ G.Current := by
  obtain ⟨G, h1, h2, h3, h4, h5, h6⟩ := plain_of_amat oa (A := !![0, 0, 2; 0, 0, 3; 0, 0, 0])
    (acyclicWeights_of_rank ![0, 0, 1] fun i j => by fin_cases i <;> fin_cases j <;> simp) b ![1, 4, 5]
  refine ⟨G, h2, h3, h4, fun i => ?_, h6.toCurrent⟩
  rw [h5]; fin_cases i <;> simp

/-- C115, C116, C117 for the collider with zero biases. -/
example (oa : SetOrder Bool (ℕ × ℕ)) (o : SetOrder (Option ℕ) ℕ) (op : SetOrder ℕ ℕ) :
    ∃ (G : Gauss 3 ℝ) (μ : Measure (Fin 3 → ℝ)) (e x : Fin 3 → (Fin 3 → ℝ) → ℝ) (f : (Fin 3 → ℝ) → ℝ), G.weight 0 2 = 2 ∧
      G.sample o op e = some (.ok x) ∧ HasLogDensity μ x f ∧
      ∀ y, G.logpdf o op y = some (.ok (f y)) ∧ G.logProbability spectral op y = .ok (f y) := by
  obtain ⟨G, h1, h2, h3, h4, h5⟩ := collider oa 0
  obtain ⟨x, f, g1, g2, g3⟩ := C115_logpdf_partial h1 h4 h3 o op (normalNoise_exists G.biases G.variances)
  refine ⟨G, _, _, x, f, by rw [h2]; simp, g1, g3, fun y => ⟨g2 y, ?_⟩⟩
  obtain ⟨r, k1, k2⟩ := C117_agree h1 h4 h5 h3 spectral o op y
  rw [g2 y] at k2
  cases k2
  exact k1

/-- The marginal density of the nodes 2 and 0 of the collider with biases 1, 2, 3. -/
example (oa : SetOrder Bool (ℕ × ℕ)) (o : SetOrder (Option ℕ) ℕ) (op : SetOrder ℕ ℕ) :
    ∃ (G : Gauss 3 ℝ) (μ : Measure (Fin 3 → ℝ)) (e x : Fin 3 → (Fin 3 → ℝ) → ℝ) (f : (Fin 2 → ℝ) → ℝ), G.weight 0 2 = 2 ∧
      G.biases 1 = 2 ∧ G.sample o op e = some (.ok x) ∧ HasLogDensity μ (fun a => x ((![2, 0] : Fin 2 → Fin 3) a)) f ∧
      ∀ y, G.fastLogpdf spectral op y (fun a => ((![2, 0] : Fin 2 → Fin 3) a).val) =
        .ok (f fun a => y ((![2, 0] : Fin 2 → Fin 3) a)) := by
  obtain ⟨G, h1, h2, h3, h4, h5⟩ := collider oa ![1, 2, 3]
  obtain ⟨x, f, g1, g2, g3⟩ := C116_fast_logpdf_partial h1 h4 h5 (Or.inr fun i j hij => by
      rw [h1.arcs, h2] at hij
      fin_cases i <;> fin_cases j <;> simp at hij ⊢) spectral o op (l := ![2, 0]) (by decide)
    (normalNoise_exists G.biases G.variances)
  exact ⟨G, _, _, x, f, by rw [h2]; simp, by rw [h3]; simp, g1, g3, g2⟩

/-- An intervention on node 2 of the collider: its value is the draw. -/
example (oa : SetOrder Bool (ℕ × ℕ)) (o : SetOrder (Option ℕ) ℕ) (op : SetOrder ℕ ℕ) (e : Fin 3 → ℝ) :
    ∃ (G : Gauss 3 ℝ) (x : Fin 3 → ℝ), G.weight 0 2 = 2 ∧ G.samplePerfect o op (fun v => v == 2) e = some (.ok x) ∧ x 2 = e 2 := by
  obtain ⟨G, h1, h2, -⟩ := collider oa 0
  obtain ⟨x, g1, g2⟩ := C118_perfect h1 o op (fun v => v == 2) e
  exact ⟨G, x, by rw [h2]; simp, g1, by have := (g2 x).2 rfl 2; simpa using this⟩

/-- C119 for an intervention on node 0 that replaces its distribution by the standard normal one, which here is what it was. -/
example (oa : SetOrder Bool (ℕ × ℕ)) (o : SetOrder (Option ℕ) ℕ) (op : SetOrder ℕ ℕ) :
    ∃ (G : Gauss 3 ℝ) (μ : Measure (Fin 3 → ℝ)) (e x : Fin 3 → (Fin 3 → ℝ) → ℝ) (F : (Fin 3 → ℝ) → ℝ), G.weight 0 2 = 2 ∧
      G.samplePerfect o op (fun v => ((if v = 0 then some (fun y => Gauss.normLogpdf y 1) else none : Option (ℝ → ℝ))).isSome) e =
        some (.ok x) ∧ HasLogDensity μ x F := by
  obtain ⟨G, h1, h2, h3, h4, h5⟩ := collider oa 0
  have he := normalNoise_exists (0 : Fin 3 → ℝ) (fun j => if j = 0 then 1 else G.variances j)
  obtain ⟨x, F, F1, g1, g2, -⟩ := C119_interventions_partial h1
    (iv := fun v => if v = 0 then some (fun y => Gauss.normLogpdf y 1) else none)
    (fun v f hf => by
      split_ifs at hf with hv
      cases hf
      exact Gauss.measurable_normLogpdf _)
    (fun j _ => h4 j) (fun j _ => by rw [h3]; rfl) o op
    (μ := Measure.pi fun i => gaussianReal ((0 : Fin 3 → ℝ) i) (if i = 0 then 1 else G.variances i).toNNReal)
    (e := fun i ω => ω i)
    ⟨he.meas, he.indep, fun k hk => by
      have hk0 : k ≠ 0 := by rintro rfl; simp at hk
      rw [he.law, h3, if_neg hk0], fun k f hk => by
      have hk0 : k = 0 := by
        by_contra hne
        have : k.val ≠ 0 := fun hv => hne (Fin.ext hv)
        simp [this] at hk
      subst hk0
      simp at hk
      subst hk
      rw [he.law, if_pos rfl, Gauss.gaussian_logDensity one_pos]
      simp⟩
  exact ⟨G, _, _, x, F, by rw [h2]; simp, g1, g2⟩

/-- A shift by 7 of node 0 of the collider. -/
example (oa : SetOrder Bool (ℕ × ℕ)) (o : SetOrder (Option ℕ) ℕ) (op : SetOrder ℕ ℕ) :
    ∃ (G : Gauss 3 ℝ) (e x x' : Fin 3 → (Fin 3 → ℝ) → ℝ) (μ μ' : Measure (Fin 3 → ℝ)), G.weight 0 2 = 2 ∧
      shiftedBiases G.biases (fun v => if v = 0 then some 7 else none) 0 = 8 ∧
      G.sampleShift o op (fun v => if v = 0 then some 7 else none) e = some (.ok x) ∧
      { G with biases := shiftedBiases G.biases fun v => if v = 0 then some 7 else none }.sample o op e = some (.ok x') ∧
      μ.map (fun ω j => x j ω) = μ'.map fun ω j => x' j ω := by
  obtain ⟨G, h1, h2, h3, h4, h5⟩ := collider oa ![1, 2, 3]
  obtain ⟨x, x', g1, g2, g3⟩ := C120_sample_interventional h1 o op (fun v => if v = 0 then some 7 else none)
    (normalNoise_exists _ _) (normalNoise_exists _ _)
  exact ⟨G, _, x, x', _, _, by rw [h2]; simp, by simp [shiftedBiases, h3]; norm_num, g1, g2, g3⟩

end GaussCase

end Props
