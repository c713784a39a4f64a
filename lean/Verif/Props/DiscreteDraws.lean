import Verif.Proof.DiscreteIv
import Verif.Props.DiscreteSample
import Mathlib.Probability.Independence.InfinitePi

/-! # Sampling from `DiscreteDAG` (properties C132 to C135)

One row of the samples is a random variable: the row that the method returns when the uniform random numbers are the random variables
`u`. -/

namespace Props

open Model Spec MeasureTheory ProbabilityTheory
open scoped NNReal ENNReal

variable {α : Type} [DecidableEq α] {D : DiscreteDAG α} {Ω : Type} [MeasurableSpace Ω] {μ : Measure Ω} [IsProbabilityMeasure μ]

/-- Independent uniform random numbers exist. -/
theorem uniformNoise_exists (α : Type) : ∃ (Ω : Type) (_ : MeasurableSpace Ω) (μ : Measure Ω) (u : α → Ω → ℝ),
    IsProbabilityMeasure μ ∧ UniformNoise μ u := by
  let P : Measure (Set.Ico (0 : ℝ) 1) := Measure.comap Subtype.val volume
  have hmap : P.map Subtype.val = volume.restrict (Set.Ico (0 : ℝ) 1) := by
    rw [map_comap_subtype_coe measurableSet_Ico]
  have hP : IsProbabilityMeasure P := ⟨by
    rw [← Set.preimage_univ (f := (Subtype.val : Set.Ico (0 : ℝ) 1 → ℝ)), ← Measure.map_apply measurable_subtype_coe .univ, hmap]
    simp⟩
  refine ⟨α → Set.Ico (0 : ℝ) 1, inferInstance, Measure.infinitePi fun _ => P, fun v ω => (ω v : ℝ), inferInstance,
    fun v => measurable_subtype_coe.comp (measurable_pi_apply v), fun v ω => (ω v).2, ?_, fun v => ?_⟩
  · exact iIndepFun_infinitePi (X := fun _ (x : Set.Ico (0 : ℝ) 1) => (x : ℝ)) fun _ => measurable_subtype_coe
  · have h := Measure.map_map (μ := Measure.infinitePi fun _ : α => P) measurable_subtype_coe (measurable_pi_apply v)
    rw [Measure.infinitePi_map_eval (fun _ : α => P) v, hmap] at h
    exact h.symm

/-- C132. A row of `sample()` has the joint distribution if the alphabets are `0, 1, ..., k-1`. -/
theorem C132_sample_partial (hD : D.Tabled) (hA : D.Counting) (ot : SetOrder (Option α) α) {ix : α → ℕ}
    (hix : Set.InjOn ix D.dag.nodes) {u : α → Ω → ℝ} (hu : UniformNoise μ u) :
    ∃ row : Ω → ℕ → ℤ, (∀ ω, (D.sample ot ix fun v => u v ω).run = some (.ok (row ω))) ∧
      ∀ y : α → ℕ, (∀ v ∈ D.dag.nodes, y v < D.dims v) → μ {ω | ∀ v ∈ D.dag.nodes, row ω (ix v) = y v} = D.law y := by
  choose row h1 h2 using fun ω => DiscreteDAG.sample_run hD hA ot hix (u := fun v => u v ω) fun v => hu.range v ω
  refine ⟨row, h1, fun y hy => ?_⟩
  rw [← DiscreteDAG.lawDo_none, ← DiscreteDAG.draws_measure hD hu _ hy]
  congr 1
  ext ω
  exact DiscreteDAG.Filled.iff hD ot (h2 ω) y

/-- The alphabets `1, 2` instead of `0, 1`, for the graph `0 → 1`. -/
noncomputable def shifted : DiscreteDAG (Fin 2) := { Sample.parity {(0, 1)} with alph := fun _ => [1, 2] }

theorem shifted_proper : shifted.Proper := by
  have h := Sample.parity_proper (arcs := {((0 : Fin 2), 1)}) (by decide)
  exact ⟨⟨h.valid, h.nodup, h.pars_iff, h.shape⟩, h.total⟩

/-- C132, violated: with the alphabets `1, 2` the value of the first node is used as an index. -/
theorem C132_violated : ∃ D : DiscreteDAG (Fin 2), D.Proper ∧ ∀ ot ix, Function.Injective ix → ∀ u : Fin 2 → ℝ,
    u 0 ∈ Set.Ico (3 / 4 : ℝ) 1 → (D.sample ot ix u).run = some (.error .index) := by
  refine ⟨shifted, shifted_proper, fun ot ix hix u hu => ?_⟩
  obtain ⟨t, ht1, ht⟩ := DAG.topologicalSort_ok shifted.dag ot shifted_proper.valid
  have ht0 : t = [0, 1] := by
    have h1 : List.Sublist [0, 1] t := ht.before 0 1 (by simp [DAG.E, shifted, Sample.parity, Sample.graph])
    refine (h1.eq_of_length ?_).symm
    have : t.Perm [0, 1] := (List.perm_ext_iff_of_nodup ht.nodup (by simp)).2 fun v => by
      rw [ht.mem_iff]
      fin_cases v <;> simp [shifted, Sample.parity, Sample.graph]
    exact this.length_eq.symm
  subst ht0
  have hp0 : shifted.pars 0 = [] := by decide
  have hp1 : shifted.pars 1 = [0] := by decide
  have hc : npChoice (α := Fin 2) (shifted.alph 0) (shifted.cond 0) (u 0) = .ok 2 := by
    refine npChoice_eq (k := 1) rfl (by decide) ?_ ⟨?_, ?_⟩
    · simp [shifted, Sample.parity, Sample.noisy, Finset.sum_range_succ]; norm_num
    · simpa [shifted, Sample.parity, Sample.noisy] using hu.1
    · simp only [shifted, Sample.parity, Sample.noisy, Finset.sum_range_succ]
      norm_num
      exact hu.2
  rw [DiscreteDAG.sample, DiscreteDAG.run_bind_ok ht1]
  have h1 : shifted.drawSample ix u (fun _ => 0) 0 = .ok 2 := by rw [DiscreteDAG.drawSample, if_pos hp0, hc]
  have h2 : shifted.drawSample ix u (Function.update (fun _ => 0) (ix 0) 2) 1 = .error .index := by
    rw [DiscreteDAG.drawSample, if_neg (by rw [hp1]; simp), hp1]
    simp only [List.map_cons, List.map_nil, Function.update_self]
    rfl
  have e1 : (do
      let x ← (ExceptT.mk (some (shifted.drawSample ix u (fun _ => 0) 0)) : Run (Fin 2) ℤ)
      pure (Function.update (fun _ => 0) (ix 0) x) : Run (Fin 2) (ℕ → ℤ)).run =
      some (.ok (Function.update (fun _ => 0) (ix 0) 2)) := by
    rw [h1]; rfl
  rw [List.foldlM_cons, DiscreteDAG.run_bind_ok e1, List.foldlM_cons, h2]
  rfl

example : ∃ (Ω : Type) (_ : MeasurableSpace Ω) (μ : Measure Ω) (row : Ω → ℕ → ℤ), ∀ y : Fin 3 → ℕ, (∀ v, y v < 2) →
    μ {ω | ∀ v : Fin 3, row ω v = y v} = (Sample.parity {((0 : Fin 3), 2), (1, 2)}).law y := by
  obtain ⟨Ω, m, μ, u, hμ, hu⟩ := uniformNoise_exists (Fin 3)
  obtain ⟨row, -, h⟩ := C132_sample_partial (D := Sample.parity {((0 : Fin 3), 2), (1, 2)}) (Sample.parity_proper (by decide)).tabled
    (fun v _ => rfl) Sample.order (ix := fun v => v) (fun a _ b _ h => Fin.ext h) hu
  refine ⟨Ω, m, μ, row, fun y hy => ?_⟩
  rw [← h y fun v _ => hy v]
  simp [Sample.parity, Sample.graph]

/-- C133. `weighted_samples(nodes, values)` is unbiased on nodes `0, ..., n-1` with alphabets `0, 1, ..., k-1`: the expectation of any
function of the row, weighted with the product of the weights, is its sum over the assignments with the given values, weighted with
their probabilities. -/
theorem C133_weighted_samples_partial {D : DiscreteDAG ℕ} (hD : D.Tabled) (hA : D.Counting) (ot : SetOrder (Option ℕ) ℕ) {n : ℕ}
    {ix : ℕ → ℕ} (hn : ∀ v ∈ D.dag.nodes, v < n) (hix : ∀ v ∈ D.dag.nodes, ix v = v) {u : ℕ → Ω → ℝ} (hu : UniformNoise μ u)
    {N vals : List ℕ} (hN : N.Nodup) (hNn : ∀ v ∈ N, v ∈ D.dag.nodes) (hlen : N.length = vals.length)
    (hval : ∀ v ∈ N, vals.getD (N.idxOf v) 0 < D.dims v) :
    ∃ (row : Ω → ℕ → ℤ) (w : Ω → List ℝ≥0),
      (∀ ω, (D.weightedSamples ot n ix (fun v => u v ω) N vals).run = some (.ok (row ω, w ω))) ∧
      ∀ g : (ℕ → ℕ) → ℝ≥0∞, (∀ y z : ℕ → ℕ, (∀ v ∈ D.dag.nodes, y v = z v) → g y = g z) →
        ∫⁻ ω, (w ω).prod * g (fun v => (row ω (ix v)).toNat) ∂μ =
          prob D.dag.nodes D.dims (fun y => D.law y * g y) fun y => ∀ v ∈ N, y v = vals.getD (N.idxOf v) 0 := by
  classical
  choose row w h1 h2 h3 using fun ω => DiscreteDAG.weightedSamples_run hD hA ot hn hix (u := fun v => u v ω)
    (fun v => hu.range v ω) hN hNn hlen hval
  refine ⟨row, w, h1, fun g hg => ?_⟩
  set val := fun v => vals.getD (N.idxOf v) 0 with hvaldef
  rw [DiscreteDAG.lintegral_drawn hD ot hu _ h2 _ (fun y => ((N.map fun v => D.rowAt v y (val v)).prod : ℝ≥0) * g y), prob,
    Finset.sum_filter]
  · refine Finset.sum_congr rfl fun y hy => ?_
    rw [DiscreteDAG.lawDo]
    have hiff : (∀ v ∈ D.dag.nodes, ∀ c, DiscreteDAG.fixAt N.toFinset val v = some c → y v = c) ↔ ∀ v ∈ N, y v = val v := by
      constructor
      · intro h v hv
        exact h v (hNn v hv) (val v) (by simp [DiscreteDAG.fixAt, hv])
      · intro h v _ c hc
        by_cases hv : v ∈ N
        · rw [h v hv]; simpa [DiscreteDAG.fixAt, hv] using hc
        · simp [DiscreteDAG.fixAt, hv] at hc
    by_cases hc : ∀ v ∈ N, y v = val v
    · rw [if_pos (hiff.2 hc), if_pos hc, ← mul_assoc]
      congr 1
      rw [← ENNReal.coe_mul, ENNReal.coe_inj, DiscreteDAG.law, joint]
      rw [← Finset.prod_filter_mul_prod_filter_not D.dag.nodes (fun v => DiscreteDAG.fixAt N.toFinset val v = none)]
      congr 1
      rw [← List.prod_toFinset _ hN]
      refine Finset.prod_congr ?_ fun v hv => ?_
      · ext v
        simp only [List.mem_toFinset, Finset.mem_filter, DiscreteDAG.fixAt]
        refine ⟨fun hv => ⟨hNn v hv, by simp [hv]⟩, fun hv => ?_⟩
        by_contra h
        exact hv.2 (by simp [h])
      · rw [DiscreteDAG.rowAt, List.map_append, List.map_singleton, hc v ?_]
        by_contra h
        exact (Finset.mem_filter.1 hv).2 (by simp [DiscreteDAG.fixAt, h])
    · rw [if_neg fun h => hc (hiff.1 h), if_neg hc]; simp
  · intro ω y hy
    have hz : ∀ v ∈ D.dag.nodes, (row ω (ix v)).toNat = y v := fun v hv => by rw [hy v hv]; simp
    rw [hg _ y hz, h3 ω]
    congr 3
    refine List.map_congr_left fun v hv => congrFun (DiscreteDAG.rowAt_congr fun p hp => hz p ?_) _
    exact hD.valid.fst_mem _ _ (hD.pars_sub v (hNn v hv) p hp)

/-- C133. The expected product of the weights is the probability of the values. -/
theorem C133_weights_partial {D : DiscreteDAG ℕ} (hD : D.Tabled) (hA : D.Counting) (ot : SetOrder (Option ℕ) ℕ) {n : ℕ}
    {ix : ℕ → ℕ} (hn : ∀ v ∈ D.dag.nodes, v < n) (hix : ∀ v ∈ D.dag.nodes, ix v = v) {u : ℕ → Ω → ℝ} (hu : UniformNoise μ u)
    {N vals : List ℕ} (hN : N.Nodup) (hNn : ∀ v ∈ N, v ∈ D.dag.nodes) (hlen : N.length = vals.length)
    (hval : ∀ v ∈ N, vals.getD (N.idxOf v) 0 < D.dims v) :
    ∃ (row : Ω → ℕ → ℤ) (w : Ω → List ℝ≥0),
      (∀ ω, (D.weightedSamples ot n ix (fun v => u v ω) N vals).run = some (.ok (row ω, w ω))) ∧
        ∫⁻ ω, (w ω).prod ∂μ = D.pr N (fun v => vals.getD (N.idxOf v) 0) := by
  classical
  obtain ⟨row, w, h1, h2⟩ := C133_weighted_samples_partial hD hA ot hn hix hu hN hNn hlen hval
  refine ⟨row, w, h1, ?_⟩
  have := h2 (fun _ => 1) fun _ _ _ => rfl
  simp only [mul_one] at this
  rw [this, prob, DiscreteDAG.pr, prob, ENNReal.ofNNReal_finsetSum]

/-- C133, violated: the labels are used as columns. -/
theorem C133_violated : ∃ D : DiscreteDAG ℕ, D.Proper ∧ D.Counting ∧ D.dag.nodes = {1} ∧
    ∀ ot ix u, (D.weightedSamples ot 1 ix u [1] [0]).run = some (.error .index) :=
  ⟨Sample.natParity {1} ∅, Sample.natParity_proper (by simp), fun _ _ => rfl, rfl, fun _ _ _ => rfl⟩

example : ∃ (Ω : Type) (_ : MeasurableSpace Ω) (μ : Measure Ω) (w : Ω → List ℝ≥0),
    ∫⁻ ω, (w ω).prod ∂μ = (Sample.natParity {0, 1, 2} {(0, 1), (1, 2)}).pr [2] fun _ => 1 := by
  obtain ⟨Ω, m, μ, u, hμ, hu⟩ := uniformNoise_exists ℕ
  obtain ⟨row, w, -, h⟩ := C133_weights_partial (D := Sample.natParity {0, 1, 2} {(0, 1), (1, 2)})
    (Sample.natParity_proper (by decide)).tabled (fun v _ => rfl) Sample.order (n := 3) (ix := id)
    (by simp [Sample.natParity, Sample.natGraph]) (fun _ _ => rfl) hu (N := [2]) (vals := [1]) (by simp)
    (by simp [Sample.natParity, Sample.natGraph]) rfl (by simp [Sample.natParity, DiscreteDAG.dims])
  refine ⟨Ω, m, μ, w, h.trans ?_⟩
  simp [DiscreteDAG.pr]

/-- C134. A row of `sample_interventional` has the distribution after the intervention on nodes `0, ..., n-1` with alphabets
`0, 1, ..., k-1`. -/
theorem C134_sample_interventional_partial {D : DiscreteDAG ℕ} (hD : D.Tabled) (hA : D.Counting) (ot : SetOrder (Option ℕ) ℕ)
    {ix : ℕ → ℕ} (hix : ∀ v ∈ D.dag.nodes, ix v = v) {u : ℕ → Ω → ℝ} (hu : UniformNoise μ u) {targets : Finset ℕ}
    (h0 : targets.Nonempty) {values : ℕ → ℕ} (hval : ∀ v ∈ targets, v ∈ D.dag.nodes → values v < D.dims v) :
    ∃ row : Ω → ℕ → ℤ,
      (∀ ω, (D.sampleInterventional ot ix (fun v => u v ω) targets fun v => (values v : ℤ)).run = some (.ok (row ω))) ∧
      ∀ y : ℕ → ℕ, (∀ v ∈ D.dag.nodes, y v < D.dims v) →
        μ {ω | ∀ v ∈ D.dag.nodes, row ω (ix v) = y v} = D.lawDo (fun v => if v ∈ targets then some (values v) else none) y := by
  choose row h1 h2 using fun ω => DiscreteDAG.sampleInterventional_run hD hA ot hix (u := fun v => u v ω)
    (fun v => hu.range v ω) h0 hval
  refine ⟨row, h1, fun y hy => ?_⟩
  have := DiscreteDAG.draws_measure hD hu (DiscreteDAG.fixAt targets values) hy
  refine Eq.trans ?_ this
  congr 1
  ext ω
  exact DiscreteDAG.Filled.iff hD ot (h2 ω) y

/-- C134, violated: the dictionary of interventions is indexed with the column. -/
theorem C134_violated : ∃ D : DiscreteDAG ℕ, D.Proper ∧ D.Counting ∧ D.dag.nodes = {1} ∧
    ∀ ot ix u, ix 1 = 0 → (D.sampleInterventional ot ix u {1} fun _ => 0).run = some (.error .key) := by
  refine ⟨Sample.natParity {1} ∅, Sample.natParity_proper (by simp), fun _ _ => rfl, rfl, fun ot ix u hix => ?_⟩
  obtain ⟨t, ht1, ht⟩ := DAG.topologicalSort_ok (Sample.natParity {1} ∅).dag ot (Sample.natGraph_valid (by simp))
  have ht0 : t = [1] := by
    refine List.perm_singleton.1 ((List.perm_ext_iff_of_nodup ht.nodup (by simp)).2 fun u => ?_)
    rw [ht.mem_iff]
    simp [Sample.natParity, Sample.natGraph]
  subst ht0
  rw [DiscreteDAG.sampleInterventional, if_neg (by simp), DiscreteDAG.run_bind_ok ht1, List.foldlM_cons]
  simp only [DiscreteDAG.intervenedStep, hix]
  rfl

example : ∃ (Ω : Type) (_ : MeasurableSpace Ω) (μ : Measure Ω) (row : Ω → ℕ → ℤ), ∀ y : ℕ → ℕ, (∀ v ∈ ({0, 1, 2} : Finset ℕ), y v < 2) →
    μ {ω | ∀ v ∈ ({0, 1, 2} : Finset ℕ), row ω v = y v} =
      (Sample.natParity {0, 1, 2} {(0, 1), (1, 2)}).lawDo (fun v => if v ∈ ({1} : Finset ℕ) then some 0 else none) y := by
  obtain ⟨Ω, m, μ, u, hμ, hu⟩ := uniformNoise_exists ℕ
  obtain ⟨row, -, h⟩ := C134_sample_interventional_partial (D := Sample.natParity {0, 1, 2} {(0, 1), (1, 2)})
    (Sample.natParity_proper (by decide)).tabled (fun v _ => rfl) Sample.order (ix := id) (fun _ _ => rfl) hu (targets := {1}) (by simp)
    (values := fun _ => 0) (by simp [Sample.natParity, DiscreteDAG.dims])
  exact ⟨Ω, m, μ, row, h⟩

/-- C135. `get_hard_interventional_dag(node, value)` for a value of the alphabet removes the arcs into the node and has the
distribution after the intervention. -/
theorem C135_hard_interventional_dag (hD : D.Proper) (o : SetOrder (Option α) α) (oa : SetOrder Bool (α × α)) {s : α}
    (hs : s ∈ D.dag.nodes) (hnd : (D.alph s).Nodup) {c : ℕ} (hc : c < D.dims s) :
    ∃ D', D.hardInterventional o oa s ((D.alph s).getD c 0) = some (.ok D') ∧ D'.dag.nodes = D.dag.nodes ∧
      (∀ a, a ∈ D'.dag.arcs ↔ a ∈ D.dag.arcs ∧ a.2 ≠ s) ∧ D'.alph = D.alph ∧ D'.Proper ∧
      ∀ y : α → ℕ, (∀ v ∈ D.dag.nodes, y v < D.dims v) → D'.law y = D.lawDo (fun v => if v = s then some c else none) y :=
  DiscreteDAG.hardInterventional_run hD o oa hs hnd hc

example : ∃ D', (Sample.parity {((0 : Fin 3), 2), (1, 2)}).hardInterventional Sample.order Sample.order 2 1 = some (.ok D') ∧
    D'.dag.arcs = ∅ ∧ D'.Proper := by
  obtain ⟨D', h1, -, h2, -, h3, -⟩ := C135_hard_interventional_dag (D := Sample.parity {((0 : Fin 3), 2), (1, 2)})
    (Sample.parity_proper (by decide)) Sample.order Sample.order (s := 2) (Finset.mem_univ _) (by decide) (c := 1) (by decide)
  refine ⟨D', h1, Finset.eq_empty_of_forall_notMem fun a ha => ?_, h3⟩
  have := (h2 a).1 ha
  have h4 : ∀ a : Fin 3 × Fin 3, a ∈ ({(0, 2), (1, 2)} : Finset (Fin 3 × Fin 3)) → a.2 = 2 := by decide
  exact this.2 (h4 a this.1)

end Props
