import Verif.Proof.ImportanceRun

/-! # C261: importance sampling -/

namespace Props

open Model Spec MeasureTheory ProbabilityTheory Filter Topology
open scoped NNReal

variable {Ω : Type} [MeasurableSpace Ω] {μ : Measure Ω} [IsProbabilityMeasure μ]

private theorem npDiv_tendsto {a b : ℕ → ℝ≥0} {A B : ℝ≥0} (ha : Tendsto (fun n => ((a n : ℝ≥0) : ℝ) / n) atTop (𝓝 (A : ℝ)))
    (hb : Tendsto (fun n => ((b n : ℝ≥0) : ℝ) / n) atTop (𝓝 (B : ℝ))) (hB : B ≠ 0) :
    (∀ᶠ n in atTop, DiscreteDAG.npDiv (a n) (b n) = some (a n / b n)) ∧ Tendsto (fun n => a n / b n) atTop (𝓝 (A / B)) := by
  have hB' : (B : ℝ) ≠ 0 := by exact_mod_cast hB
  have h1 : ∀ᶠ n in atTop, b n ≠ 0 := by
    filter_upwards [hb.eventually_ne hB'] with n hn h0
    exact hn (by simp [h0])
  refine ⟨by filter_upwards [h1] with n hn; rw [DiscreteDAG.npDiv, if_neg hn], ?_⟩
  rw [← NNReal.tendsto_coe]
  push_cast
  refine (ha.div hb hB').congr' ?_
  filter_upwards [eventually_gt_atTop 0] with n hn
  have : (n : ℝ) ≠ 0 := by exact_mod_cast hn.ne'
  simp only [Pi.div_apply]
  rw [div_div_div_cancel_right₀ this]

private theorem map_eq_iff {N c : List ℕ} (hN : N.Nodup) (h : N.length = c.length) (y : ℕ → ℕ) :
    (∀ v ∈ N, y v = c.getD (N.idxOf v) 0) ↔ N.map y = c := by
  constructor
  · intro hy
    refine List.ext_getElem (by simpa using h) fun i h1 h2 => ?_
    rw [List.getElem_map, hy _ (List.getElem_mem _), hN.idxOf_getElem, List.getD_eq_getElem?_getD, List.getElem?_eq_getElem h2]
    rfl
  · rintro rfl v hv
    have h1 := List.idxOf_lt_length_of_mem hv
    rw [List.getD_eq_getElem?_getD, List.getElem?_map, List.getElem?_eq_getElem h1]
    simp

/-- C261. On nodes `0, ..., n-1` with alphabets `0, 1, ..., k-1`, `get_conditional_importance_sampling` returns estimates that converge, with
probability one, when the number of particles grows: the estimates of the conditional probabilities to the conditional probabilities, given
values of positive probability; those of the marginal probabilities to the probabilities of the tuples of values, divided by their sum. -/
theorem C261_importance_sampling_partial {D : DiscreteDAG ℕ} (hD : D.Tabled) (hA : D.Counting) (ot : SetOrder (Option ℕ) ℕ) {n : ℕ}
    {ix : ℕ → ℕ} (hn : ∀ v ∈ D.dag.nodes, v < n) (hix : ∀ v ∈ D.dag.nodes, ix v = v) {u : ℕ × ℕ → Ω → ℝ} (hu : UniformNoise μ u)
    {marg cond : List ℕ} (hN : cond.Nodup) (hNn : ∀ v ∈ cond, v ∈ D.dag.nodes) (hM : ∀ v ∈ marg, v ∈ D.dag.nodes) {values : List (List ℕ)}
    (hval : ∀ c ∈ values, List.Forall₂ (fun v i => i < D.dims v) cond c) :
    ∃ out : Ω → ℕ → List (List ℕ × (List ℕ → Option ℝ≥0) × Option ℝ≥0),
      (∀ ω np, (D.importanceSampling ot n ix (fun i v => u (i, v) ω) marg cond (some values) np).run = some (.ok (out ω np))) ∧
      (∀ ω np, (out ω np).map Prod.fst = values) ∧
      ∀ᵐ ω ∂μ, ∀ (k : ℕ) (c : List ℕ), values[k]? = some c →
        (prob D.dag.nodes D.dims D.law (fun y => cond.map y = c) ≠ 0 → ∀ m, ∃ r : ℕ → ℝ≥0,
          (∀ᶠ np in atTop, ((out ω np)[k]?.map fun e => e.2.1 m) = some (some (r np))) ∧
          Tendsto r atTop (𝓝 (prob D.dag.nodes D.dims D.law (fun y => marg.map y = m ∧ cond.map y = c) /
            prob D.dag.nodes D.dims D.law fun y => cond.map y = c))) ∧
        ((values.map fun c' => prob D.dag.nodes D.dims D.law fun y => cond.map y = c').sum ≠ 0 → ∃ r : ℕ → ℝ≥0,
          (∀ᶠ np in atTop, ((out ω np)[k]?.map fun e => e.2.2) = some (some (r np))) ∧
          Tendsto r atTop (𝓝 (prob D.dag.nodes D.dims D.law (fun y => cond.map y = c) /
            (values.map fun c' => prob D.dag.nodes D.dims D.law fun y => cond.map y = c').sum))) := by
  classical
  refine ⟨_, fun ω np => DiscreteDAG.importanceSampling_run hD hA ot hn hix hN hNn hM hval (fun i v => hu.range (i, v) ω) np, fun ω np => ?_, ?_⟩
  · rw [List.map_map]
    exact List.zipIdx_map_fst 0 values
  have hW : ∀ᵐ ω ∂μ, ∀ c, c ∈ values → Tendsto (fun m : ℕ => (∑ i ∈ Finset.range m,
      ((D.weightAt ot n ix cond (fun i v => u (i, v) ω) c i : ℝ≥0) : ℝ)) / m) atTop
        (𝓝 ((prob D.dag.nodes D.dims D.law fun y => cond.map y = c : ℝ≥0) : ℝ)) := by
    rw [ae_all_iff]
    intro c
    by_cases hc : c ∈ values
    · obtain ⟨hlen, hv⟩ := DiscreteDAG.getD_of_forall₂ (hval c hc)
      filter_upwards [DiscreteDAG.weighted_slln hD hA ot hn hix hN hNn hlen hv hu (fun _ => 1) fun _ _ _ => rfl] with ω hω _
      simp only [mul_one, map_eq_iff hN hlen] at hω
      exact hω
    · exact ae_of_all _ fun _ h => absurd h hc
  have hI : ∀ᵐ ω ∂μ, ∀ c, c ∈ values → ∀ m, Tendsto (fun j : ℕ => (∑ i ∈ Finset.range j,
      ((D.weightIf ot n ix cond (fun i v => u (i, v) ω) marg m c i : ℝ≥0) : ℝ)) / j) atTop
        (𝓝 ((prob D.dag.nodes D.dims D.law fun y => marg.map y = m ∧ cond.map y = c : ℝ≥0) : ℝ)) := by
    rw [ae_all_iff]
    intro c
    by_cases hc : c ∈ values
    · obtain ⟨hlen, hv⟩ := DiscreteDAG.getD_of_forall₂ (hval c hc)
      have : ∀ᵐ ω ∂μ, ∀ m, Tendsto (fun j : ℕ => (∑ i ∈ Finset.range j,
          ((D.weightIf ot n ix cond (fun i v => u (i, v) ω) marg m c i : ℝ≥0) : ℝ)) / j) atTop
            (𝓝 ((prob D.dag.nodes D.dims D.law fun y => marg.map y = m ∧ cond.map y = c : ℝ≥0) : ℝ)) := by
        rw [ae_all_iff]
        intro m
        filter_upwards [DiscreteDAG.weighted_slln hD hA ot hn hix hN hNn hlen hv hu (fun y => if marg.map y = m then 1 else 0) fun y z h => by
          rw [List.map_congr_left fun v hv => h v (hM v hv)]] with ω hω
        simp only [map_eq_iff hN hlen] at hω
        have he : prob D.dag.nodes D.dims D.law (fun y => marg.map y = m ∧ cond.map y = c) =
            prob D.dag.nodes D.dims (fun y => D.law y * if marg.map y = m then 1 else 0) fun y => cond.map y = c := by
          rw [prob, prob, Finset.sum_filter, Finset.sum_filter]
          refine Finset.sum_congr rfl fun y _ => ?_
          by_cases h1 : marg.map y = m <;> by_cases h2 : cond.map y = c <;> simp [h1, h2]
        rw [he]
        exact hω
      filter_upwards [this] with ω hω _ using hω
    · exact ae_of_all _ fun _ h => absurd h hc
  filter_upwards [hW, hI] with ω hW hI k c hk
  have hc : c ∈ values := List.mem_of_getElem? hk
  have hget : values.zipIdx[k]? = some (c, k) := by simp [List.getElem?_zipIdx, hk]
  have hWb : ∀ c ∈ values, ∀ k, Tendsto (fun np : ℕ =>
      ((∑ r ∈ Finset.range np, D.weightAt ot n ix cond (fun i v => u (i, v) ω) c (np * k + r) : ℝ≥0) : ℝ) / np) atTop
        (𝓝 ((prob D.dag.nodes D.dims D.law fun y => cond.map y = c : ℝ≥0) : ℝ)) := by
    intro c hc k
    simpa only [NNReal.coe_sum] using tendsto_block (hW c hc) k
  refine ⟨fun h0 m => ?_, fun h0 => ?_⟩
  · have hIb : Tendsto (fun np : ℕ =>
        ((∑ r ∈ Finset.range np, D.weightIf ot n ix cond (fun i v => u (i, v) ω) marg m c (np * k + r) : ℝ≥0) : ℝ) / np) atTop
          (𝓝 ((prob D.dag.nodes D.dims D.law fun y => marg.map y = m ∧ cond.map y = c : ℝ≥0) : ℝ)) := by
      simpa only [NNReal.coe_sum] using tendsto_block (hI c hc m) k
    obtain ⟨h1, h2⟩ := npDiv_tendsto hIb (hWb c hc k) h0
    refine ⟨_, ?_, h2⟩
    filter_upwards [h1] with np hnp
    rw [List.getElem?_map, hget]
    exact congrArg some hnp
  · have hS : Tendsto (fun np : ℕ => (((values.zipIdx.map fun q => ∑ r ∈ Finset.range np,
        D.weightAt ot n ix cond (fun i v => u (i, v) ω) q.1 (np * q.2 + r)).sum : ℝ≥0) : ℝ) / np) atTop
          (𝓝 (((values.map fun c' => prob D.dag.nodes D.dims D.law fun y => cond.map y = c').sum : ℝ≥0) : ℝ)) := by
      have : ∀ (l : List (List ℕ × ℕ)), (∀ q ∈ l, q.1 ∈ values) → Tendsto (fun np : ℕ => (((l.map fun q => ∑ r ∈ Finset.range np,
          D.weightAt ot n ix cond (fun i v => u (i, v) ω) q.1 (np * q.2 + r)).sum : ℝ≥0) : ℝ) / np) atTop
            (𝓝 (((l.map fun q => prob D.dag.nodes D.dims D.law fun y => cond.map y = q.1).sum : ℝ≥0) : ℝ)) := by
        intro l
        induction l with
        | nil => intro _; simp
        | cons q l ih =>
          intro h
          have := (hWb q.1 (h q List.mem_cons_self) q.2).add (ih fun p hp => h p (List.mem_cons_of_mem _ hp))
          simp only [List.map_cons, List.sum_cons, NNReal.coe_add, add_div]
          exact this
      have h2 := this values.zipIdx fun q hq => List.fst_mem_of_mem_zipIdx hq
      have h3 : (values.zipIdx.map fun q => prob D.dag.nodes D.dims D.law fun y => cond.map y = q.1) =
          values.map fun c' => prob D.dag.nodes D.dims D.law fun y => cond.map y = c' := by
        conv_rhs => rw [← List.zipIdx_map_fst 0 values, List.map_map]
        rfl
      rwa [h3] at h2
    obtain ⟨h1, h2⟩ := npDiv_tendsto (hWb c hc k) hS h0
    refine ⟨_, ?_, h2⟩
    filter_upwards [h1] with np hnp
    rw [List.getElem?_map, hget]
    exact congrArg some hnp

example : ∃ (Ω : Type) (_ : MeasurableSpace Ω) (μ : Measure Ω) (u : ℕ × ℕ → Ω → ℝ) (out : Ω → ℕ → List (List ℕ × (List ℕ → Option ℝ≥0) × Option ℝ≥0)),
    UniformNoise μ u ∧ ∀ ω np, ((Sample.natParity {0, 1, 2} {(0, 1), (1, 2)}).importanceSampling Sample.order 3 id (fun i v => u (i, v) ω) [0] [2]
      (some [[0], [1]]) np).run = some (.ok (out ω np)) := by
  obtain ⟨Ω, m, μ, u, hμ, hu⟩ := uniformNoise_exists (ℕ × ℕ)
  obtain ⟨out, h, -, -⟩ := C261_importance_sampling_partial (D := Sample.natParity {0, 1, 2} {(0, 1), (1, 2)})
    (Sample.natParity_proper (by decide)).tabled (fun v _ => rfl) Sample.order (n := 3) (ix := id)
    (by simp [Sample.natParity, Sample.natGraph]) (fun _ _ => rfl) hu (marg := [0]) (cond := [2]) (by simp)
    (by simp [Sample.natParity, Sample.natGraph]) (by simp [Sample.natParity, Sample.natGraph]) (values := [[0], [1]])
    (by simp [Sample.natParity, DiscreteDAG.dims])
  exact ⟨Ω, m, μ, u, out, hu, h⟩

/-- C261. Given values of probability zero all entries are `nan`, whatever is drawn. -/
theorem C261_impossible_partial {D : DiscreteDAG ℕ} (hD : D.Tabled) (hA : D.Counting) (ot : SetOrder (Option ℕ) ℕ) {n : ℕ}
    {ix : ℕ → ℕ} (hn : ∀ v ∈ D.dag.nodes, v < n) (hix : ∀ v ∈ D.dag.nodes, ix v = v) {u : ℕ → ℕ → ℝ} (hu : ∀ i v, u i v ∈ Set.Ico (0 : ℝ) 1)
    {marg cond : List ℕ} (hN : cond.Nodup) (hNn : ∀ v ∈ cond, v ∈ D.dag.nodes) (hM : ∀ v ∈ marg, v ∈ D.dag.nodes) {values : List (List ℕ)}
    (hval : ∀ c ∈ values, List.Forall₂ (fun v i => i < D.dims v) cond c) (np : ℕ) :
    ∃ out, (D.importanceSampling ot n ix u marg cond (some values) np).run = some (.ok out) ∧
      ∀ e ∈ out, prob D.dag.nodes D.dims D.law (fun y => cond.map y = e.1) = 0 → ∀ m, e.2.1 m = none := by
  refine ⟨_, DiscreteDAG.importanceSampling_run hD hA ot hn hix hN hNn hM hval hu np, fun e he h0 m => ?_⟩
  obtain ⟨p, hp, rfl⟩ := List.mem_map.1 he
  have hc := hval p.1 (List.fst_mem_of_mem_zipIdx hp)
  simp only [← map_eq_iff hN (DiscreteDAG.getD_of_forall₂ hc).1] at h0
  refine if_pos (Finset.sum_eq_zero fun r _ => ?_)
  exact DiscreteDAG.weightAt_zero hD hA ot hn hix hN hNn hc hu h0 _

example (u : ℕ → ℕ → ℝ) (hu : ∀ i v, u i v ∈ Set.Ico (0 : ℝ) 1) : ∃ out, ((Sample.natParity {0, 1, 2} {(0, 1), (1, 2)}).importanceSampling
    Sample.order 3 id u [0] [1, 2] (some [[0, 0], [0, 1]]) 1000).run = some (.ok out) := by
  obtain ⟨out, h, -⟩ := C261_impossible_partial (D := Sample.natParity {0, 1, 2} {(0, 1), (1, 2)})
    (Sample.natParity_proper (by decide)).tabled (fun v _ => rfl) Sample.order (n := 3) (ix := id)
    (by simp [Sample.natParity, Sample.natGraph]) (fun _ _ => rfl) hu (marg := [0]) (cond := [1, 2]) (by simp)
    (by simp [Sample.natParity, Sample.natGraph]) (by simp [Sample.natParity, Sample.natGraph]) (values := [[0, 0], [0, 1]])
    (by simp [Sample.natParity, DiscreteDAG.dims]) 1000
  exact ⟨out, h⟩

/-- C261, violated: the labels are used as columns, and the default of `cond_values` is no list. -/
theorem C261_violated : ∃ D : DiscreteDAG ℕ, D.Proper ∧ D.Counting ∧ D.dag.nodes = {1} ∧
    (∀ ot ix u, (D.importanceSampling ot 1 ix u [1] [1] (some [[0]]) 1000).run = some (.error .index)) ∧
    ∀ ot n ix u marg cond np, (D.importanceSampling ot n ix u marg cond none np).run = some (.error .type) :=
  ⟨Sample.natParity {1} ∅, Sample.natParity_proper (by simp), fun _ _ => rfl, rfl, fun _ _ _ => rfl, fun _ _ _ _ _ _ _ => rfl⟩

end Props
