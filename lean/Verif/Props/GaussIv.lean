import Verif.Proof.GaussIv
import Verif.Props.GaussMore
import Verif.Props.GaussPdf

/-! # Copies and interventional graphs of `GaussDAG` (properties C122 to C126) -/

namespace Props

set_option linter.unusedSectionVars false

open Model Spec MeasureTheory ProbabilityTheory

variable {n : ℕ} {K : Type} [Field K] [DecidableEq K]

/-! ## C122 -/

/-- C122 for the node list `0, …, n-1` if the set of these numbers is iterated in ascending order: `copy()` has the same nodes, arcs,
weights, biases and variances. Missing: other node lists. -/
theorem C122_copy_partial {G : Gauss n K} (h : G.Plain) {on : SetOrder Unit ℕ} (ha : on.ord () (Finset.range n) = List.range n)
    (oe : SetOrder Unit (ℕ × ℕ)) (oa : SetOrder Bool (ℕ × ℕ)) :
    ∃ H, G.copy on oe oa = some (.ok H) ∧ H.Plain ∧ H.dag.nodes = G.dag.nodes ∧ H.dag.arcs = G.dag.arcs ∧ H.weight = G.weight ∧
      H.biases = G.biases ∧ H.variances = G.variances := by
  obtain ⟨H, h1, h2, h3, h4, h5, h6, h7, h8⟩ := h.copy_spec on oe oa
  have hn := h.names_ascending ha h7
  have hp : H.Plain := ⟨h2, hn⟩
  have hw : H.weight = G.weight := by
    ext i j
    rw [h8, hn, hn, G.entry_val]
  refine ⟨H, h1, hp, by rw [hp.nodes_eq, h.nodes_eq], ?_, hw, h3, h4⟩
  ext ⟨i, j⟩
  constructor
  · intro hij
    obtain ⟨hi, hj⟩ := hp.arc_lt hij
    have := (hp.arcs ⟨i, hi⟩ ⟨j, hj⟩).1 hij
    exact (h.arcs ⟨i, hi⟩ ⟨j, hj⟩).2 (hw ▸ this)
  · intro hij
    obtain ⟨hi, hj⟩ := h.arc_lt hij
    have := (h.arcs ⟨i, hi⟩ ⟨j, hj⟩).1 hij
    exact (hp.arcs ⟨i, hi⟩ ⟨j, hj⟩).2 (hw.symm ▸ this)

/-- C122 for the node list `0, …, n-1` and any order of iteration: the labelled weights are right; the biases and variances are stored by
position. -/
theorem C122_weights_partial {G : Gauss n K} (h : G.Plain) (on : SetOrder Unit ℕ) (oe : SetOrder Unit (ℕ × ℕ))
    (oa : SetOrder Bool (ℕ × ℕ)) :
    ∃ H, G.copy on oe oa = some (.ok H) ∧ H.Sound ∧ H.biases = G.biases ∧ H.variances = G.variances ∧
      ∀ c d a b : Fin n, H.names c = a.val → H.names d = b.val → H.weight c d = G.weight a b := by
  obtain ⟨H, h1, h2, h3, h4, h5, h6, h7, h8⟩ := h.copy_spec on oe oa
  exact ⟨H, h1, h2, h3, h4, fun c d a b hc hd => by rw [h8, hc, hd, G.entry_val]⟩

/-- C122 is violated: the copy of a graph on the node list `[1, 0]` with one arc has no arc, for all orders of iteration. -/
theorem C122_violated (on : SetOrder Unit ℕ) (oe : SetOrder Unit (ℕ × ℕ)) (oa : SetOrder Bool (ℕ × ℕ)) :
    ∃ G H : Gauss 2 ℚ, Gauss.new oa ![1, 0] [((1, 0), 1)] 0 1 = (G, none) ∧ G.Sound ∧ (1, 0) ∈ G.dag.arcs ∧
      G.copy on oe oa = some (.ok H) ∧ H.dag.arcs = ∅ := by
  obtain ⟨G, h1, h2, h3, h4⟩ := GaussCase.swapped oa
  have harc : ∀ i j, (i, j) ∈ G.dag.arcs ↔ i = 1 ∧ j = 0 := by
    intro i j
    constructor
    · intro hij
      obtain ⟨a, rfl⟩ := (h2.listed.range _).1 (h2.listed.valid.fst_mem _ _ hij)
      obtain ⟨b, rfl⟩ := (h2.listed.range _).1 (h2.listed.valid.snd_mem _ _ hij)
      have := (h2.arcs_iff a b).1 hij
      rw [h4] at this
      rw [h3]
      fin_cases a <;> fin_cases b <;> simp_all
    · rintro ⟨rfl, rfl⟩
      have := (h2.arcs_iff 0 1).2 (by rw [h4]; simp)
      rwa [h3] at this
  have hset : G.dag.arcs = {(1, 0)} := by
    ext ⟨i, j⟩; rw [harc]; simp
  have hord : oe.ord () G.dag.arcs = [(1, 0)] := by
    have := oe.nodup () G.dag.arcs
    have h5 := oe.mem_iff () G.dag.arcs
    rw [hset] at this h5 ⊢
    simp only [Finset.mem_singleton] at h5
    rcases hl : oe.ord () {(1, 0)} with _ | ⟨x, _ | ⟨y, l⟩⟩
    · rw [hl] at h5; simpa using h5 (1, 0)
    · rw [hl] at h5
      have := (h5 x).1 (by simp)
      rw [this]
    · rw [hl] at h5 this
      have hx := (h5 x).1 (by simp)
      have hy := (h5 y).1 (by simp)
      rw [hx, hy] at this
      simp at this
  have hnodes : G.dag.nodes = {0, 1} := by
    ext v
    rw [h2.listed.range]
    constructor
    · rintro ⟨a, rfl⟩; rw [h3]; fin_cases a <;> simp
    · intro hv
      simp only [Finset.mem_insert, Finset.mem_singleton] at hv
      rcases hv with rfl | rfl
      · exact ⟨1, by rw [h3]; rfl⟩
      · exact ⟨0, by rw [h3]; rfl⟩
  have hlen : (on.ord () G.dag.nodes).length = 2 := by
    rw [← List.toFinset_card_of_nodup (on.nodup () _), show (on.ord () G.dag.nodes).toFinset = {0, 1} by
      ext v; rw [List.mem_toFinset, on.mem_iff, hnodes]]
    rfl
  set names : Fin 2 → ℕ := fun a => (on.ord () G.dag.nodes).get (a.cast hlen.symm) with hnm
  have hinj : Function.Injective names := by
    intro a b hab
    have := List.nodup_iff_injective_get.1 (on.nodup () G.dag.nodes) hab
    exact Fin.ext (by simpa using congrArg Fin.val this)
  have hsurj : ∀ x, x ∈ G.dag.nodes → ∃ a, names a = x := by
    intro x hx
    obtain ⟨i, hi⟩ := List.mem_iff_get.1 ((on.mem_iff () _ _).2 hx)
    exact ⟨i.cast hlen, hi⟩
  obtain ⟨H, g1, g2, g3, -, -, -, -, g8, g9⟩ := Gauss.new_spec oa hinj (arcs := [((1, 0), (0 : ℚ))])
    (by
      intro e he
      simp only [List.mem_singleton] at he
      subst he
      exact ⟨hsurj 1 (by simp [hnodes]), hsurj 0 (by simp [hnodes])⟩) (by simp) G.biases G.variances
  have hW : ∀ c d, H.weight c d = 0 := by
    intro c d
    by_cases hcd : names c = 1 ∧ names d = 0
    · exact g8 c d 0 (by rw [hcd.1, hcd.2]; simp)
    · refine g9 c d fun w hw => hcd ?_
      simp only [List.mem_singleton, Prod.mk.injEq] at hw
      exact hw.1
  refine ⟨G, H, h1, h2, (harc 1 0).2 ⟨rfl, rfl⟩, ?_, ?_⟩
  · have haw : G.arcWeights oe = .ok [((1, 0), (0 : ℚ))] := by
      unfold Gauss.arcWeights
      rw [hord]
      have : G.weight 1 0 = 0 := by rw [h4]; simp
      simp [Gauss.at?, this]
    unfold Gauss.copy
    rw [haw]
    dsimp only
    unfold Gauss.rebuild
    rw [dif_pos hlen]
    rw [show Gauss.new oa (fun a => (on.ord () G.dag.nodes).get (a.cast hlen.symm)) [((1, 0), (0 : ℚ))] G.biases G.variances = (H, none) from g1]
  · ext ⟨i, j⟩
    simp only [Finset.notMem_empty, iff_false]
    intro hij
    obtain ⟨a, rfl⟩ := (g2.range _).1 (g2.views.fst_mem _ _ hij)
    obtain ⟨b, rfl⟩ := (g2.range _).1 (g2.views.snd_mem _ _ hij)
    exact (g2.arcs_iff a b).1 hij (hW a b)

/-! ## C123 -/

/-- C123. `interventional_dag(interventions)` raises nothing; sampling from it is sampling from the given graph with
`sample_interventional_perfect`, where the draws for a node with the intervention `(m, v)` have mean `m` and variance `v`. -/
theorem C123_interventional_dag {G : Gauss n K} (h : G.Plain) {on : SetOrder Unit ℕ} (ha : on.ord () (Finset.range n) = List.range n)
    (oe : SetOrder Unit (ℕ × ℕ)) (oa : SetOrder Bool (ℕ × ℕ)) (iv : ℕ → Option (K × K)) :
    ∃ H, G.interventionalDag on oe oa iv = some (.ok H) ∧ H.Plain ∧
      (∀ j : Fin n, (H.biases j, H.variances j) = (iv j.val).getD (G.biases j, G.variances j)) ∧
      ∀ {M : Type} [AddCommGroup M] [Module K M] (o o' : SetOrder (Option ℕ) ℕ) (op op' : SetOrder ℕ ℕ) (noise : Fin n → M),
        ∃ x, H.sample o op noise = some (.ok x) ∧ G.samplePerfect o' op' (fun v => (iv v).isSome) noise = some (.ok x) := by
  obtain ⟨H, h1, h2, -, -, h5, h6⟩ := h.interventionalDag_spec ha oe oa iv
  refine ⟨H, h1, h2, h6, fun o o' op op' noise => ?_⟩
  obtain ⟨x, g1, g2⟩ := h2.sample_spec o op noise
  obtain ⟨y, k1, k2⟩ := h.samplePerfect_spec o' op' (fun v => (iv v).isSome) noise
  have : x = y := by
    have hw : H.weight = Matrix.of fun i j : Fin n => if (iv j.val).isSome then 0 else G.weight i j := by
      ext i j; exact h5 i j
    exact sem_unique h2.acyclic g2 (hw ▸ k2)
  exact ⟨x, g1, this ▸ k1⟩

/-! ## C124 -/

/-- C124 if every arc points to a larger label: `deterministic_intervention_means(intervention)` is the only solution of the equations
for the means in which the equations of the intervened nodes have been replaced. Missing: other graphs. -/
theorem C124_means_partial {G : Gauss n K} (h : G.Plain) (hlt : ∀ i j, (i, j) ∈ G.dag.arcs → i < j) (op : SetOrder ℕ ℕ)
    (iv : ℕ → Option K) :
    ∃ m, G.doMeans op iv = .ok m ∧
      ∀ z, (∀ j : Fin n, z j = (iv j.val).getD (∑ i, G.weight i j * z i + G.biases j)) ↔ z = m := by
  obtain ⟨m, h1, h2⟩ := h.doMeans_spec (fun _ _ hij => hlt _ _ hij) op iv
  have hA : AcyclicWeights (Matrix.of fun i j : Fin n => if (iv j.val).isSome then 0 else G.weight i j) :=
    acyclicWeights_mono h.acyclic fun i j hij hw => by simp [hw] at hij
  have hiff : ∀ z : Fin n → K, (∀ j : Fin n, z j = (iv j.val).getD (∑ i, G.weight i j * z i + G.biases j)) ↔
      LinearSEM (Matrix.of fun i j : Fin n => if (iv j.val).isSome then 0 else G.weight i j)
        (fun j => (iv j.val).getD (G.biases j)) z := by
    intro z
    refine forall_congr' fun j => ?_
    cases hj : iv j.val <;> simp [hj]
  have hm : ∀ j : Fin n, m j = (iv j.val).getD (∑ i, G.weight i j * m i + G.biases j) := by
    intro j
    rw [h2 j]
    cases iv j.val <;> simp
  refine ⟨m, h1, fun z => ⟨fun hz => sem_unique hA ((hiff z).1 hz) ((hiff m).1 hm), ?_⟩⟩
  rintro rfl
  exact hm

/-- C124. In this case it is the expectation of `sample_interventional_perfect` with the given values. -/
theorem C124_expectation_partial {Ω : Type} [MeasurableSpace Ω] {μ : Measure Ω} [IsProbabilityMeasure μ] {G : Gauss n ℝ} (h : G.Plain)
    (hlt : ∀ i j, (i, j) ∈ G.dag.arcs → i < j) (op : SetOrder ℕ ℕ) (o : SetOrder (Option ℕ) ℕ) (iv : ℕ → Option ℝ) {e : Fin n → Ω → ℝ}
    (he : ∀ k, Integrable (e k) μ) (hb : ∀ k : Fin n, ∫ ω, e k ω ∂μ = (iv k.val).getD (G.biases k)) :
    ∃ m x, G.doMeans op iv = .ok m ∧ G.samplePerfect o op (fun v => (iv v).isSome) e = some (.ok x) ∧
      ∀ j, ∫ ω, x j ω ∂μ = m j := by
  obtain ⟨m, h1, h2⟩ := C124_means_partial h hlt op iv
  obtain ⟨x, h3, h4⟩ := h.samplePerfect_spec o op (fun v => (iv v).isSome) e
  have hA : AcyclicWeights (Matrix.of fun i j : Fin n => if (iv j.val).isSome then 0 else G.weight i j) :=
    acyclicWeights_mono h.acyclic fun i j hij hw => by simp [hw] at hij
  have := Gauss.sem_mean hA he hb h4
  refine ⟨m, x, h1, h3, fun j => congrFun ((h2 fun j => ∫ ω, x j ω ∂μ).1 fun j => ?_) j⟩
  refine (this j).trans ?_
  cases hj : iv j.val <;> simp [hj]

/-- C124 is violated: on the graph 1 → 0 with weight 1, setting node 1 to 1 gives node 0 the mean 1; the function returns 0. -/
theorem C124_violated (oa : SetOrder Bool (ℕ × ℕ)) (op : SetOrder ℕ ℕ) :
    ∃ (G : Gauss 2 ℚ) (m : Fin 2 → ℚ), Gauss.new oa Fin.val [((1, 0), 1)] 0 1 = (G, none) ∧ G.Plain ∧
      G.doMeans op (fun v => if v = 1 then some 1 else none) = .ok m ∧ m 1 = 1 ∧ m 0 = 0 ∧ G.weight 1 0 * m 1 + G.biases 0 = 1 := by
  obtain ⟨G, h1, h2, h3, h4⟩ := GaussCase.back oa 0
  refine ⟨G, ![0, 1], h1, h2, ?_, rfl, rfl, ?_⟩
  · unfold Gauss.doMeans
    rw [h2.doMeansLoop_eq, show List.finRange 2 = [0, 1] from rfl]
    congr 1
    simp only [steps, id, h3, h4, Fin.sum_univ_two]
    funext i
    fin_cases i <;> simp
  · rw [h4, h3]; simp

/-! ## C125 -/

/-- C125 if no node with an intervention has parents: `soft_interventional_dag` replaces the biases and variances of these
nodes. Missing: interventions at nodes with parents. -/
theorem C125_soft_partial {G : Gauss n K} (h : G.Plain) {on : SetOrder Unit ℕ} (ha : on.ord () (Finset.range n) = List.range n)
    (oe : SetOrder Unit (ℕ × ℕ)) (oa : SetOrder Bool (ℕ × ℕ)) (iv : ℕ → Option (K × K × (ℕ → K)))
    (hs : ∀ i j, (i, j) ∈ G.dag.arcs → iv j = none) :
    ∃ H, G.softInterventionalDag on oe oa iv = some (.ok H) ∧ H.Plain ∧ H.weight = G.weight ∧
      ∀ j : Fin n, (H.biases j, H.variances j) = ((iv j.val).map fun t => (t.1, t.2.1)).getD (G.biases j, G.variances j) := by
  obtain ⟨H, h1, h2, -, -, h5, h6⟩ := h.interventionalDag_spec ha oe oa fun v => (iv v).map fun t => (t.1, t.2.1)
  refine ⟨H, ?_, h2, ?_, h6⟩
  · rw [← h1]
    unfold Gauss.softInterventionalDag Gauss.interventionalDag
    rw [h.arcWeights_eq]
    dsimp only
    rw [Gauss.mapM_ok (g := id)]
    · dsimp only
      rw [List.map_id, List.filter_eq_self.2]
      · congr 1 <;> funext v <;> cases iv v <;> rfl
      · intro e he
        obtain ⟨e', he', rfl⟩ := List.mem_map.1 he
        simp [hs e'.1 e'.2 ((oe.mem_iff () _ _).1 he')]
    · intro e he
      obtain ⟨e', he', rfl⟩ := List.mem_map.1 he
      simp only
      rw [hs e'.1 e'.2 ((oe.mem_iff () _ _).1 he')]
      rfl
  · ext i j
    rw [h5]
    split_ifs with hj
    · by_contra hc
      have := hs _ _ ((h.arcs i j).2 (Ne.symm hc))
      simp [this] at hj
    · rfl

/-- C125 is violated: on the graph 0 → 1 with weight 5, the soft intervention at 1 with bias 0, variance 1 and weight 7 for node 0
gives a graph where this arc is missing. -/
theorem C125_violated (on : SetOrder Unit ℕ) (oe : SetOrder Unit (ℕ × ℕ)) (oa : SetOrder Bool (ℕ × ℕ)) :
    ∃ G H : Gauss 2 ℝ, Gauss.fromAmat oa Fin.val !![0, 5; 0, 0] 0 1 = (G, none) ∧ G.Plain ∧
      G.softInterventionalDag on oe oa (fun v => if v = 1 then some (0, 1, fun _ => 7) else none) = some (.ok H) ∧
      (0, 1) ∉ H.dag.arcs := by
  obtain ⟨G, h1, h2, h3, h4, h5, -⟩ := plain_of_amat (n := 2) oa (A := !![0, 5; 0, 0])
    (acyclicWeights_of_rank ![0, 1] fun i j => by fin_cases i <;> fin_cases j <;> simp) 0 1
  have harc : ∀ e ∈ G.dag.arcs, e = (0, 1) := by
    rintro ⟨i, j⟩ hij
    obtain ⟨hi, hj⟩ := h2.arc_lt hij
    have := (h2.arcs ⟨i, hi⟩ ⟨j, hj⟩).1 hij
    rw [h3] at this
    interval_cases i <;> interval_cases j <;> simp_all
  obtain ⟨b, v, k1, k2⟩ := h2.rebuildWith_eq on oa ((oe.ord () G.dag.arcs).map fun e => (e, (0 : ℝ)))
    (fun v => (if v = 1 then some ((0 : ℝ), (1 : ℝ), fun _ : ℕ => (7 : ℝ)) else none).map Prod.fst)
    (fun v => (if v = 1 then some ((0 : ℝ), (1 : ℝ), fun _ : ℕ => (7 : ℝ)) else none).map fun t => t.2.1)
  obtain ⟨H, g1, g2, -, -, -, -, -, g8, g9⟩ := h2.rebuild_spec on oa (arcs := (oe.ord () G.dag.arcs).map fun e => (e, (0 : ℝ)))
    (by
      intro e he
      obtain ⟨e', he', rfl⟩ := List.mem_map.1 he
      exact (oe.mem_iff () _ _).1 he') (by rw [List.map_map]; simpa [Function.comp_def] using oe.nodup () _) b v
  refine ⟨G, H, h1, h2, ?_, fun hm => ?_⟩
  · unfold Gauss.softInterventionalDag
    rw [h2.arcWeights_eq]
    dsimp only
    rw [Gauss.mapM_ok (g := fun e => (e.1, (0 : ℝ)))]
    · dsimp only
      rw [List.map_map]
      exact k1.trans g1
    · intro e he
      obtain ⟨e', he', rfl⟩ := List.mem_map.1 he
      rw [harc e' ((oe.mem_iff () _ _).1 he')]
      simp [Gauss.tripleAt, Except.map]
  · obtain ⟨a, ha⟩ := (g2.listed.range _).1 (g2.listed.valid.fst_mem _ _ hm)
    obtain ⟨c, hc⟩ := (g2.listed.range _).1 (g2.listed.valid.snd_mem _ _ hm)
    rw [← ha, ← hc] at hm
    refine (g2.arcs_iff a c).1 hm ?_
    by_cases hw : ∃ w, ((H.names a, H.names c), w) ∈ (oe.ord () G.dag.arcs).map fun e => (e, (0 : ℝ))
    · obtain ⟨w, hw⟩ := hw
      rw [g8 a c w hw]
      obtain ⟨e', -, he'⟩ := List.mem_map.1 hw
      exact (congrArg Prod.snd he').symm
    · exact g9 a c fun w hw' => hw ⟨w, hw'⟩

/-! ## C126 -/

/-- C126 for the empty set of interventions: `interventional_covariance(set())` is the covariance matrix of `sample`. Missing: all
other sets. -/
theorem C126_empty_partial {Ω : Type} [MeasurableSpace Ω] {μ : Measure Ω} [IsProbabilityMeasure μ] {G : Gauss n ℝ} (h : G.Plain)
    {on : SetOrder Unit ℕ} (ha : on.ord () (Finset.range n) = List.range n) (o : SetOrder (Option ℕ) ℕ) (op : SetOrder ℕ ℕ)
    {e : Fin n → Ω → ℝ} (he : ∀ k, MemLp (e k) 2 μ) (hv : ∀ k l, cov[e k, e l; μ] = if k = l then G.variances k else 0) :
    ∃ C x, G.interventionalCovariance on ∅ = .ok C ∧ G.sample o op e = some (.ok x) ∧ ∀ i j, cov[x i, x j; μ] = C i j := by
  obtain ⟨x, h1, h2⟩ := h.sample_spec o op e
  have hdet : (1 - G.weight).det ≠ 0 := det_ne_zero h.acyclic
  refine ⟨_, x, ?_, h1, fun i j => Gauss.sem_covariance h.acyclic he hv h2 i j⟩
  unfold Gauss.interventionalCovariance
  rw [h.nodes_eq, ha]
  simp only [Finset.notMem_empty, not_false_eq_true, decide_true, List.filter_true]
  have hmap : (List.range n).mapM (Gauss.at? n) = some (List.finRange n) := by
    rw [← List.map_coe_finRange_eq_range, List.mapM_map]
    exact (Gauss.mapM_some (g := id) fun a _ => Gauss.at?_val a).trans (by rw [List.map_id])
  rw [hmap]
  dsimp only
  rw [dif_pos List.length_finRange]
  have hsub : G.weight.submatrix (fun a : Fin n => (List.finRange n).get (a.cast List.length_finRange.symm))
      (fun a => (List.finRange n).get (a.cast List.length_finRange.symm)) = G.weight := by
    ext a b; simp
  rw [hsub]
  dsimp only
  unfold Gauss.invOrRaise
  rw [if_neg hdet]
  dsimp only
  split_ifs with h1
  · have : G.variances = 1 := funext h1
    rw [this]
    simp
  · rfl

/-- C126 fails for all other sets that leave at least two nodes: `ValueError`. -/
theorem C126_raises {G : Gauss n K} (h : G.Plain) (on : SetOrder Unit ℕ) {S : Finset ℕ} (hS : S ⊆ G.dag.nodes) (h0 : S.Nonempty)
    (h2 : S.card + 2 ≤ n) : G.interventionalCovariance on S = .error .value := by
  have hlen : ((on.ord () G.dag.nodes).filter fun v => v ∉ S).length = n - S.card := by
    rw [← List.toFinset_card_of_nodup ((on.nodup () _).filter _)]
    have : ((on.ord () G.dag.nodes).filter fun v => v ∉ S).toFinset = G.dag.nodes \ S := by
      ext v; simp [on.mem_iff]
    rw [this, Finset.card_sdiff_of_subset hS, h.nodes_eq, Finset.card_range]
  have hpos := h0.card_pos
  unfold Gauss.interventionalCovariance
  have hmap : ((on.ord () G.dag.nodes).filter fun v => v ∉ S).mapM (Gauss.at? n) =
      some (((on.ord () G.dag.nodes).filter fun v => v ∉ S).map fun v => if hv : v < n then ⟨v, hv⟩ else ⟨0, by omega⟩) := by
    refine Gauss.mapM_some fun v hv => ?_
    have := (h.nodes v).1 ((on.mem_iff () _ _).1 (List.mem_of_mem_filter hv))
    simp [Gauss.at?, this]
  simp only
  rw [hmap]
  dsimp only
  rw [dif_neg (by rw [List.length_map, hlen]; omega), dif_neg (by rw [List.length_map, hlen]; omega)]

/-- C126 is violated: three nodes, no arcs, an intervention at node 0. -/
theorem C126_violated (oa : SetOrder Bool (ℕ × ℕ)) (on : SetOrder Unit ℕ) :
    ∃ G : Gauss 3 ℝ, Gauss.fromAmat oa Fin.val 0 0 1 = (G, none) ∧ G.Plain ∧ G.interventionalCovariance on {0} = .error .value := by
  obtain ⟨G, h1, h2, -⟩ := plain_of_amat (n := 3) oa (A := 0) (acyclicWeights_of_rank (fun _ => 0) (by simp)) 0 1
  exact ⟨G, h1, h2, C126_raises h2 on (by rw [h2.nodes_eq]; simp) (by simp) (by simp)⟩

/-! ## Concrete cases of the hypotheses -/

namespace GaussCase

/-- Ascending iteration. -/
def ascending : SetOrder Unit ℕ where
  ord _ s := s.sort (· ≤ ·)
  nodup _ _ := Finset.sort_nodup _ _
  mem_iff _ _ _ := Finset.mem_sort _

theorem ascending_range (n : ℕ) : ascending.ord () (Finset.range n) = List.range n := by
  change (Finset.range n).sort (· ≤ ·) = _
  refine List.Perm.eq_of_pairwise (le := (· ≤ ·)) ?_ (Finset.pairwise_sort _ _) ?_ ?_
  · intro a b _ _ h1 h2; exact le_antisymm h1 h2
  · exact List.pairwise_le_range
  · exact (List.perm_ext_iff_of_nodup (Finset.sort_nodup _ _) List.nodup_range).2 fun a => by simp

/-- The collider 0 → 2 ← 1 with an intervention at node 2 and another at node 0. -/
example (oe : SetOrder Unit (ℕ × ℕ)) (oa : SetOrder Bool (ℕ × ℕ)) : ∃ G C H : Gauss 3 ℝ, G.weight 0 2 = 2 ∧
    G.copy ascending oe oa = some (.ok C) ∧ C.weight 0 2 = 2 ∧ C.biases 1 = 8 ∧
    G.interventionalDag ascending oe oa (fun v => if v = 2 then some (6, 1) else none) = some (.ok H) ∧ H.biases 2 = 6 ∧ H.biases 1 = 8 := by
  obtain ⟨G, h1, h2, h3, h4, h5⟩ := collider oa ![7, 8, 9]
  obtain ⟨C, g1, -, -, -, g2, g3, -⟩ := C122_copy_partial h1 (ascending_range 3) oe oa
  obtain ⟨H, k1, -, k2, -⟩ := C123_interventional_dag h1 (ascending_range 3) oe oa (fun v => if v = 2 then some (6, 1) else none)
  refine ⟨G, C, H, by simp [h2], g1, by simp [g2, h2], by simp [g3, h3], k1, ?_, ?_⟩
  · exact congrArg Prod.fst (k2 2)
  · exact (congrArg Prod.fst (k2 1)).trans (by simp [h3])

/-- Means of the collider after setting node 0 to 10: 10, 8 and 2 · 10 + 3 · 8 + 9. -/
example (oa : SetOrder Bool (ℕ × ℕ)) (op : SetOrder ℕ ℕ) : ∃ G : Gauss 3 ℝ, G.weight 0 2 = 2 ∧
    G.doMeans op (fun v => if v = 0 then some 10 else none) = .ok ![10, 8, 53] := by
  obtain ⟨G, h1, h2, h3, h4, h5⟩ := collider oa ![7, 8, 9]
  obtain ⟨m, g1, g2⟩ := C124_means_partial h1 (fun i j hij => by
    obtain ⟨hi, hj⟩ := h1.arc_lt hij
    have := (h1.arcs ⟨i, hi⟩ ⟨j, hj⟩).1 hij
    rw [h2] at this
    interval_cases i <;> interval_cases j <;> simp_all) op (fun v => if v = 0 then some 10 else none)
  refine ⟨G, by simp [h2], ?_⟩
  rw [g1, (g2 ![10, 8, 53]).1 fun j => ?_]
  rw [h2, h3]
  fin_cases j <;> simp [Fin.sum_univ_three]
  norm_num

/-- A soft intervention at node 0 of the collider, which has no parents. -/
example (oe : SetOrder Unit (ℕ × ℕ)) (oa : SetOrder Bool (ℕ × ℕ)) : ∃ G H : Gauss 3 ℝ, G.weight 0 2 = 2 ∧
    G.softInterventionalDag ascending oe oa (fun v => if v = 0 then some (6, 1, fun _ => 0) else none) = some (.ok H) ∧
    H.weight 0 2 = 2 ∧ H.biases 0 = 6 := by
  obtain ⟨G, h1, h2, h3, h4, h5⟩ := collider oa ![7, 8, 9]
  obtain ⟨H, k1, -, k2, k3⟩ := C125_soft_partial h1 (ascending_range 3) oe oa (fun v => if v = 0 then some (6, 1, fun _ => 0) else none)
    (fun i j hij => by
      obtain ⟨hi, hj⟩ := h1.arc_lt hij
      have := (h1.arcs ⟨i, hi⟩ ⟨j, hj⟩).1 hij
      rw [h2] at this
      interval_cases i <;> interval_cases j <;> simp_all)
  exact ⟨G, H, by simp [h2], k1, by simp [k2, h2], congrArg Prod.fst (k3 0)⟩

end GaussCase

end Props
