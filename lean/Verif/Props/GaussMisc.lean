import Verif.Proof.GaussMisc
import Verif.Props.GaussFactor
import Verif.Props.GaussMore
import Verif.Props.GaussPdf

/-! # `GaussDAG`: prediction, normalisation, rounding, nodes, Cholesky factors (properties C185–C190) -/

namespace Props

set_option linter.unusedSectionVars false
open Model Spec MeasureTheory ProbabilityTheory

variable {n : ℕ} {K : Type} [Field K] [DecidableEq K]

/-! ## C185 -/

/-- C185. For every node list: `predict_from_parents(node, values)`, with the values of the parents in the order of
`parents_of(node)`, returns the right-hand side of the structural equation of the node. -/
theorem C185_predict {G : Gauss n K} (h : G.Sound) (op : SetOrder ℕ ℕ) (a : Fin n) :
    ∃ ps : List (Fin n), ps.map G.names = op.ord (G.names a) (G.dag.parents (G.names a)) ∧
      (∀ x : Fin n → K, G.predictFromParents op (G.names a) (ps.map x) = .ok (∑ p, G.weight p a * x p + G.biases a)) ∧
      ∀ vals : List K, vals.length ≠ ps.length → G.predictFromParents op (G.names a) vals = .error .value := by
  obtain ⟨ps, h1, -, -, h4, h5⟩ := Gauss.predict_spec h op a
  exact ⟨ps, h1, h4, h5⟩

/-- C185. Unknown nodes raise a `KeyError`. -/
theorem C185_unknown {G : Gauss n K} (h : G.Sound) (op : SetOrder ℕ ℕ) {v : ℕ} (hv : v ∉ G.dag.nodes) (vals : List K) :
    G.predictFromParents op v vals = .error .key :=
  Gauss.predict_unknown op (fun a ha => hv ((h.listed.range v).2 ⟨a, ha⟩)) vals

/-- C185. It is the conditional expectation of the node given its parents, for samples from `sample()`. -/
theorem C185_conditional_mean {Ω : Type} [MeasurableSpace Ω] {μ : Measure Ω} [IsProbabilityMeasure μ] {G : Gauss n ℝ} (h : G.Plain)
    (o : SetOrder (Option ℕ) ℕ) (op op' : SetOrder ℕ ℕ) {e : Fin n → Ω → ℝ} (hm : ∀ k, Measurable (e k))
    (hi : ∀ k, Integrable (e k) μ) (hind : iIndepFun e μ) (hb : ∀ k, ∫ ω, e k ω ∂μ = G.biases k) (a : Fin n) :
    ∃ (x : Fin n → Ω → ℝ) (ps : List (Fin n)) (y : Ω → ℝ), G.sample o op' e = some (.ok x) ∧
      ps.map Fin.val = op.ord a.val (G.dag.parents a.val) ∧
      (∀ ω, G.predictFromParents op a.val (ps.map fun p => x p ω) = .ok (y ω)) ∧
      μ[x a | MeasurableSpace.comap (parentValues G.weight x a) inferInstance] =ᵐ[μ] y := by
  obtain ⟨x, h1, h2⟩ := h.sample_spec o op' e
  obtain ⟨ps, h3, -, -, h4, -⟩ := Gauss.predict_spec h.toSound op a
  have hn : G.names = Fin.val := funext h.names
  rw [hn] at h3 h4
  refine ⟨x, ps, _, h1, h3, fun ω => h4 fun p => x p ω, ?_⟩
  rw [← hb a]
  exact Gauss.condExp_parents h.acyclic hm hi hind h2 a

/-- Normal noise. -/
example (oa : SetOrder Bool (ℕ × ℕ)) (o : SetOrder (Option ℕ) ℕ) (op : SetOrder ℕ ℕ) :
    ∃ (G : Gauss 3 ℝ) (μ : Measure (Fin 3 → ℝ)) (e x : Fin 3 → (Fin 3 → ℝ) → ℝ) (y : (Fin 3 → ℝ) → ℝ), G.weight 1 2 = 3 ∧
      G.sample o op e = some (.ok x) ∧ μ[x 2 | MeasurableSpace.comap (parentValues G.weight x 2) inferInstance] =ᵐ[μ] y := by
  obtain ⟨G, h2, h3, h4, -⟩ := GaussCase.chain oa
  have he := normalNoise_exists G.biases G.variances
  obtain ⟨x, ps, y, h5, -, -, h6⟩ := C185_conditional_mean h2 o op op he.meas
    (fun k => (he.gaussian k).memLp_two.integrable (by norm_num)) he.indep he.mean 2
  exact ⟨G, _, _, x, y, by rw [h3]; simp, h5, h6⟩

/-- The arc 1 → 0 on the node list `[1, 0]` (C78). -/
example (oa : SetOrder Bool (ℕ × ℕ)) (op : SetOrder ℕ ℕ) (y : ℚ) : ∃ G : Gauss 2 ℚ, Gauss.new oa ![1, 0] [((1, 0), 1)] 0 1 = (G, none) ∧
    ∃ l, G.predictFromParents op 0 l = .ok (y + G.biases 1) := by
  obtain ⟨G, h1, h2, h3, h4⟩ := GaussCase.swapped oa
  obtain ⟨ps, p1, p2, -⟩ := C185_predict h2 op 1
  rw [h3] at p1 p2
  refine ⟨G, h1, ps.map fun _ => y, ?_⟩
  have := p2 fun _ => y
  rw [Fin.sum_univ_two, h4, h4] at this
  simpa using this

/-! ## C186 -/

/-- C186 (partial: only for graphs without arcs). `normalize_weights()` returns a graph with the same arcs and correlation matrix and
with unit variances. -/
theorem C186_normalize_partial {G : Gauss n ℝ} (h : G.Plain) (hv : ∀ i, 0 < G.variances i) (hc : G.CurrentR)
    (hw : G.weight = 0) (oa : SetOrder Bool (ℕ × ℕ)) :
    ∃ R G1 S R1 C C' R2 G2, G.normalizeWeights oa = .ok (R, G1) ∧ R.Plain ∧ R.dag.arcs = G.dag.arcs ∧
      R.readCovariance = .ok (S, R1) ∧ (∀ i, S i i = 1) ∧ R.readCorrelation = .ok (C, R2) ∧ G.readCorrelation = .ok (C', G2) ∧
      ∀ i j, C i j = C' i j := by
  have h0 : AcyclicWeights (0 : Matrix (Fin n) (Fin n) ℝ) := acyclicWeights_of_rank (fun _ => 0) (by simp)
  obtain ⟨G1, g1, g2⟩ := hc.toCurrent.readCovariance h.acyclic
  obtain ⟨R, r1, r2, r3, r4, r5, r6⟩ := plain_of_amat oa h0 0 1
  obtain ⟨R1, s1, -⟩ := r6.toCurrent.readCovariance (r3 ▸ h0)
  obtain ⟨C, R2, c1, c2, -⟩ := r6.readCorrelation (r3 ▸ h0)
  obtain ⟨C', G2, d1, d2, -⟩ := hc.readCorrelation h.acyclic
  have hS : ∀ v : Fin n → ℝ, semCov (0 : Matrix (Fin n) (Fin n) ℝ) v = Matrix.diagonal v := fun v => by
    unfold semCov; simp
  refine ⟨R, G1, _, R1, C, C', R2, G2, ?_, r2, arcs_of_weight r2 h (by rw [r3, hw]), s1, fun i => ?_, c1, d1, fun i j => ?_⟩
  · unfold Gauss.normalizeWeights
    rw [g1]
    dsimp only
    rw [if_neg, r1]
    rintro ⟨i, j, -, hij⟩
    rw [g2] at hij
    exact hij (by rw [hw]; rfl)
  · rw [r3, hS, r5]; simp
  · rw [c2, d2, r3, r5, hw, hS, hS]
    by_cases hij : i = j
    · subst hij
      simp only [Matrix.diagonal_apply_eq, Pi.one_apply]
      rw [Real.mul_self_sqrt (hv i).le, div_self (hv i).ne', Real.sqrt_one, mul_one, div_self one_ne_zero]
    · rw [Matrix.diagonal_apply_ne _ hij, Matrix.diagonal_apply_ne _ hij, zero_div, zero_div]

/-- C186: whenever some arc points to a larger label, `normalize_weights()` raises a `NameError`. -/
theorem C186_raises {G : Gauss n ℝ} (h : G.Plain) (hc : G.Current) (oa : SetOrder Bool (ℕ × ℕ)) {i j : ℕ} (hij : i < j)
    (ha : (i, j) ∈ G.dag.arcs) : G.normalizeWeights oa = .error .plain := by
  obtain ⟨G1, g1, g2⟩ := hc.readCovariance h.acyclic
  have hi := (h.nodes i).1 (h.valid.fst_mem _ _ ha)
  have hj := (h.nodes j).1 (h.valid.snd_mem _ _ ha)
  have hw : G1.weight ⟨i, hi⟩ ⟨j, hj⟩ ≠ 0 := by
    rw [g2]; exact (h.arcs ⟨i, hi⟩ ⟨j, hj⟩).1 ha
  unfold Gauss.normalizeWeights
  rw [g1]
  dsimp only
  rw [if_pos ⟨⟨i, hi⟩, ⟨j, hj⟩, hij, hw⟩]

/-- C186: if all arcs point to smaller labels, `normalize_weights()` returns a graph without arcs. -/
theorem C186_forgets {G : Gauss n ℝ} (h : G.Plain) (hc : G.Current) (oa : SetOrder Bool (ℕ × ℕ))
    (ha : ∀ i j, (i, j) ∈ G.dag.arcs → j < i) : ∃ R G1, G.normalizeWeights oa = .ok (R, G1) ∧ R.dag.arcs = ∅ := by
  have h0 : AcyclicWeights (0 : Matrix (Fin n) (Fin n) ℝ) := acyclicWeights_of_rank (fun _ => 0) (by simp)
  obtain ⟨G1, g1, g2⟩ := hc.readCovariance h.acyclic
  obtain ⟨R, r1, r2, r3, -⟩ := plain_of_amat oa h0 0 1
  refine ⟨R, G1, ?_, ?_⟩
  · unfold Gauss.normalizeWeights
    rw [g1]
    dsimp only
    rw [if_neg, r1]
    rintro ⟨i, j, hij, hw⟩
    rw [g2] at hw
    exact absurd (ha _ _ ((h.arcs i j).2 hw)) (not_lt.2 hij.le)
  · rw [Finset.eq_empty_iff_forall_notMem]
    rintro ⟨x, y⟩ hxy
    have := (r2.arcs ⟨x, (r2.nodes x).1 (r2.valid.fst_mem _ _ hxy)⟩ ⟨y, (r2.nodes y).1 (r2.valid.snd_mem _ _ hxy)⟩).1 hxy
    rw [r3] at this
    exact this rfl

/-- One arc of weight 2, in one direction or the other. -/
theorem oneArc (oa : SetOrder Bool (ℕ × ℕ)) (b v : Fin 2 → ℝ) :
    (∃ G : Gauss 2 ℝ, Gauss.fromAmat oa Fin.val !![0, 2; 0, 0] b v = (G, none) ∧ G.Plain ∧ G.CurrentR ∧ G.dag.arcs = {(0, 1)} ∧
      G.weight = !![0, 2; 0, 0] ∧ G.biases = b ∧ G.variances = v) ∧
    ∃ G : Gauss 2 ℝ, Gauss.fromAmat oa Fin.val !![0, 0; 2, 0] b v = (G, none) ∧ G.Plain ∧ G.CurrentR ∧ G.dag.arcs = {(1, 0)} := by
  have key : ∀ {A : Matrix (Fin 2) (Fin 2) ℝ} {G : Gauss 2 ℝ} {u w : Fin 2}, G.Plain → G.weight = A →
      (∀ i j, A i j ≠ 0 ↔ i = u ∧ j = w) → G.dag.arcs = {(u.val, w.val)} := by
    intro A G u w hG hw hA
    ext ⟨x, y⟩
    rw [Finset.mem_singleton]
    constructor
    · intro hxy
      have := (hG.arcs ⟨x, (hG.nodes x).1 (hG.valid.fst_mem _ _ hxy)⟩ ⟨y, (hG.nodes y).1 (hG.valid.snd_mem _ _ hxy)⟩).1 hxy
      rw [hw, hA] at this
      rw [← this.1, ← this.2]
    · intro hxy
      rw [hxy]
      exact (hG.arcs u w).2 (by rw [hw, hA]; exact ⟨rfl, rfl⟩)
  constructor
  · obtain ⟨G, h1, h2, h3, h4, h5, h6⟩ := plain_of_amat oa (A := !![0, 2; 0, 0])
      (acyclicWeights_of_rank ![0, 1] fun i j => by fin_cases i <;> fin_cases j <;> simp) b v
    exact ⟨G, h1, h2, h6, key (u := 0) (w := 1) h2 h3 fun i j => by fin_cases i <;> fin_cases j <;> simp, h3, h4, h5⟩
  · obtain ⟨G, h1, h2, h3, h4, h5, h6⟩ := plain_of_amat oa (A := !![0, 0; 2, 0])
      (acyclicWeights_of_rank ![1, 0] fun i j => by fin_cases i <;> fin_cases j <;> simp) b v
    exact ⟨G, h1, h2, h6, key (u := 1) (w := 0) h2 h3 fun i j => by fin_cases i <;> fin_cases j <;> simp⟩

/-- C186 is violated: for the arc 0 → 1 a `NameError` is raised; for the arc 1 → 0 the arc is lost. -/
theorem C186_violated (oa : SetOrder Bool (ℕ × ℕ)) :
    (∃ G : Gauss 2 ℝ, Gauss.fromAmat oa Fin.val !![0, 2; 0, 0] 0 1 = (G, none) ∧ G.normalizeWeights oa = .error .plain) ∧
    ∃ G R G1 : Gauss 2 ℝ, Gauss.fromAmat oa Fin.val !![0, 0; 2, 0] 0 1 = (G, none) ∧ G.dag.arcs = {(1, 0)} ∧
      G.normalizeWeights oa = .ok (R, G1) ∧ R.dag.arcs = ∅ := by
  obtain ⟨⟨G, h1, h2, h3, h4, -⟩, G', g1, g2, g3, g4⟩ := oneArc oa 0 1
  refine ⟨⟨G, h1, C186_raises h2 h3.toCurrent oa (i := 0) (j := 1) (by omega) (by rw [h4]; simp)⟩, ?_⟩
  obtain ⟨R, G1, r1, r2⟩ := C186_forgets g2 g3.toCurrent oa fun i j hij => by
    rw [g4, Finset.mem_singleton, Prod.mk.injEq] at hij
    omega
  exact ⟨G', R, G1, g1, g4, r1, r2⟩

/-! ## C187 -/

/-- C187 (partial: the node list, the biases and the variances are not kept). `round_weights(decimals)` raises nothing; every weight is
a multiple of `10 ** -decimals` at distance at most half of that from the old one, an even multiple if the distance is exactly half;
no arcs are added, and the result is acyclic. -/
theorem C187_round_partial {G : Gauss n ℝ} (h : G.Plain) (oa : SetOrder Bool (ℕ × ℕ)) (d : ℕ) :
    ∃ R : Gauss n ℝ, G.roundWeights oa d = (R, none) ∧ R.Plain ∧ R.dag.arcs ⊆ G.dag.arcs ∧
      ∀ i j, |R.weight i j - G.weight i j| ≤ 1 / 2 / 10 ^ d ∧ ∃ k : ℤ, R.weight i j = k / 10 ^ d ∧
        (|R.weight i j - G.weight i j| = 1 / 2 / 10 ^ d → Even k) := by
  have hA : AcyclicWeights (Matrix.of fun i j => Gauss.around d (G.weight i j)) := by
    refine acyclic_mono (fun i j hij => ?_) h.acyclic
    intro h0
    apply hij
    rw [Matrix.of_apply, h0, Gauss.around_zero]
  obtain ⟨R, r1, r2, r3, -⟩ := plain_of_amat oa hA 0 1
  refine ⟨R, r1, r2, ?_, fun i j => ?_⟩
  · rintro ⟨x, y⟩ hxy
    have hx := (r2.nodes x).1 (r2.valid.fst_mem _ _ hxy)
    have hy := (r2.nodes y).1 (r2.valid.snd_mem _ _ hxy)
    have := (r2.arcs ⟨x, hx⟩ ⟨y, hy⟩).1 hxy
    rw [r3, Matrix.of_apply] at this
    refine (h.arcs ⟨x, hx⟩ ⟨y, hy⟩).2 fun h0 => this ?_
    rw [h0, Gauss.around_zero]
  · rw [r3, Matrix.of_apply]
    exact ⟨Gauss.around_close d _, _, rfl, Gauss.around_tie⟩

/-- C187 is violated: biases and variances are reset to 0 and 1. -/
theorem C187_violated (oa : SetOrder Bool (ℕ × ℕ)) (d : ℕ) :
    ∃ G R : Gauss 2 ℝ, Gauss.fromAmat oa Fin.val !![0, 2; 0, 0] ![5, 5] ![4, 4] = (G, none) ∧ G.Plain ∧ G.roundWeights oa d = (R, none) ∧
      G.variances 0 = 4 ∧ R.variances 0 = 1 ∧ G.biases 0 = 5 ∧ R.biases 0 = 0 := by
  obtain ⟨⟨G, h1, h2, -, -, -, h3, h4⟩, -⟩ := oneArc oa ![5, 5] ![4, 4]
  obtain ⟨R, r1, -, -, -, r5, r6, -⟩ := Gauss.fromAmat_spec oa (Matrix.of fun i j => Gauss.around d (G.weight i j)) 0 1
  refine ⟨G, R, h1, h2, r1, ?_, ?_, ?_, ?_⟩ <;> simp [h3, h4, r5, r6]

/-! ## C188 -/

/-- C188 (partial: the first removal from the node list `0, …, n-1`; what it leaves undone is in `C188_stale`). `remove_node(v)` raises
nothing, removes the node and its arcs from the graph and from the node list, and the weight matrix is that of the remaining nodes. -/
theorem C188_remove_node_partial {G : Gauss n K} (h : G.Plain) (hd : G.dag.Valid) (o : SetOrder Bool ℕ) (v : Fin n) :
    ∃ R, G.toRaw.removeNode o v.val = (R, none) ∧ R.dag.Valid ∧ R.dag.nodes = G.dag.nodes.erase v.val ∧
      (∀ i j, (i, j) ∈ R.dag.arcs ↔ (i, j) ∈ G.dag.arcs ∧ i ≠ v.val ∧ j ≠ v.val) ∧
      R.names = (List.range n).filter (· ≠ v.val) ∧ R.size = n - 1 ∧
      ∀ (i j : ℕ) (a b : Fin n), R.names[i]? = some a.val → R.names[j]? = some b.val → R.weight i j = some (G.weight a b) := by
  obtain ⟨d, -, h2, h3, h4, h5⟩ := Gauss.removeNode_raw h hd o v
  refine ⟨_, h5, h4, h2, h3, ?_, rfl, fun i j a b hi hj => ?_⟩
  · dsimp only
    have h1 := List.Nodup.erase_getElem (l := List.range n) List.nodup_range v.val (by simp)
    rw [List.getElem_range] at h1
    rw [← h1, List.Nodup.erase_eq_filter List.nodup_range]
    exact List.filter_congr fun x _ => by rw [Bool.eq_iff_iff]; simp
  · dsimp only at hi hj ⊢
    rw [List.getD_eq_getElem?_getD, List.getD_eq_getElem?_getD, hi, hj]
    simp [Gauss.toRaw]

/-- C188: `remove_node` never updates the variances, the biases and the index of the nodes. -/
theorem C188_stale (G : Gauss.Raw K) (o : SetOrder Bool ℕ) (v : ℕ) :
    (G.removeNode o v).1.variances = G.variances ∧ (G.removeNode o v).1.biases = G.biases ∧
      (G.removeNode o v).1.node2ix = G.node2ix := by
  unfold Gauss.Raw.removeNode
  split
  · exact ⟨rfl, rfl, rfl⟩
  · dsimp only
    split_ifs <;> exact ⟨rfl, rfl, rfl⟩

/-- A graph with three nodes and the arc 0 → 2. -/
def threeNodes : Gauss 3 ℚ where
  dag := DAG.addArcUnchecked (DAG.empty {0, 1, 2}) 0 2
  names := Fin.val
  weight := !![0, 0, 2; 0, 0, 0; 0, 0, 0]
  variances := ![1, 2, 3]
  biases := 0
  precision := none
  covariance := none
  correlation := none

theorem threeNodes_arcs (i j : ℕ) : (i, j) ∈ threeNodes.dag.arcs ↔ i = 0 ∧ j = 2 := by
  have : threeNodes.dag.arcs = {(0, 2)} := by decide
  rw [this]; simp

theorem threeNodes_valid : threeNodes.dag.Valid := by
  refine ⟨DAG.addArcUnchecked_consistent (DAG.empty_consistent _) 0 2, acyclic_of_rank id fun i j hij => ?_⟩
  obtain ⟨rfl, rfl⟩ := (threeNodes_arcs i j).1 hij
  decide

theorem threeNodes_plain : threeNodes.Plain := by
  have hv := threeNodes_valid
  refine ⟨⟨⟨⟨hv.parents_iff, hv.children_iff, hv.fst_mem, hv.snd_mem, hv.acyclic⟩, Fin.val_injective, fun v => ?_⟩, fun a b => ?_⟩, fun _ => rfl⟩
  · have : threeNodes.dag.nodes = {0, 1, 2} := by decide
    rw [this]
    simp only [Finset.mem_insert, Finset.mem_singleton]
    constructor
    · rintro (rfl | rfl | rfl)
      exacts [⟨0, rfl⟩, ⟨1, rfl⟩, ⟨2, rfl⟩]
    · rintro ⟨a, rfl⟩
      change a.val = 0 ∨ a.val = 1 ∨ a.val = 2
      omega
  · change (a.val, b.val) ∈ _ ↔ _
    rw [threeNodes_arcs]
    fin_cases a <;> fin_cases b <;> simp [threeNodes]

example : ∃ R, threeNodes.toRaw.removeNode Sample.order 0 = (R, none) ∧ R.names = [1, 2] ∧ R.size = 2 := by
  obtain ⟨R, h1, -, -, -, h2, h3, -⟩ := C188_remove_node_partial threeNodes_plain threeNodes_valid Sample.order 0
  exact ⟨R, h1, h2, h3⟩

/-- C188 is violated. After `remove_node(0)` on a graph with the nodes 0, 1, 2 there are still three variances, and a further
`remove_node(1)` raises nothing, but the node list is then `[1]` while the graph has the node 2. On the node list `[5, 6]`
`remove_node(5)` raises an `IndexError` after it has shortened the node list. -/
theorem C188_violated (o : SetOrder Bool ℕ) :
    (∃ R R', threeNodes.toRaw.removeNode o 0 = (R, none) ∧ R.variances.length = 3 ∧ R.removeNode o 1 = (R', none) ∧
      R'.names = [1] ∧ R'.dag.nodes = {2}) ∧
    ∃ (G : Gauss 2 ℚ) (R : Gauss.Raw ℚ), G.Sound ∧ G.dag.Valid ∧ G.toRaw.removeNode o 5 = (R, some .index) ∧ R.names = [6] ∧
      R.dag.nodes = {5, 6} := by
  constructor
  · obtain ⟨d, -, h2, -, h4, h5⟩ := Gauss.removeNode_raw threeNodes_plain threeNodes_valid o 0
    have hn : d.nodes = {1, 2} := by rw [h2]; decide
    obtain ⟨d', g1, -, g3, -⟩ := DAG.removeNode_spec h4.toConsistent h4.asym false o (v := 1) (by rw [hn]; simp)
    refine ⟨_, { threeNodes.toRaw with
        dag := d'
        names := [1]
        size := 1
        weight := fun i j => threeNodes.toRaw.weight ([1, 2].getD (([1] : List ℕ).getD i 0) 0) ([1, 2].getD (([1] : List ℕ).getD j 0) 0) },
      h5, rfl, ?_, rfl, ?_⟩
    · unfold Gauss.Raw.removeNode
      have hix : threeNodes.toRaw.node2ix 1 = some 1 := by decide +kernel
      dsimp only
      rw [hix]
      simp only [Fin.val_zero]
      rw [if_pos (by decide), if_pos (by decide), g1]
      rfl
    · change d'.nodes = _
      rw [g3, hn]; decide
  · let G : Gauss 2 ℚ :=
      { dag := DAG.empty {5, 6}, names := ![5, 6], weight := 0, variances := 1, biases := 0, precision := none, covariance := none
        correlation := none }
    have hv : G.dag.Valid := ⟨DAG.empty_consistent _, acyclic_of_rank id fun i j hij => absurd hij (Finset.notMem_empty _)⟩
    refine ⟨G, { G.toRaw with names := [6] }, ⟨⟨hv.sortable, by decide, fun v => ?_⟩, fun a b => ?_⟩, hv, ?_, rfl, rfl⟩
    · change v ∈ ({5, 6} : Finset ℕ) ↔ ∃ a, (![5, 6] : Fin 2 → ℕ) a = v
      simp [Fin.exists_fin_two, eq_comm]
    · simp [G, DAG.empty]
    · unfold Gauss.Raw.removeNode
      have hix : G.toRaw.node2ix 5 = some 0 := by decide +kernel
      rw [hix]
      dsimp only
      rw [if_pos (by decide), if_neg (by decide)]
      rfl

/-! ## C189 -/

/-- C189 (partial: the graph does not get the node and the old weights are lost). `add_node(v)` appends the node to the node list; its
row and column in the weight matrix are zero. -/
theorem C189_add_node_partial (G : Gauss n K) (v : ℕ) :
    (G.toRaw.addNode v).names = List.ofFn G.names ++ [v] ∧ (G.toRaw.addNode v).size = n + 1 ∧
      ∀ i, (G.toRaw.addNode v).weight i n = some 0 ∧ (G.toRaw.addNode v).weight n i = some 0 := by
  refine ⟨rfl, by simp [Gauss.Raw.addNode, Gauss.toRaw], fun i => ⟨?_, ?_⟩⟩ <;> simp [Gauss.Raw.addNode, Gauss.toRaw]

/-- C189 is violated for every graph and every new node: the nodes of the graph do not change, and all weights become NaN. -/
theorem C189_violated (G : Gauss n K) (v : ℕ) (hv : v ∉ G.dag.nodes) :
    v ∉ (G.toRaw.addNode v).dag.nodes ∧ (∀ i j : Fin n, G.toRaw.weight i j = some (G.weight i j)) ∧
      ∀ i j : Fin n, (G.toRaw.addNode v).weight i j = none := by
  refine ⟨hv, fun i j => by simp [Gauss.toRaw], fun i j => ?_⟩
  simp [Gauss.Raw.addNode, Gauss.toRaw]

example : 3 ∉ threeNodes.dag.nodes := by decide

/-! ## C190 -/

/-- C190 (partial: only if no nonzero entry of the Cholesky factor is smaller than 1e-8). `cholesky_no_permutation(M)` for a positive
definite `M` raises nothing and returns a strictly lower triangular `A` and positive `d` with `M = (I - A) diag(d) (I - A)ᵀ`. -/
theorem C190_cholesky_partial {M : Matrix (Fin n) (Fin n) ℝ} (hM : M.PosDef)
    (hl : ∀ l, Gauss.IsCholesky M l → ∀ a b, l a b = 0 ∨ Gauss.tol < |l a b|) :
    ∃ A d, Gauss.choleskyNoPermutation M = some (.ok (A, d)) ∧ (∀ a b, a ≤ b → A a b = 0) ∧ (∀ a, 0 < d a) ∧
      (1 - A) * Matrix.diagonal d * (1 - A).transpose = M := by
  obtain ⟨l, h⟩ := Gauss.exists_cholesky hM
  refine Gauss.choleskyNoPermutation_spec ?_ h (hl l h)
  have := hM.isHermitian
  rwa [Matrix.IsHermitian, Matrix.conjTranspose_eq_transpose_of_trivial] at this

/-- C190. A symmetric matrix that is not positive definite is rejected. -/
theorem C190_rejects {M : Matrix (Fin n) (Fin n) ℝ} (hs : M.transpose = M) (hM : ¬ M.PosDef) :
    Gauss.choleskyNoPermutation M = some (.error .value) := by
  unfold Gauss.choleskyNoPermutation
  rw [Gauss.cholesky_error hs hM]

/-- The lower triangular factor with diagonal 1. -/
theorem isCholesky_unit (c : ℝ) : Gauss.IsCholesky !![1, c; c, 1 + c ^ 2] !![1, 0; c, 1] := by
  refine ⟨fun a b => ?_, fun a => ?_, fun a b => ?_⟩
  · fin_cases a <;> fin_cases b <;> simp
  · fin_cases a <;> simp
  · fin_cases a <;> fin_cases b <;> (simp [Matrix.mul_apply, Fin.sum_univ_two]; try ring)

/-- C190 is violated: an entry below 1e-8 of the factor is dropped. -/
theorem C190_violated :
    ∃ M : Matrix (Fin 2) (Fin 2) ℝ, M.PosDef ∧ ∃ A d, Gauss.choleskyNoPermutation M = some (.ok (A, d)) ∧
      (1 - A) * Matrix.diagonal d * (1 - A).transpose ≠ M := by
  set c : ℝ := 1 / 10 ^ 9 with hc
  have hch := isCholesky_unit c
  have hcl : Gauss.clean !![1, 0; c, 1] = 1 := by
    have h1 : ¬ Gauss.IsClose 1 0 := by unfold Gauss.IsClose Gauss.tol; norm_num
    have h2 : Gauss.IsClose c 0 := by unfold Gauss.IsClose Gauss.tol; rw [hc]; norm_num
    have h3 : Gauss.IsClose 0 0 := by unfold Gauss.IsClose Gauss.tol; norm_num
    unfold Gauss.clean
    ext a b
    fin_cases a <;> fin_cases b <;> simp [h1, h2, h3]
  refine ⟨!![1, c; c, 1 + c ^ 2], ?_, 0, 1, ?_, ?_⟩
  · by_contra hp
    have := Gauss.cholesky_error (m := !![1, c; c, 1 + c ^ 2]) (by ext a b; fin_cases a <;> fin_cases b <;> rfl) hp
    rw [Gauss.cholesky_eq hch] at this
    cases this
  · unfold Gauss.choleskyNoPermutation
    rw [Gauss.cholesky_eq hch]
    dsimp only
    rw [hcl, if_neg (by simp)]
    congr 3
    · ext a b; fin_cases a <;> fin_cases b <;> simp
    · ext a; simp
  · intro h
    have := congrFun (congrFun h 0) 1
    simp [hc] at this
    norm_num at this

/-- The matrix `[[1, 2], [2, 5]]`. -/
example : ∃ A d, Gauss.choleskyNoPermutation (!![1, 2; 2, 5] : Matrix (Fin 2) (Fin 2) ℝ) = some (.ok (A, d)) ∧
    (1 - A) * Matrix.diagonal d * (1 - A).transpose = !![1, 2; 2, 5] := by
  have hch := isCholesky_unit 2
  norm_num at hch
  have hp : (!![1, 2; 2, 5] : Matrix (Fin 2) (Fin 2) ℝ).PosDef := by
    by_contra hp
    have := Gauss.cholesky_error (by ext a b; fin_cases a <;> fin_cases b <;> rfl) hp
    rw [Gauss.cholesky_eq hch] at this
    cases this
  obtain ⟨A, d, h1, -, -, h4⟩ := C190_cholesky_partial hp fun l hl a b => by
    rw [hl.unique hch]
    have : Gauss.tol < 1 := by unfold Gauss.tol; norm_num
    have : Gauss.tol < 2 := by unfold Gauss.tol; norm_num
    fin_cases a <;> fin_cases b <;> simp_all
  exact ⟨A, d, h1, h4⟩

end Props
