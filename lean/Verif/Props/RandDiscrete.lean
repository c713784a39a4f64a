import Verif.Proof.RandDiscrete
import Verif.Proof.Rand

/-! # Random discrete models, random numbers and networks (properties C143 to C145, C147) -/

namespace Props

open Model Spec
open scoped NNReal

variable (o : SetOrder (Option ℕ) ℕ) (oa : SetOrder Bool (ℕ × ℕ)) (op : SetOrder ℕ ℕ)

/-- C143 (partial: only if the labels of the graph are `0, …, n-1`). `rand_discrete_dag` returns an object with the nodes and arcs of the
graph and the drawn vectors as rows of the tables, which are conditional probability tables. -/
theorem C143_rand_discrete_partial {G : DAG ℕ} (hG : G.Valid) (hn : G.nodes = Finset.range G.nodes.card)
    (alphabets : Option (ℕ → List ℤ)) {draw : ℕ → List ℕ → ℕ → ℝ≥0}
    (hd : ∀ v z, ∑ i ∈ Finset.range (alphabets.getD (fun _ => [0, 1, 2]) v).length, draw v z i = 1) :
    ∃ D, randDiscreteDag o oa op G alphabets draw = some (.ok D) ∧ D.dag.nodes = G.nodes ∧ D.dag.arcs = G.arcs ∧ D.Proper ∧
      D.alph = alphabets.getD (fun _ => [0, 1, 2]) ∧ ∀ v z i, (D.cond v).val (z ++ [i]) = draw v z i := by
  obtain ⟨H, h1, h2, h3, h4⟩ := discreteOnRange_ok o oa hG hn
    (cond := fun v => ⟨(op.ord v (G.parents v)).map (fun p => (alphabets.getD (fun _ => [0, 1, 2]) p).length) ++
      [(alphabets.getD (fun _ => [0, 1, 2]) v).length], fun idx => draw v idx.dropLast (idx.getLastD 0)⟩)
    (pars := fun v => op.ord v (G.parents v)) (alph := alphabets.getD fun _ => [0, 1, 2])
    (fun v _ p hp => by
      rw [op.mem_iff] at hp
      exact hG.fst_mem _ _ ((hG.parents_iff _ _).1 hp))
    (fun v _ => by simp)
  refine ⟨_, h1, h3, h4, ⟨⟨h2, fun v _ => op.nodup _ _, fun v _ u => ?_, fun v _ => by simp [DiscreteDAG.dims]⟩, fun v _ x _ => ?_⟩, rfl, fun v z i => ?_⟩
  · change u ∈ op.ord v (G.parents v) ↔ _
    rw [op.mem_iff, hG.parents_iff, h4]
  · refine Eq.trans (Finset.sum_congr rfl fun i _ => ?_) (hd v ((op.ord v (G.parents v)).map x))
    simp
  · simp

/-- C143 is violated: for a graph with the single node `1` the result has the node `0` instead. -/
theorem C143_violated (alphabets : Option (ℕ → List ℤ)) (draw : ℕ → List ℕ → ℕ → ℝ≥0) :
    ∃ G, DAG.new o oa {1} ∅ = some (G, none) ∧ G.Valid ∧ G.nodes = {1} ∧
      ∃ D, randDiscreteDag o oa op G alphabets draw = some (.ok D) ∧ D.dag.nodes = {0} := by
  obtain ⟨G, h1, h2, h3, h4⟩ := DAG.new_ok o oa {1} ∅ (by intro v hv; obtain ⟨_, h, _⟩ := Relation.TransGen.head'_iff.1 hv; simp at h)
  obtain ⟨H, g1, g2, g3, g4⟩ := DAG.new_ok o oa {0} ∅ (by intro v hv; obtain ⟨_, h, _⟩ := Relation.TransGen.head'_iff.1 hv; simp at h)
  simp only [Finset.image_empty, Finset.union_empty] at h4 g4
  have hp : op.ord 1 (G.parents 1) = [] := by
    rw [List.eq_nil_iff_forall_not_mem]
    intro u hu
    rw [op.mem_iff, h2.parents_iff, h3] at hu
    simp at hu
  refine ⟨G, h1, h2, h4, ?_⟩
  unfold randDiscreteDag discreteOnRange
  rw [h4, h3, Finset.card_singleton, Finset.range_one, g1]
  dsimp only
  rw [if_neg (by simp [hp]), if_pos (by simp)]
  exact ⟨_, rfl, g4⟩

/-- C144 (partial: only if the labels of the graph are `0, …, n-1`). `rand_noisy_or_dag` returns an object with the nodes and arcs of the
graph and conditional probability tables: a node with parents is zero with probability `q` times the product of `p_k` over the
parents that are one. -/
theorem C144_noisy_or_partial {G : DAG ℕ} (hG : G.Valid) (hn : G.nodes = Finset.range G.nodes.card) {q r : ℕ → ℝ≥0} {p : ℕ → ℕ → ℝ≥0}
    (hq : ∀ v, q v ≤ 1) (hr : ∀ v, r v ≤ 1) (hp : ∀ v k, p v k ≤ 1) :
    ∃ D, randNoisyOrDag o oa op G q r p = some (.ok D) ∧ D.dag.nodes = G.nodes ∧ D.dag.arcs = G.arcs ∧ D.Proper ∧
      (∀ v, D.alph v = [0, 1]) ∧ ∀ v ∈ G.nodes, ∀ x : ℕ → ℕ,
        (D.cond v).val ((D.pars v).map x ++ [0]) = (if D.pars v = [] then r v else 1) * q v *
          ∏ k ∈ Finset.range (D.pars v).length, if x ((D.pars v).getD k 0) = 0 then 1 else p v k := by
  obtain ⟨H, h1, h2, h3, h4⟩ := discreteOnRange_ok o oa hG hn
    (cond := fun v => noisyOrTable (q v) (r v) ((List.range (op.ord v (G.parents v)).length).map (p v)))
    (pars := fun v => op.ord v (G.parents v)) (alph := fun _ => [0, 1])
    (fun v _ p hp => by
      rw [op.mem_iff] at hp
      exact hG.fst_mem _ _ ((hG.parents_iff _ _).1 hp))
    (fun v _ => by
      rw [noisyOrTable_shape]
      simp [List.replicate_succ'])
  refine ⟨⟨H, fun v => noisyOrTable (q v) (r v) ((List.range (op.ord v (G.parents v)).length).map (p v)), fun v => op.ord v (G.parents v),
    fun _ => [0, 1]⟩, ?_, h3, h4, ⟨⟨h2, fun v _ => op.nodup _ _, fun v _ u => ?_, fun v _ => ?_⟩, fun v _ x _ => ?_⟩, fun _ => rfl,
    fun v _ x => ?_⟩
  · unfold randNoisyOrDag
    dsimp only
    rw [← hn]
    exact h1
  · change u ∈ op.ord v (G.parents v) ↔ _
    rw [op.mem_iff, hG.parents_iff, h4]
  · change (noisyOrTable _ _ _).shape = _
    rw [noisyOrTable_shape]
    change List.replicate _ 2 = (op.ord v (G.parents v) ++ [v]).map fun _ => 2
    simp [List.replicate_succ']
  · change ∑ i ∈ Finset.range 2, (noisyOrTable _ _ _).val ((op.ord v (G.parents v)).map x ++ [i]) = 1
    rw [Finset.sum_range_succ, Finset.sum_range_one, noisyOrTable_one]
    refine add_tsub_cancel_of_le (noisyOrTable_le (hq v) (hr v) ?_ _ (by simp))
    intro a ha
    obtain ⟨k, -, rfl⟩ := List.mem_map.1 ha
    exact hp v k
  · change (noisyOrTable _ _ _).val ((op.ord v (G.parents v)).map x ++ [0]) = (if op.ord v (G.parents v) = [] then _ else _) * _ *
      ∏ k ∈ Finset.range (op.ord v (G.parents v)).length, if x ((op.ord v (G.parents v)).getD k 0) = 0 then 1 else p v k
    rw [noisyOrTable_zero _ _ _ _ (by simp)]
    congr 1
    · simp
    · generalize op.ord v (G.parents v) = l
      have hr : ∀ (m : ℕ) (f : ℕ → ℝ≥0), ∏ k ∈ Finset.range m, f k = ((List.range m).map f).prod := fun m f => by
        induction m with
        | zero => rfl
        | succ m ih => rw [Finset.prod_range_succ, List.range_succ, ih]; simp
      rw [hr]
      congr 1
      apply List.ext_getElem
      · simp
      · intro k h1 h2
        simp at h1
        simp [h1]

/-- C144 is violated: for a graph with the single node `1` a `KeyError` is raised. -/
theorem C144_violated (q r : ℕ → ℝ≥0) (p : ℕ → ℕ → ℝ≥0) :
    ∃ G, DAG.new o oa {1} ∅ = some (G, none) ∧ G.Valid ∧ randNoisyOrDag o oa op G q r p = some (.error .key) := by
  obtain ⟨G, h1, h2, h3, h4⟩ := DAG.new_ok o oa {1} ∅ (by intro v hv; obtain ⟨_, h, _⟩ := Relation.TransGen.head'_iff.1 hv; simp at h)
  obtain ⟨H, g1, g2, g3, g4⟩ := DAG.new_ok o oa {0} ∅ (by intro v hv; obtain ⟨_, h, _⟩ := Relation.TransGen.head'_iff.1 hv; simp at h)
  simp only [Finset.image_empty, Finset.union_empty] at h4 g4
  refine ⟨G, h1, h2, ?_⟩
  unfold randNoisyOrDag discreteOnRange
  rw [h4, h3, Finset.card_singleton, Finset.range_one, g1]
  dsimp only
  rw [if_pos]
  exact ⟨1, by simp, 1, by simp, by simp⟩

/-- Three nodes, `0 → 2 ← 1`: both theorems apply, and the probabilities are those of a noisy or. -/
example : ∃ G D D', DAG.new o oa {0, 1, 2} {(0, 2), (1, 2)} = some (G, none) ∧
    randNoisyOrDag o oa op G (fun _ => 1) (fun _ => 1 / 2) (fun _ _ => 1 / 3) = some (.ok D) ∧ D.Proper ∧
    (D.cond 2).val ((D.pars 2).map (fun _ => 1) ++ [0]) = 1 / 9 ∧
    randDiscreteDag o oa op G none (fun _ _ _ => 1 / 3) = some (.ok D') ∧ D'.Proper := by
  obtain ⟨G, h1, h2, h3, h4⟩ := DAG.new_ok o oa {0, 1, 2} {(0, 2), (1, 2)}
    (acyclic_lt (by simp; omega))
  have hn : G.nodes = Finset.range 3 := by rw [h4]; decide
  have hn' : G.nodes = Finset.range G.nodes.card := by rw [hn]; simp
  obtain ⟨D, d1, d0, d3, d2, -, d4⟩ := C144_noisy_or_partial o oa op h2 hn' (q := fun _ => 1) (r := fun _ => 1 / 2)
    (p := fun _ _ => 1 / 3) (fun _ => le_rfl) (fun _ => by norm_num) (fun _ _ => by
    rw [← NNReal.coe_le_coe]; norm_num)
  obtain ⟨D', e1, -, -, e2, -⟩ := C143_rand_discrete_partial o oa op h2 hn' none (draw := fun _ _ _ => 1 / 3) (fun _ _ => by
    simp)
  refine ⟨G, D, D', h1, d1, d2, ?_, e1, e2⟩
  rw [d4 2 (by rw [hn]; simp)]
  have hl : (D.pars 2).length = 2 := by
    have hs : (D.pars 2).toFinset = {0, 1} := by
      ext u
      rw [List.mem_toFinset, d2.pars_iff 2 (by rw [d0, hn]; simp), d3, h3]
      simp
    rw [← List.toFinset_card_of_nodup (d2.nodup 2 (by rw [d0, hn]; simp)), hs]
    rfl
  rw [if_neg (by rintro h; rw [h] at hl; simp at hl), hl]
  norm_num [Finset.prod_range_succ]

/-! ## C145 -/

/-- C145. `unif_away_zero(low, high)` has an absolute value between `low` and `high`, and is not negative with `all_positive`. -/
theorem C145_unif_away_zero {low high u : ℝ} (h0 : 0 ≤ low) (hu : u ∈ Set.Icc low high) (pos coin : Bool) :
    |unifAwayZero pos coin u| ∈ Set.Icc low high ∧ (pos = true → 0 ≤ unifAwayZero pos coin u) := by
  have hu0 : 0 ≤ u := h0.trans hu.1
  have : |unifAwayZero pos coin u| = u := by
    unfold unifAwayZero
    cases pos <;> cases coin <;> norm_num [abs_of_nonneg hu0]
  rw [this]
  refine ⟨hu, ?_⟩
  rintro rfl
  simpa [unifAwayZero] using hu0

/-- C145 (partial: only for `low ≤ dist_original ≤ low + |original|`). `unif_away_original` returns a number whose absolute value is
between `low` and `high` and whose distance from the original is at least `dist_original`. -/
theorem C145_unif_away_original_partial {x dist low high : ℝ} (h0 : 0 ≤ low) (hlh : low < high) (hx : |x| ≤ high) (hd : low ≤ dist)
    (hd' : dist ≤ low + |x|) :
    (∃ e ∈ regions x dist low high, e.1 < e.2) ∧ (∀ e ∈ regions x dist low high, e.1 ≤ e.2) ∧
      ∀ k < (regions x dist low high).length, ∀ u ∈ Set.Icc (0 : ℝ) 1,
        ∃ y, unifAwayOriginal x dist low high k u = .ok y ∧ |y| ∈ Set.Icc low high ∧ dist ≤ |y - x| := by
  have key : ∀ e ∈ regions x dist low high, e.1 ≤ e.2 ∧ ∀ y, e.1 ≤ y → y ≤ e.2 → |y| ∈ Set.Icc low high ∧ dist ≤ |y - x| := by
    intro e he
    unfold regions at he
    split at he
    · rename_i hneg
      rw [abs_of_neg hneg] at hx hd'
      simp only [List.mem_append, List.mem_singleton] at he
      rcases he with (rfl | he) | he
      · refine ⟨hlh.le, fun y h1 h2 => ?_⟩
        dsimp only at h1 h2
        rw [abs_of_nonneg (h0.trans h1)]
        exact ⟨⟨h1, h2⟩, le_abs.2 (.inl (by linarith))⟩
      · split at he
        · rename_i h
          simp only [List.mem_singleton] at he
          subst he
          refine ⟨h, fun y h1 h2 => ?_⟩
          dsimp only at h1 h2
          rw [abs_of_nonpos (by linarith)]
          exact ⟨⟨by linarith, by linarith⟩, le_abs.2 (.inr (by linarith))⟩
        · simp at he
      · split at he
        · rename_i h
          simp only [List.mem_singleton] at he
          subst he
          refine ⟨h, fun y h1 h2 => ?_⟩
          dsimp only at h1 h2
          rw [abs_of_nonpos (by linarith)]
          exact ⟨⟨by linarith, by linarith⟩, le_abs.2 (.inl (by linarith))⟩
        · simp at he
    · rename_i hneg
      push Not at hneg
      rw [abs_of_nonneg hneg] at hx hd'
      simp only [List.mem_append, List.mem_singleton] at he
      rcases he with (rfl | he) | he
      · refine ⟨by linarith, fun y h1 h2 => ?_⟩
        dsimp only at h1 h2
        rw [abs_of_nonpos (by linarith)]
        exact ⟨⟨by linarith, by linarith⟩, le_abs.2 (.inr (by linarith))⟩
      · split at he
        · rename_i h
          simp only [List.mem_singleton] at he
          subst he
          refine ⟨h, fun y h1 h2 => ?_⟩
          dsimp only at h1 h2
          rw [abs_of_nonneg (by linarith)]
          exact ⟨⟨by linarith, by linarith⟩, le_abs.2 (.inl (by linarith))⟩
        · simp at he
      · split at he
        · rename_i h
          simp only [List.mem_singleton] at he
          subst he
          refine ⟨h, fun y h1 h2 => ?_⟩
          dsimp only at h1 h2
          rw [abs_of_nonneg (by linarith)]
          exact ⟨⟨by linarith, by linarith⟩, le_abs.2 (.inr (by linarith))⟩
        · simp at he
  refine ⟨?_, fun e he => (key e he).1, fun k hk u hu => ?_⟩
  · by_cases hneg : x < 0
    · exact ⟨(low, high), by simp [regions, hneg], hlh⟩
    · exact ⟨(-high, -low), by simp [regions, hneg], neg_lt_neg hlh⟩
  · obtain ⟨h1, h2⟩ := key _ (List.getElem_mem hk)
    refine ⟨_, ?_, h2 ((regions x dist low high)[k].1 + ((regions x dist low high)[k].2 - (regions x dist low high)[k].1) * u) ?_ ?_⟩
    · rw [unifAwayOriginal, if_neg (not_lt.2 hd), List.getElem?_eq_getElem hk]
    · have := mul_nonneg (sub_nonneg.2 h1) hu.1
      linarith
    · have := mul_le_mul_of_nonneg_left hu.2 (sub_nonneg.2 h1)
      linarith

example : ∃ y, unifAwayOriginal 0.5 0.25 0.25 1 1 0.5 = .ok y ∧ |y| ∈ Set.Icc (0.25 : ℝ) 1 ∧ 0.25 ≤ |y - 0.5| := by
  refine (C145_unif_away_original_partial (x := 0.5) (dist := 0.25) (low := 0.25) (high := 1) (by norm_num) (by norm_num)
    (by norm_num [abs_of_pos]) (by norm_num) (by norm_num [abs_of_pos])).2.2 1 ?_ 0.5 (by constructor <;> norm_num)
  rw [regions, if_neg (by norm_num), if_pos (by norm_num)]
  simp

/-- C145 is violated: a distance below `low`, as the error message asks for, raises; and a large distance is not kept. -/
theorem C145_violated (k : ℕ) (u : ℝ) :
    unifAwayOriginal 0.5 0.125 0.25 1 k u = .error .value ∧ ∃ y, unifAwayOriginal 0.25 1 0.25 1 0 1 = .ok y ∧ |y - 0.25| < 1 := by
  constructor
  · rw [unifAwayOriginal, if_pos (by norm_num)]
  · refine ⟨-0.25, ?_, by norm_num [abs_of_neg]⟩
    rw [unifAwayOriginal, if_neg (by norm_num), regions, if_neg (by norm_num)]
    norm_num

/-! ## C147 -/

/-- C147 (partial: only the graph). `rand_nn_functions(dag)` has the nodes and arcs of the graph. -/
theorem C147_graph_partial (on : SetOrder Unit ℕ) {G : DAG ℕ} (hG : G.Valid) (layers : ℕ) :
    ∃ N, randNnFunctions o oa on G layers = some (.ok N) ∧ N.dag.Valid ∧ N.dag.nodes = G.nodes ∧ N.dag.arcs = G.arcs := by
  obtain ⟨H, h1, h2, h3, h4⟩ := DAG.new_ok o oa G.nodes G.arcs hG.acyclic
  refine ⟨_, by rw [randNnFunctions, h1], h2, ?_, h3⟩
  change H.nodes = _
  rw [h4]
  ext v
  simp only [Finset.mem_union, Finset.mem_image]
  constructor
  · rintro ((h | ⟨a, ha, rfl⟩) | ⟨a, ha, rfl⟩)
    · exact h
    · exact hG.fst_mem _ _ ha
    · exact hG.snd_mem _ _ ha
  · exact fun h => .inl (.inl h)

/-- C147 is violated for every graph with a node: `sample` of the result raises a `ValueError` for every positive number of samples. -/
theorem C147_violated (on : SetOrder Unit ℕ) {G : DAG ℕ} (hG : G.Valid) (hne : G.nodes.Nonempty) (layers : ℕ) {k : ℕ} (hk : k ≠ 0) :
    ∃ N, randNnFunctions o oa on G layers = some (.ok N) ∧ N.sample o k = some (.error .value) := by
  obtain ⟨N, h1, h2, h3, h4⟩ := C147_graph_partial o oa on hG layers
  obtain ⟨t, t1, t2⟩ := DAG.topologicalSort_ok N.dag o h2
  refine ⟨N, h1, ?_⟩
  rw [Network.sample, t1]
  cases t with
  | nil =>
    obtain ⟨v, hv⟩ := hne
    rw [← h3] at hv
    exact absurd ((t2.mem_iff v).2 hv) (by simp)
  | cons v t =>
    have hv : N.dag.parents v = ∅ := by
      rw [Finset.eq_empty_iff_forall_notMem]
      intro u hu
      have := t2.before u v ((h2.parents_iff _ _).1 hu)
      have hnd := t2.nodup
      rw [List.nodup_cons] at hnd
      cases this with
      | cons _ h => exact hnd.1 (h.subset (by simp))
      | cons_cons _ h => exact hnd.1 (h.subset (by simp))
    dsimp only
    change some (N.visit k v >>= fun _ => t.forM (N.visit k)) = _
    rw [N.visit_root hk hv]
    rfl

example (on : SetOrder Unit ℕ) : ∃ G N, DAG.new o oa {0, 1} {(0, 1)} = some (G, none) ∧ randNnFunctions o oa on G 3 = some (.ok N) ∧
    N.sample o 10 = some (.error .value) := by
  obtain ⟨G, h1, h2, h3, h4⟩ := DAG.new_ok o oa {0, 1} {(0, 1)} (acyclic_lt (by simp))
  obtain ⟨N, g1, g2⟩ := C147_violated o oa on h2 (by rw [h4]; exact ⟨0, by simp⟩) 3 (k := 10) (by simp)
  exact ⟨G, N, h1, g1, g2⟩

/-- C147. What remains of the functions: the function of `v` returns a column of samples exactly if there is one sample, `v` has one
parent, and the node visited last (whose matrices all functions use) has one parent. -/
theorem C147_function (on : SetOrder Unit ℕ) {G : DAG ℕ} (hG : G.Valid) (layers k v : ℕ) {last : ℕ}
    (hl : (on.ord () G.nodes).getLast? = some last) {N : Network} (h : randNnFunctions o oa on G (layers + 1) = some (.ok N)) :
    N.visit k v = .ok () ↔ k = 1 ∧ (G.parents v).card = 1 ∧ (G.parents last).card = 1 := by
  obtain ⟨H, h1, h2, h3, -⟩ := DAG.new_ok o oa G.nodes G.arcs hG.acyclic
  rw [randNnFunctions, h1] at h
  cases h
  have hp : H.parents v = G.parents v := by
    ext u
    rw [h2.parents_iff, hG.parents_iff, h3]
  have hd : (on.ord () G.nodes).getLastD 0 = last := by rw [List.getLastD_eq_getLast?, hl]; rfl
  unfold Network.visit
  dsimp only
  rw [hp, hd]
  generalize (G.parents last).card = p
  generalize (G.parents v).card = c
  suffices H : ∀ (l : List ℕ) (a : ℕ), (((a :: l).foldlM (fun s _ => matmulShape p s) (k, c) : Except (Exn ℕ) _) >>= assignColumn k) =
      if p = k then assignColumn k (p, c) else .error .value by
    have hr : List.range (layers + 1) = 0 :: (List.range layers).map Nat.succ := List.range_succ_eq_map
    rw [hr]
    change (List.foldlM _ _ _ >>= assignColumn k) = _ ↔ _
    rw [H]
    by_cases e : p = k
    · rw [if_pos e, assignColumn]
      dsimp only
      constructor
      · intro g
        split at g
        · rename_i g'
          omega
        · cases g
      · intro g
        rw [if_pos (by omega)]
    · rw [if_neg e]
      refine ⟨fun g => ?_, fun g => by omega⟩
      cases g
  intro l
  suffices H : ∀ l : List ℕ, (l.foldlM (fun s _ => matmulShape p s) (p, c) : Except (Exn ℕ) _) = .ok (p, c) by
    intro a
    rw [List.foldlM_cons, matmulShape]
    dsimp only
    by_cases e : p = k
    · rw [if_pos e, if_pos e]
      change (List.foldlM _ _ _ >>= _) = _
      rw [H l]
      rfl
    · rw [if_neg e, if_neg e]
      rfl
  intro l
  induction l with
  | nil => rfl
  | cons _ l ih =>
    rw [List.foldlM_cons, matmulShape, if_pos rfl]
    exact ih

example (on : SetOrder Unit ℕ) (h : on.ord () {0, 1} = [0, 1]) : ∃ G N, DAG.new o oa {0, 1} {(0, 1)} = some (G, none) ∧
    randNnFunctions o oa on G 3 = some (.ok N) ∧ N.visit 1 1 = .ok () := by
  obtain ⟨G, h1, h2, h3, h4⟩ := DAG.new_ok o oa {0, 1} {(0, 1)} (acyclic_lt (by simp))
  obtain ⟨N, g1, -⟩ := C147_graph_partial o oa on h2 3
  refine ⟨G, N, h1, g1, (C147_function o oa on h2 2 1 1 (last := 1) ?_ g1).2 ?_⟩
  · have : G.nodes = {0, 1} := by rw [h4]; decide
    rw [this, h]; rfl
  · have : G.parents 1 = {0} := by
      ext u
      rw [h2.parents_iff, h3]
      simp
    simp [this]

end Props
