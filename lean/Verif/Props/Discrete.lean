import Verif.Proof.DiscreteCond
import Verif.Props.DiscreteSample

/-! # Marginals and conditionals of `DiscreteDAG` (properties C127 to C131) -/

namespace Props

open Model Spec
open scoped NNReal ENNReal

variable {α : Type} [DecidableEq α] {D : DiscreteDAG α}

/-- C127. `get_marginals(nodes)` returns the marginal distribution, with the axes in the order asked for, if no entry of a table
is positive but at most `1e-10`. -/
theorem C127_marginals_partial (hD : D.Tabled) (hc : D.Cut) (o ot : SetOrder (Option α) α) (oa : SetOrder Bool (α × α))
    (os : SetOrder (α × Finset α) α) (on : SetOrder Unit α) {M : List α} (hM : M.Nodup) (h0 : M ≠ [])
    (hMn : ∀ v ∈ M, v ∈ D.dag.nodes) :
    ∃ T, (D.getMarginals o ot oa os on EReal.exp M).run = some (.ok T) ∧ T.shape = M.map D.dims ∧
      ∀ x : α → ℕ, (∀ v ∈ M, x v < D.dims v) → T.val (M.map x) = (D.pr M x : ℝ≥0∞) := by
  obtain ⟨T, h1, h2, h3⟩ := DiscreteDAG.getMarginals_run hD hc o ot oa os on EReal.exp hM h0 hMn
  refine ⟨T, h1, h2, fun x hx => ?_⟩
  obtain ⟨e, h4, h5⟩ := h3 x hx
  rw [h4, h5]

/-- C127. The same for `get_marginals(nodes, log=True)`: the logarithms. -/
theorem C127_log_partial (hD : D.Tabled) (hc : D.Cut) (o ot : SetOrder (Option α) α) (oa : SetOrder Bool (α × α))
    (os : SetOrder (α × Finset α) α) (on : SetOrder Unit α) {M : List α} (hM : M.Nodup) (h0 : M ≠ [])
    (hMn : ∀ v ∈ M, v ∈ D.dag.nodes) :
    ∃ T, (D.getMarginals o ot oa os on id M).run = some (.ok T) ∧ T.shape = M.map D.dims ∧
      ∀ x : α → ℕ, (∀ v ∈ M, x v < D.dims v) → T.val (M.map x) = ENNReal.log (D.pr M x) := by
  obtain ⟨T, h1, h2, h3⟩ := DiscreteDAG.getMarginals_run hD hc o ot oa os on id hM h0 hMn
  refine ⟨T, h1, h2, fun x hx => ?_⟩
  obtain ⟨e, h4, h5⟩ := h3 x hx
  rw [h4, ← h5, EReal.log_exp]; rfl

/-- C127. The same for `get_marginal(node)`. -/
theorem C127_marginal_partial (hD : D.Tabled) (hc : D.Cut) (o ot : SetOrder (Option α) α) (oa : SetOrder Bool (α × α))
    (os : SetOrder (α × Finset α) α) {v : α} (hv : v ∈ D.dag.nodes) :
    ∃ T, (D.getMarginal o ot oa os v).run = some (.ok T) ∧ T.shape = [D.dims v] ∧
      ∀ i < D.dims v, T.val [i] = (D.pr [v] (fun _ => i) : ℝ≥0∞) :=
  DiscreteDAG.getMarginal_run hD hc o ot oa os hv

example : ∃ T, ((Sample.parity {((0 : Fin 3), 2), (1, 2)}).getMarginals Sample.order Sample.order Sample.order Sample.order
    Sample.order EReal.exp [2, 0]).run = some (.ok T) ∧ T.shape = [2, 2] ∧ ∀ x : Fin 3 → ℕ, (∀ v ∈ [(2 : Fin 3), 0], x v < 2) →
      T.val ([2, 0].map x) = ((Sample.parity {((0 : Fin 3), 2), (1, 2)}).pr [2, 0] x : ℝ≥0∞) :=
  C127_marginals_partial (Sample.parity_proper (by decide)).tabled (Sample.parity_cut _) _ _ _ _ _ (by decide) (by decide)
    (fun v _ => Finset.mem_univ v)

/-- The single node whose values have the probabilities `1 - 1e-11` and `1e-11`. -/
noncomputable def tiny : DiscreteDAG (Fin 1) :=
  { dag := Sample.graph ∅
    pars := fun _ => []
    alph := fun _ => [0, 1]
    cond := fun _ => ⟨[2], fun i => if i = [0] then 1 - 1 / 10 ^ 11 else 1 / 10 ^ 11⟩ }

theorem tiny_proper : tiny.Proper := by
  refine ⟨⟨Sample.graph_valid (by simp), fun v _ => by simp [tiny], fun v _ u => by simp [tiny, Sample.graph], fun v _ => rfl⟩,
    fun v _ x _ => ?_⟩
  change ∑ i ∈ Finset.range 2, (if [i] = [0] then (1 - 1 / 10 ^ 11 : ℝ≥0) else 1 / 10 ^ 11) = 1
  rw [Finset.sum_range_succ, Finset.sum_range_one, if_pos rfl, if_neg (by simp)]
  refine tsub_add_cancel_of_le ?_
  rw [div_le_one (by positivity)]; norm_num

/-- C127, violated: an entry of `1e-11` counts as zero. -/
theorem C127_violated : ∃ D : DiscreteDAG (Fin 1), D.Proper ∧ ∀ o ot oa os, ∃ T,
    (D.getMarginal o ot oa os 0).run = some (.ok T) ∧ T.val [1] = 0 ∧ D.pr [0] (fun _ => 1) = 1 / 10 ^ 11 := by
  refine ⟨tiny, tiny_proper, fun o ot oa os => ?_⟩
  obtain ⟨A, hA1, hA⟩ := DiscreteDAG.ancestral_spec tiny_proper.valid o oa os [(0 : Fin 1)] [0] (by simp [tiny, Sample.graph])
    (by simp)
  obtain ⟨t, ht1, ht⟩ := DAG.topologicalSort_ok A ot hA.valid
  have ht0 : t = [0] := by
    refine List.perm_singleton.1 ((List.perm_ext_iff_of_nodup ht.nodup (by simp)).2 fun u => ?_)
    rw [ht.mem_iff, Subsingleton.elim u 0]
    simp [hA.mem]
  subst ht0
  refine ⟨(noWarnLog (tiny.cond 0)).map EReal.exp, ?_, ?_, ?_⟩
  · rw [DiscreteDAG.getMarginal, DiscreteDAG.run_bind_ok hA1, DiscreteDAG.run_bind_ok ht1]; rfl
  · have h1 : (tiny.cond 0).val [1] ≤ 1 / 10 ^ 10 := by
      change (if [1] = [0] then (1 - 1 / 10 ^ 11 : ℝ≥0) else 1 / 10 ^ 11) ≤ 1 / 10 ^ 10
      rw [if_neg (by simp), div_le_div_iff₀ (by positivity) (by positivity)]; norm_num
    change EReal.exp (if (tiny.cond 0).val [1] ≤ 1 / 10 ^ 10 then ⊥ else _) = 0
    rw [if_pos h1, EReal.exp_bot]
  · have := DiscreteDAG.Anc.prob (D := tiny) tiny_proper (M := [0]) hA ht (gone := []) (by simp) ot (fun _ => 1)
      (by simp [tiny, DiscreteDAG.dims])
    rw [DiscreteDAG.pr, ← this]
    simp [sumL, DiscreteDAG.kern, tiny]

/-- C128. `get_mean_and_variance(node)` returns the expectation and the variance of the value of the node. -/
theorem C128_mean_and_variance (hD : D.Tabled) (hc : D.Cut) (o ot : SetOrder (Option α) α) (oa : SetOrder Bool (α × α))
    (os : SetOrder (α × Finset α) α) {v : α} (hv : v ∈ D.dag.nodes) :
    ∃ m s, (D.getMeanAndVariance o ot oa os v).run = some (.ok (m, s)) ∧
      m = D.expect (fun y => ((D.alph v).getD (y v) 0 : ℝ)) ∧
      s = D.expect (fun y => (((D.alph v).getD (y v) 0 : ℝ) - m) ^ 2) := by
  obtain ⟨T, h1, h2, h3⟩ := DiscreteDAG.getMarginal_run hD hc o ot oa os hv
  have key : ∀ g : ℤ → ℝ, (((D.alph v).zip ((List.range (T.shape.headD 0)).map fun i => (T.val [i]).toReal)).map
      fun p => g p.1 * p.2).sum = D.expect (fun y => g ((D.alph v).getD (y v) 0)) := by
    intro g
    rw [h2]
    refine (DiscreteDAG.sum_zip (D.alph v) 0 (fun i => (T.val [i]).toReal) fun a b => g a * b).trans ?_
    rw [DiscreteDAG.expect_of_marginal D hv (fun i => g ((D.alph v).getD i 0))]
    refine Finset.sum_congr rfl fun i hi => ?_
    rw [h3 i (Finset.mem_range.1 hi)]; rfl
  refine ⟨_, _, ?_, key _, key fun a => ((a : ℝ) - _) ^ 2⟩
  rw [DiscreteDAG.getMeanAndVariance, DiscreteDAG.run_bind_ok h1]; rfl

example : ∃ m s, ((Sample.parity {((0 : Fin 3), 2), (1, 2)}).getMeanAndVariance Sample.order Sample.order Sample.order Sample.order
    2).run = some (.ok (m, s)) ∧
      m = (Sample.parity {((0 : Fin 3), 2), (1, 2)}).expect (fun y => (([0, 1] : List ℤ).getD (y 2) 0 : ℝ)) ∧
      s = (Sample.parity {((0 : Fin 3), 2), (1, 2)}).expect (fun y => ((([0, 1] : List ℤ).getD (y 2) 0 : ℝ) - m) ^ 2) :=
  C128_mean_and_variance (Sample.parity_proper (by decide)).tabled (Sample.parity_cut _) _ _ _ _ (Finset.mem_univ _)

/-- C129. `get_marginals_new(nodes)` comes to an end and the table it returns, if any, is the marginal distribution. It returns one
if some node `r` is the only one without parents among the nodes asked for and their ancestors, and the others have one parent. -/
theorem C129_marginals_new_partial (hD : D.Tabled) (hc : D.Cut) (o ot : SetOrder (Option α) α) (oa : SetOrder Bool (α × α))
    (os : SetOrder (α × Finset α) α) (on : SetOrder Unit α) (oc : SetOrder α α) {M : List α} (h0 : M ≠ [])
    (hMn : ∀ v ∈ M, v ∈ D.dag.nodes) :
    ∃ r, (D.getMarginalsNew o ot oa os on oc EReal.exp M).run = some r ∧
      (∀ T, r = .ok T → T.shape = M.map D.dims ∧
        ∀ x : α → ℕ, (∀ v ∈ M, x v < D.dims v) → T.val (M.map x) = (D.pr M x : ℝ≥0∞)) ∧
      (M.Nodup → (∃ t, ∀ v, (∃ s ∈ M, Path0 D.dag.E v s) → v ≠ t → ∃ w, ∀ u, (u, v) ∈ D.dag.arcs ↔ u = w) →
        ∃ T, r = .ok T) := by
  obtain ⟨A, hA, h⟩ := DiscreteDAG.getMarginalsNew_run hD hc o ot oa os on oc EReal.exp h0 hMn
  rcases h with ⟨T, h1, -, h2, h3⟩ | ⟨e, h1, h2⟩
  · refine ⟨_, h1, ?_, fun _ _ => ⟨T, rfl⟩⟩
    rintro _ ⟨⟩
    refine ⟨h2, fun x hx => ?_⟩
    obtain ⟨e, h4, h5⟩ := h3 x hx
    rw [h4, h5]
  · refine ⟨_, h1, fun _ => by simp, fun hM ht => absurd ⟨?_, hM⟩ h2⟩
    exact DiscreteDAG.tree_of hA ht

/-- C129. `get_marginals_new(nodes)` raises if the nodes asked for have, together with their ancestors, two nodes without parents. -/
theorem C129_raises (hD : D.Tabled) (hc : D.Cut) (o ot : SetOrder (Option α) α) (oa : SetOrder Bool (α × α))
    (os : SetOrder (α × Finset α) α) (on : SetOrder Unit α) (oc : SetOrder α α) {M : List α}
    (hMn : ∀ v ∈ M, v ∈ D.dag.nodes) {s t : α} (hst : s ≠ t) (hs : ∃ m ∈ M, Path0 D.dag.E s m) (ht : ∃ m ∈ M, Path0 D.dag.E t m)
    (hsp : ∀ u, (u, s) ∉ D.dag.arcs) (htp : ∀ u, (u, t) ∉ D.dag.arcs) :
    ∃ e, (D.getMarginalsNew o ot oa os on oc EReal.exp M).run = some (.error e) :=
  DiscreteDAG.getMarginalsNew_raises hD hc o ot oa os on oc EReal.exp hMn hst hs ht hsp htp

example : ∃ T, ((Sample.parity {((0 : Fin 3), 1), (1, 2)}).getMarginalsNew Sample.order Sample.order Sample.order Sample.order
    Sample.order Sample.order EReal.exp [2, 0]).run = some (.ok T) ∧ T.shape = [2, 2] := by
  obtain ⟨r, h1, h2, h3⟩ := C129_marginals_new_partial (D := Sample.parity {((0 : Fin 3), 1), (1, 2)})
    (Sample.parity_proper (by decide)).tabled (Sample.parity_cut _) Sample.order Sample.order Sample.order Sample.order
    Sample.order Sample.order (M := [2, 0]) (by decide) (fun v _ => Finset.mem_univ v)
  have htree : ∀ v : Fin 3, v ≠ 0 → ∃ w, ∀ u, (u, v) ∈ ({(0, 1), (1, 2)} : Finset (Fin 3 × Fin 3)) ↔ u = w := by decide
  obtain ⟨T, rfl⟩ := h3 (by decide) ⟨0, fun v _ => htree v⟩
  exact ⟨T, h1, (h2 T rfl).1⟩

/-- C129, violated: two independent nodes. -/
theorem C129_violated : ∃ D : DiscreteDAG (Fin 2), D.Proper ∧ D.Cut ∧ ∀ o ot oa os on oc,
    ∃ e, (D.getMarginalsNew o ot oa os on oc EReal.exp [0, 1]).run = some (.error e) :=
  ⟨Sample.parity ∅, Sample.parity_proper (by simp), Sample.parity_cut _, fun o ot oa os on oc =>
    C129_raises (Sample.parity_proper (by simp)).tabled (Sample.parity_cut _) o ot oa os on oc (fun v _ => Finset.mem_univ v)
      (s := 0) (t := 1) (by decide) ⟨0, by simp, .refl⟩ ⟨1, by simp, .refl⟩ (fun u => by simp [Sample.parity, Sample.graph])
      (fun u => by simp [Sample.parity, Sample.graph])⟩

/-- C130. `get_conditional(nodes, given, method="old")` returns the conditional distribution. A node in both lists has two axes and
the entry is zero where they disagree. The distribution is uniform where the condition has probability zero. -/
theorem C130_conditional (hD : D.Tabled) (hc : D.Cut) (o ot : SetOrder (Option α) α) (oa : SetOrder Bool (α × α))
    (os : SetOrder (α × Finset α) α) (on : SetOrder Unit α) (oc : SetOrder α α) {M C : List α} (hM : M.Nodup) (hC : C.Nodup)
    (h0 : M ≠ [] ∨ C ≠ []) (hn : ∀ v ∈ M ++ C, v ∈ D.dag.nodes) (hr : (M.filter (· ∈ C)).length ≤ 1) :
    ∃ T, (D.getConditional o ot oa os on oc false M C).run = some (.ok T) ∧ T.shape = (M ++ C).map D.dims ∧
      ∀ x r : α → ℕ, (∀ v ∈ M ++ C, x v < D.dims v) → (∀ v ∈ M, r v < D.dims v) →
        T.val (M.map (fun v => if v ∈ C then r v else x v) ++ C.map x) =
          if ∀ v ∈ M, v ∈ C → r v = x v then (D.condPr (M.filter (· ∉ C)) C x : ℝ≥0∞) else 0 := by
  obtain ⟨full, h1, h2, h3⟩ := DiscreteDAG.getMarginals_run hD hc o ot oa os on id (DiscreteDAG.cond_nodup hM hC)
    (DiscreteDAG.cond_ne h0) (DiscreteDAG.cond_mem hn)
  obtain ⟨T, h4, h5⟩ := DiscreteDAG.conditionalFrom_spec (D := D) hM hC (fun v hv => hn v (by simp [hv])) hr h2 fun x hx => by
    obtain ⟨e, h6, h7⟩ := h3 x hx
    rw [h6]; exact h7
  refine ⟨T, ?_, h5⟩
  rw [DiscreteDAG.getConditional]
  exact (DiscreteDAG.run_bind_ok h1 _).trans (congrArg some h4)

/-- C130. `get_conditional(nodes, given, method="old")` raises if two nodes are in both lists. -/
theorem C130_raises (hD : D.Tabled) (hc : D.Cut) (o ot : SetOrder (Option α) α) (oa : SetOrder Bool (α × α))
    (os : SetOrder (α × Finset α) α) (on : SetOrder Unit α) (oc : SetOrder α α) {M C : List α} (hM : M.Nodup) (hC : C.Nodup)
    (hn : ∀ v ∈ M ++ C, v ∈ D.dag.nodes) {u v : α} (huv : u ≠ v) (hu : u ∈ M ∧ u ∈ C) (hv : v ∈ M ∧ v ∈ C) :
    ∃ e, (D.getConditional o ot oa os on oc false M C).run = some (.error e) := by
  obtain ⟨full, h1, -⟩ := DiscreteDAG.getMarginals_run hD hc o ot oa os on id (DiscreteDAG.cond_nodup hM hC)
    (DiscreteDAG.cond_ne (.inl (List.ne_nil_of_mem hu.1))) (DiscreteDAG.cond_mem hn)
  obtain ⟨e, he⟩ := DiscreteDAG.conditionalFrom_raises (D := D) (full := full) huv hu hv
  refine ⟨e, ?_⟩
  rw [DiscreteDAG.getConditional]
  exact (DiscreteDAG.run_bind_ok h1 _).trans (congrArg some he)

example : ∃ T, ((Sample.parity {((0 : Fin 3), 2), (1, 2)}).getConditional Sample.order Sample.order Sample.order Sample.order
    Sample.order Sample.order false [2, 0] [0]).run = some (.ok T) ∧ T.shape = [2, 2, 2] := by
  obtain ⟨T, h1, h2, -⟩ := C130_conditional (D := Sample.parity {((0 : Fin 3), 2), (1, 2)}) (Sample.parity_proper (by decide)).tabled
    (Sample.parity_cut _) Sample.order Sample.order Sample.order Sample.order Sample.order Sample.order (M := [2, 0]) (C := [0])
    (by decide) (by decide) (by decide) (fun v _ => Finset.mem_univ v) (by decide)
  exact ⟨T, h1, h2⟩

/-- C131. `get_conditional(nodes, given)` comes to an end and the table it returns, if any, is the conditional distribution. It
returns one if some node `t` is the only one without parents among the nodes mentioned and their ancestors, and the others have one
parent. -/
theorem C131_conditional_partial (hD : D.Tabled) (hc : D.Cut) (o ot : SetOrder (Option α) α) (oa : SetOrder Bool (α × α))
    (os : SetOrder (α × Finset α) α) (on : SetOrder Unit α) (oc : SetOrder α α) {M C : List α} (hM : M.Nodup) (hC : C.Nodup)
    (h0 : M ≠ [] ∨ C ≠ []) (hn : ∀ v ∈ M ++ C, v ∈ D.dag.nodes) (hr : (M.filter (· ∈ C)).length ≤ 1) :
    ∃ res, (D.getConditional o ot oa os on oc true M C).run = some res ∧
      (∀ T, res = .ok T → T.shape = (M ++ C).map D.dims ∧
        ∀ x r : α → ℕ, (∀ v ∈ M ++ C, x v < D.dims v) → (∀ v ∈ M, r v < D.dims v) →
          T.val (M.map (fun v => if v ∈ C then r v else x v) ++ C.map x) =
            if ∀ v ∈ M, v ∈ C → r v = x v then (D.condPr (M.filter (· ∉ C)) C x : ℝ≥0∞) else 0) ∧
      ((∃ t, ∀ v, (∃ s ∈ M ++ C, Path0 D.dag.E v s) → v ≠ t → ∃ w, ∀ u, (u, v) ∈ D.dag.arcs ↔ u = w) → ∃ T, res = .ok T) := by
  obtain ⟨A, hA, h⟩ := DiscreteDAG.getMarginalsNew_run hD hc o ot oa os on oc id (DiscreteDAG.cond_ne h0) (DiscreteDAG.cond_mem hn)
  rcases h with ⟨full, h1, -, h2, h3⟩ | ⟨e, h1, h2⟩
  · obtain ⟨T, h4, h5⟩ := DiscreteDAG.conditionalFrom_spec (D := D) hM hC (fun v hv => hn v (by simp [hv])) hr h2 fun x hx => by
      obtain ⟨e, h6, h7⟩ := h3 x hx
      rw [h6]; exact h7
    refine ⟨.ok T, ?_, ?_, fun _ => ⟨T, rfl⟩⟩
    · rw [DiscreteDAG.getConditional]
      exact (DiscreteDAG.run_bind_ok h1 _).trans (congrArg some h4)
    · rintro _ ⟨⟩; exact h5
  · refine ⟨.error e, ?_, fun _ => by simp, fun ⟨t, ht⟩ => absurd ⟨?_, DiscreteDAG.cond_nodup hM hC⟩ h2⟩
    · rw [DiscreteDAG.getConditional]; exact DiscreteDAG.run_bind_error h1 _
    · refine DiscreteDAG.tree_of hA ⟨t, fun v ⟨s, hs, hp⟩ => ht v ⟨s, ?_, hp⟩⟩
      rcases List.mem_append.1 hs with h | h
      · simp [(List.mem_filter.1 h).1]
      · simp [h]

/-- C131. `get_conditional(nodes, given)` raises if the nodes mentioned have, together with their ancestors, two nodes without
parents. -/
theorem C131_raises (hD : D.Tabled) (hc : D.Cut) (o ot : SetOrder (Option α) α) (oa : SetOrder Bool (α × α))
    (os : SetOrder (α × Finset α) α) (on : SetOrder Unit α) (oc : SetOrder α α) {M C : List α}
    (hn : ∀ v ∈ M ++ C, v ∈ D.dag.nodes) {s t : α} (hst : s ≠ t) (hs : ∃ m ∈ M ++ C, Path0 D.dag.E s m)
    (ht : ∃ m ∈ M ++ C, Path0 D.dag.E t m) (hsp : ∀ u, (u, s) ∉ D.dag.arcs) (htp : ∀ u, (u, t) ∉ D.dag.arcs) :
    ∃ e, (D.getConditional o ot oa os on oc true M C).run = some (.error e) := by
  have hm : ∀ m ∈ M ++ C, m ∈ M.filter (· ∉ C) ++ C := fun m hm => by
    by_cases h : m ∈ C
    · simp [h]
    · simpa [h] using hm
  obtain ⟨m, hs1, hs2⟩ := hs
  obtain ⟨m', ht1, ht2⟩ := ht
  obtain ⟨e, he⟩ := DiscreteDAG.getMarginalsNew_raises hD hc o ot oa os on oc id (DiscreteDAG.cond_mem hn) hst ⟨m, hm m hs1, hs2⟩
    ⟨m', hm m' ht1, ht2⟩ hsp htp
  refine ⟨e, ?_⟩
  rw [DiscreteDAG.getConditional]; exact DiscreteDAG.run_bind_error he _

/-- C131, violated: the effect of one of two causes. -/
theorem C131_violated : ∃ D : DiscreteDAG (Fin 3), D.Proper ∧ D.Cut ∧ ∀ o ot oa os on oc,
    ∃ e, (D.getConditional o ot oa os on oc true [2] [0]).run = some (.error e) := by
  refine ⟨Sample.parity {(0, 2), (1, 2)}, Sample.parity_proper (by decide), Sample.parity_cut _, fun o ot oa os on oc => ?_⟩
  refine C131_raises (Sample.parity_proper (by decide)).tabled (Sample.parity_cut _) o ot oa os on oc (fun v _ => Finset.mem_univ v)
    (s := 0) (t := 1) (by decide) ⟨0, by simp, .refl⟩ ⟨2, by simp, .single ?_⟩ (fun u => ?_) (fun u => ?_)
  · simp [DAG.E, Sample.parity, Sample.graph]
  · simp [Sample.parity, Sample.graph]
  · simp [Sample.parity, Sample.graph]

example : ∃ T, ((Sample.parity {((0 : Fin 3), 1), (1, 2)}).getConditional Sample.order Sample.order Sample.order Sample.order
    Sample.order Sample.order true [2] [0]).run = some (.ok T) ∧ T.shape = [2, 2] := by
  obtain ⟨r, h1, h2, h3⟩ := C131_conditional_partial (D := Sample.parity {((0 : Fin 3), 1), (1, 2)})
    (Sample.parity_proper (by decide)).tabled (Sample.parity_cut _) Sample.order Sample.order Sample.order Sample.order
    Sample.order Sample.order (M := [2]) (C := [0]) (by decide) (by decide) (by decide) (fun v _ => Finset.mem_univ v) (by decide)
  have htree : ∀ v : Fin 3, v ≠ 0 → ∃ w, ∀ u, (u, v) ∈ ({(0, 1), (1, 2)} : Finset (Fin 3 × Fin 3)) ↔ u = w := by decide
  obtain ⟨T, rfl⟩ := h3 ⟨0, fun v _ => htree v⟩
  exact ⟨T, h1, (h2 T rfl).1⟩

end Props
