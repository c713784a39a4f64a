import Verif.Proof.DiscreteInherited
import Verif.Proof.Chickering
import Verif.Props.DiscreteDraws
import Verif.Props.DiscreteMarkov

/-! # Mutators of `DAG` called on a `DiscreteDAG` (property C257) -/

namespace Props

open Model Spec MeasureTheory ProbabilityTheory
open scoped NNReal ENNReal

variable {α : Type} [DecidableEq α] {D D' : DiscreteDAG α}

/-- C257. After arcs have been added, `get_marginals(nodes)` still returns the marginal distribution that it returned before. -/
theorem C257_marginals_partial (hD : D.Tabled) (hc : D.Cut) (h : D.Grown D') (o ot : SetOrder (Option α) α) (oa : SetOrder Bool (α × α))
    (os : SetOrder (α × Finset α) α) (on : SetOrder Unit α) {M : List α} (hM : M.Nodup) (h0 : M ≠ [])
    (hMn : ∀ v ∈ M, v ∈ D.dag.nodes) :
    ∃ T, (D'.getMarginals o ot oa os on EReal.exp M).run = some (.ok T) ∧ T.shape = M.map D.dims ∧
      ∀ x : α → ℕ, (∀ v ∈ M, x v < D.dims v) → T.val (M.map x) = (D.pr M x : ℝ≥0∞) := by
  have k := h.kept hD
  have hc' : D'.Cut := by
    intro v hv x hx
    rw [k.cond, k.pars]
    exact hc v (k.nodes ▸ hv) x (by rw [← k.pars, ← k.dims]; exact hx)
  rw [← k.dims, ← k.pr]
  exact C127_marginals_partial k.tabled hc' o ot oa os on hM h0 (by rw [k.nodes]; exact hMn)

/-- C257. After arcs have been added, a row of `sample()` still has the joint distribution of the tables. -/
theorem C257_sample_partial (hD : D.Tabled) (hA : D.Counting) (h : D.Grown D') (ot : SetOrder (Option α) α) {ix : α → ℕ}
    (hix : Set.InjOn ix D.dag.nodes) {Ω : Type} [MeasurableSpace Ω] {μ : Measure Ω} [IsProbabilityMeasure μ] {u : α → Ω → ℝ}
    (hu : UniformNoise μ u) :
    ∃ row : Ω → ℕ → ℤ, (∀ ω, (D'.sample ot ix fun v => u v ω).run = some (.ok (row ω))) ∧
      ∀ y : α → ℕ, (∀ v ∈ D.dag.nodes, y v < D.dims v) → μ {ω | ∀ v ∈ D.dag.nodes, row ω (ix v) = y v} = D.law y := by
  have k := h.kept hD
  have hA' : D'.Counting := by
    intro v hv
    rw [k.alph, k.dims]
    exact hA v (k.nodes ▸ hv)
  rw [← k.nodes, ← k.dims, ← k.law]
  exact C132_sample_partial k.tabled hA' ot (by rw [k.nodes]; exact hix) hu

/-- C257. After arcs have been added, `dsep(A, B, C)` answers `True` only if A and B are independent given C. -/
theorem C257_dsep_partial (hD : D.Tabled) (h : D.Grown D') (w : SepOracle α) {A B C : List α} (hnd : (A ++ B ++ C).Nodup)
    (hn : ∀ v ∈ A ++ B ++ C, v ∈ D.dag.nodes) (hs : DAG.dsep D'.dag w A.toFinset B.toFinset C.toFinset = some true) {x : α → ℕ}
    (hx : ∀ v ∈ A ++ B ++ C, x v < D.dims v) : D.pr (A ++ B ++ C) x * D.pr C x = D.pr (A ++ C) x * D.pr (B ++ C) x := by
  have k := h.kept hD
  have hAC : ∀ v ∈ A, v ∉ C := fun v h1 h2 => List.disjoint_of_nodup_append hnd (List.mem_append_left _ h1) h2
  rw [← k.pr]
  exact DiscreteDAG.pr_dsep k.tabled hnd (by rw [k.nodes]; exact hn) (dsep_lists k.tabled.valid w hAC hs) (by rw [k.dims]; exact hx)

/-- The noisy parity `0 → 2` with the further arc `0 → 1`. -/
theorem Sample.parity_grown : ∃ D', (Sample.parity {((0 : Fin 3), 2)}).Grown D' ∧ D'.dag.arcs = {(0, 1), (0, 2)} := by
  obtain ⟨G', h1, -, -, h4, -⟩ := DAG.addArc_withArc (G := (Sample.parity {((0 : Fin 3), 2)}).dag) (Sample.graph_valid (by decide))
    Sample.order (x := 0) (t := 1) (Finset.mem_univ _) (Finset.mem_univ _) (Sample.acyclic_of_lt fun a b hab => by
      rcases hab with h | ⟨rfl, rfl⟩
      · simp only [DAG.E, Sample.parity, Sample.graph, Finset.mem_singleton, Prod.mk.injEq] at h
        obtain ⟨rfl, rfl⟩ := h
        decide
      · decide)
  refine ⟨_, .addArc Sample.order (i := 0) (j := 1) .refl (Finset.mem_univ _) (Finset.mem_univ _) (D₂ := { Sample.parity {((0 : Fin 3), 2)} with dag := G' }) ?_, ?_⟩
  · rw [DiscreteDAG.addArc, h1]; rfl
  · rw [h4]; rfl

example : ∃ (D' : DiscreteDAG (Fin 3)) (T : Tensor ℝ≥0∞), D'.dag.arcs = {(0, 1), (0, 2)} ∧
    (D'.getMarginals Sample.order Sample.order Sample.order Sample.order Sample.order EReal.exp [2, 1]).run = some (.ok T) ∧
    ∀ x : Fin 3 → ℕ, (∀ v, x v < 2) → T.val [x 2, x 1] = ((Sample.parity {((0 : Fin 3), 2)}).pr [2, 1] x : ℝ≥0∞) := by
  obtain ⟨D', h1, h2⟩ := Sample.parity_grown
  obtain ⟨T, h3, -, h4⟩ := C257_marginals_partial (Sample.parity_proper (by decide)).tabled (Sample.parity_cut _) h1 Sample.order
    Sample.order Sample.order Sample.order Sample.order (M := [2, 1]) (by decide) (by decide) (fun v _ => Finset.mem_univ v)
  exact ⟨D', T, h2, h3, fun x hx => h4 x fun v _ => hx v⟩

example : ∃ (D' : DiscreteDAG (Fin 3)) (Ω : Type) (_ : MeasurableSpace Ω) (μ : Measure Ω) (u : Fin 3 → Ω → ℝ) (row : Ω → ℕ → ℤ),
    D'.dag.arcs = {(0, 1), (0, 2)} ∧ (∀ ω, (D'.sample Sample.order (fun v => v) fun v => u v ω).run = some (.ok (row ω))) ∧
    ∀ y : Fin 3 → ℕ, (∀ v, y v < 2) → μ {ω | ∀ v : Fin 3, row ω v = y v} = (Sample.parity {((0 : Fin 3), 2)}).law y := by
  obtain ⟨D', h1, h2⟩ := Sample.parity_grown
  obtain ⟨Ω, m, μ, u, hμ, hu⟩ := uniformNoise_exists (Fin 3)
  obtain ⟨row, h3, h4⟩ := C257_sample_partial (Sample.parity_proper (by decide)).tabled (fun v _ => rfl) h1 Sample.order
    (ix := fun v => v) (fun a _ b _ h => Fin.ext h) hu
  refine ⟨D', Ω, m, μ, u, row, h2, h3, fun y hy => ?_⟩
  rw [← h4 y fun v _ => hy v]
  simp [Sample.parity, Sample.graph]

/-- The arc `1 → 2` is added to the noisy parity `0 → 1`. -/
theorem Sample.parity_chain : (Sample.parity {((0 : Fin 3), 1)}).Grown
    { Sample.parity {((0 : Fin 3), 1)} with dag := Sample.graph {((0 : Fin 3), 1), (1, 2)} } := by
  have hG : DAG.addArcUnchecked (Sample.graph {((0 : Fin 3), 1)}) 1 2 = Sample.graph {((0 : Fin 3), 1), (1, 2)} := by
    have key : ∀ G H : DAG (Fin 3), G.nodes = H.nodes → G.arcs = H.arcs → (∀ v, G.neighbors v = H.neighbors v) →
        (∀ v, G.parents v = H.parents v) → (∀ v, G.children v = H.children v) → G = H := by
      rintro ⟨⟩ ⟨⟩ h1 h2 h3 h4 h5
      congr 1
      · exact funext h3
      · exact funext h4
      · exact funext h5
    exact key _ _ (by decide) (by decide) (by decide) (by decide) (by decide)
  refine .addArc Sample.order (i := 1) (j := 2) .refl (Finset.mem_univ _) (Finset.mem_univ _) ?_
  rcases DAG.addArc_cases (Sample.graph_consistent {((0 : Fin 3), 1)}) Sample.order 1 2 with ⟨-, h⟩ | ⟨h, -⟩
  · change (DAG.addArc true Sample.order (Sample.graph {((0 : Fin 3), 1)}) 1 2).map _ = _
    rw [h, hG]
    rfl
  · rw [hG] at h
    exact absurd (Sample.graph_valid (arcs := {((0 : Fin 3), 1), (1, 2)}) (by decide)).acyclic h

example : (Sample.parity {((0 : Fin 3), 1)}).pr [0, 2, 1] (fun _ => 1) * (Sample.parity {((0 : Fin 3), 1)}).pr [1] (fun _ => 1) =
    (Sample.parity {((0 : Fin 3), 1)}).pr [0, 1] (fun _ => 1) * (Sample.parity {((0 : Fin 3), 1)}).pr [2, 1] (fun _ => 1) :=
  C257_dsep_partial (Sample.parity_proper (by decide)).tabled Sample.parity_chain Sample.sep (A := [0]) (B := [2]) (C := [1]) (by decide)
    (fun v _ => Finset.mem_univ v) (Sample.chain_dsep _) (fun v _ => by simp [Sample.parity, DiscreteDAG.dims])

/-- `0 → 1`: node 0 has the value 1 and node 1 has the value of node 0. -/
noncomputable def copied : DiscreteDAG (Fin 2) :=
  { dag := Sample.graph {(0, 1)}
    pars := fun v => if v = 1 then [0] else []
    alph := fun _ => [0, 1]
    cond := fun v => if v = 1 then ⟨[2, 2], fun i => if i.getD 0 0 = i.getD 1 0 then 1 else 0⟩
      else ⟨[2], fun i => if i.getD 0 0 = 1 then 1 else 0⟩ }

theorem copied_proper : copied.Proper := by
  refine ⟨⟨Sample.graph_valid (by decide), fun v _ => ?_, fun v _ u => ?_, fun v _ => ?_⟩, fun v _ x hx => ?_⟩
  · fin_cases v <;> simp [copied]
  · fin_cases v <;> fin_cases u <;> simp [copied, Sample.graph]
  · fin_cases v <;> rfl
  · fin_cases v
    · change ∑ i ∈ Finset.range 2, (if i = 1 then (1 : ℝ≥0) else 0) = 1
      simp
    · have h : x 0 < 2 := hx 0 (by simp [copied])
      change ∑ i ∈ Finset.range 2, (if x 0 = i then (1 : ℝ≥0) else 0) = 1
      rw [Finset.sum_range_succ, Finset.sum_range_one]
      rcases (by omega : x 0 = 0 ∨ x 0 = 1) with h | h <;> simp [h]

/-- C257, violated: after `reverse_arc(0, 1)` each sample has a value of node 1 that has probability zero; after `remove_arc(0, 1)`
`get_marginals([1])` raises. -/
theorem C257_violated : ∃ D : DiscreteDAG (Fin 2), D.Proper ∧ D.Counting ∧ D.Cut ∧
    (∀ o, ∃ D', D.reverseArc false true o 0 1 = some (D', none) ∧ ∀ ot ix, Function.Injective ix → ∀ u : Fin 2 → ℝ,
      (∀ v, u v ∈ Set.Ico (0 : ℝ) 1) → ∃ row, (D'.sample ot ix u).run = some (.ok row) ∧ row (ix 0) = 1 ∧ row (ix 1) = 0 ∧
        D.pr [1] (fun _ => 0) = 0) ∧
    ∃ D', D.removeArc false 0 1 = (D', none) ∧ ∀ o ot oa os on, (D'.getMarginals o ot oa os on EReal.exp [1]).run = some (.error .plain) := by
  obtain ⟨G1, r1, r2, r3, r4⟩ := DAG.removeArc_without (G := copied.dag) copied_proper.valid (i := 0) (j := 1) (by simp [copied, Sample.graph])
  have hE1 : ∀ a b, ¬ G1.E a b := fun a b h => by
    rw [r4] at h
    simp only [Without, DAG.E, copied, Sample.graph, Finset.mem_singleton, Prod.mk.injEq] at h
    exact h.2 h.1
  have hn1 : G1.nodes = Finset.univ := r3
  refine ⟨copied, copied_proper, fun v _ => rfl, fun v _ x _ => ?_, fun o => ?_, { copied with dag := G1 }, by rw [DiscreteDAG.removeArc, r1],
    fun o ot oa os on => ?_⟩
  · have h : ∀ p : Prop, [Decidable p] → (if p then (1 : ℝ≥0) else 0) = 0 ∨ 1 / 10 ^ 10 < (if p then (1 : ℝ≥0) else 0) := by
      intro p _
      split_ifs
      · right
        rw [div_lt_one (by positivity)]; norm_num
      · exact .inl rfl
    fin_cases v
    · exact h _
    · exact h _
  · obtain ⟨G2, a1, a2, a3, -, a5⟩ := DAG.addArc_withArc r2 o (x := 1) (t := 0) (by rw [hn1]; simp) (by rw [hn1]; simp) (by
      intro v hv
      have key : ∀ a b, Path (WithArc G1.E 1 0) a b → a = 1 ∧ b = 0 := by
        intro a b hab
        induction hab with
        | single h => exact h.resolve_left (hE1 _ _)
        | tail _ h ih => exact ⟨ih.1, (h.resolve_left (hE1 _ _)).2⟩
      obtain ⟨h1, h2⟩ := key v v hv
      rw [h1] at h2
      exact absurd h2 (by decide))
    refine ⟨{ copied with dag := G2 }, by rw [DiscreteDAG.reverseArc, DAG.reverseArc, r1]; dsimp only; rw [a1]; rfl, fun ot ix hix u hu => ?_⟩
    obtain ⟨t, ht1, ht⟩ := DAG.topologicalSort_ok G2 ot a2
    have ht0 : t = [1, 0] := by
      have h1 : List.Sublist [1, 0] t := ht.before 1 0 (by rw [a5]; exact .inr ⟨rfl, rfl⟩)
      refine (h1.eq_of_length ?_).symm
      have : t.Perm [1, 0] := (List.perm_ext_iff_of_nodup ht.nodup (by simp)).2 fun v => by
        rw [ht.mem_iff, a3, hn1]
        fin_cases v <;> simp
      exact this.length_eq.symm
    subst ht0
    have d1 : ({ copied with dag := G2 } : DiscreteDAG (Fin 2)).drawSample ix u (fun _ => 0) 1 = .ok 0 := by
      have e1 : npRow (α := Fin 2) (copied.cond 1) ((copied.pars 1).map fun p => (fun _ => (0 : ℤ)) (ix p)) =
          .ok ((List.range 2).map fun i => (copied.cond 1).val ([0] ++ [i])) :=
        npRow_eq (l := [0]) (d := [2]) (n := 2) rfl rfl (by simp)
      have e2 := argmaxAbove_eq (α := Fin 2) (p := fun i => (copied.cond 1).val ([0] ++ [i])) (n := 2) (k := 0) (u := u 1) (by decide)
        ⟨by simpa using (hu 1).1, by simpa [copied] using (hu 1).2⟩
      rw [DiscreteDAG.drawSample, if_neg (by simp [copied])]
      dsimp only at e1 ⊢
      rw [e1]
      exact e2
    have d0 : ({ copied with dag := G2 } : DiscreteDAG (Fin 2)).drawSample ix u (Function.update (fun _ => 0) (ix 1) 0) 0 = .ok 1 := by
      rw [DiscreteDAG.drawSample, if_pos (by simp [copied])]
      refine npChoice_eq (k := 1) rfl (by simp [copied]) ?_ ⟨?_, ?_⟩
      · simp [copied, Finset.sum_range_succ]
      · simpa [copied, Finset.sum_range_succ] using (hu 0).1
      · simpa [copied, Finset.sum_range_succ] using (hu 0).2
    refine ⟨Function.update (Function.update (fun _ => 0) (ix 1) 0) (ix 0) 1, ?_, by simp, ?_, ?_⟩
    · rw [DiscreteDAG.sample, DiscreteDAG.run_bind_ok ht1, List.foldlM_cons, d1]
      have e1 : ((do
          let x ← (ExceptT.mk (some (.ok 0)) : Run (Fin 2) ℤ)
          pure (Function.update (fun _ => 0) (ix 1) x) : Run (Fin 2) (ℕ → ℤ))).run =
          some (.ok (Function.update (fun _ => 0) (ix 1) 0)) := rfl
      rw [DiscreteDAG.run_bind_ok e1, List.foldlM_cons, d0]
      rfl
    · rw [Function.update_of_ne (fun h => by have := hix h; simp at this), Function.update_self]
    · rw [DiscreteDAG.pr, Spec.prob]
      refine Finset.sum_eq_zero fun y hy => ?_
      have hy1 : y 1 = 0 := by
        simp only [Finset.mem_filter] at hy
        exact hy.2 1 (by simp)
      have : copied.law y = (if y 0 = 1 then 1 else 0) * (if y 0 = y 1 then 1 else 0) := by
        have h : copied.law y = ∏ v : Fin 2, (copied.cond v).val ((copied.pars v ++ [v]).map y) := rfl
        rw [h, Fin.prod_univ_two]
        rfl
      rw [this, hy1]
      by_cases h : y 0 = 1 <;> simp [h]
  · obtain ⟨A, hA1, hA⟩ := DiscreteDAG.ancestral_spec (D := { copied with dag := G1 }) r2 o oa os [(1 : Fin 2)]
      (on.ord () [(1 : Fin 2)].toFinset) (by rw [hn1]; simp) (by simp [on.mem_iff])
    obtain ⟨t, ht1, ht⟩ := DAG.topologicalSort_ok A ot hA.valid
    have ht0 : t = [1] := by
      refine List.perm_singleton.1 ((List.perm_ext_iff_of_nodup ht.nodup (by simp)).2 fun v => ?_)
      rw [ht.mem_iff, List.mem_singleton, Finset.mem_coe]
      refine ⟨fun h => ?_, fun h => by rw [h]; exact hA.mem 1 (by simp)⟩
      by_contra hv
      obtain ⟨w, hw⟩ := hA.reach v h (by simpa using hv)
      exact hE1 _ _ ((hA.arcs_iff v w).1 hw).1
    subst ht0
    rw [DiscreteDAG.getMarginals, DiscreteDAG.getMarginalsBy, DiscreteDAG.run_bind_ok hA1, DiscreteDAG.run_bind_ok ht1]
    rfl

end Props
