import Verif.Proof.Importance
import Verif.Proof.DiscreteFit
import Verif.Proof.DiscreteLearn
import Verif.Proof.DiscreteImap

/-! # C264: fitting is consistent -/

namespace Props

open Model Spec MeasureTheory ProbabilityTheory Filter Topology
open scoped NNReal

variable {Ω : Type} [MeasurableSpace Ω] {μ : Measure Ω} [IsProbabilityMeasure μ]

private theorem card_range (p : ℕ → Prop) [DecidablePred p] (N : ℕ) :
    (((Finset.univ.filter fun j : Fin N => p j).card : ℕ) : ℝ) = ∑ i ∈ Finset.range N, if p i then 1 else 0 := by
  rw [Finset.card_filter]
  push_cast
  exact Fin.sum_univ_eq_sum_range (fun i => if p i then (1 : ℝ) else 0) N

/-- The relative frequencies of values in samples converge to their probabilities. -/
private theorem frequency_slln {D : DiscreteDAG ℕ} (hD : D.Proper) (hA : D.Counting) (ot : SetOrder (Option ℕ) ℕ) {n : ℕ} {ix : ℕ → ℕ}
    (hn : ∀ v ∈ D.dag.nodes, v < n) (hix : ∀ v ∈ D.dag.nodes, ix v = v) {u : ℕ × ℕ → Ω → ℝ} (hu : UniformNoise μ u) {row : Ω → ℕ → ℕ → ℤ}
    (hrow : ∀ ω i, ∀ v ∈ D.dag.nodes, D.Filled (fun _ => none) (fun v => u (i, v) ω) ix (row ω i) v) :
    ∀ᵐ ω ∂μ, ∀ S m : List ℕ, (∀ v ∈ S, v ∈ D.dag.nodes) → Tendsto (fun N : ℕ =>
      (((Finset.univ.filter fun j : Fin N => (S.map fun v => (row ω j v).toNat) = m).card : ℕ) : ℝ) / N) atTop
        (𝓝 ((prob D.dag.nodes D.dims D.law fun y => S.map y = m : ℝ≥0) : ℝ)) := by
  classical
  rw [ae_all_iff]
  intro S
  rw [ae_all_iff]
  intro m
  by_cases hS : ∀ v ∈ S, v ∈ D.dag.nodes
  swap
  · exact ae_of_all _ fun _ h => absurd h hS
  filter_upwards [DiscreteDAG.weighted_slln hD.tabled hA ot hn hix (N := []) (vals := []) (by simp) (by simp) rfl (by simp) hu
    (fun y => if S.map y = m then 1 else 0) fun y z h => by rw [List.map_congr_left fun v hv => h v (hS v hv)]] with ω hω _
  have he : prob D.dag.nodes D.dims D.law (fun y => S.map y = m) = prob D.dag.nodes D.dims
      (fun y => D.law y * if S.map y = m then 1 else 0) fun y => ∀ v ∈ ([] : List ℕ), y v = ([] : List ℕ).getD (([] : List ℕ).idxOf v) 0 := by
    rw [prob, prob, Finset.sum_filter, Finset.sum_filter]
    refine Finset.sum_congr rfl fun y _ => ?_
    by_cases h1 : S.map y = m <;> simp [h1]
  rw [he]
  refine hω.congr fun N => ?_
  rw [card_range (fun i => (S.map fun v => (row ω i v).toNat) = m)]
  congr 1
  refine Finset.sum_congr rfl fun i _ => ?_
  obtain ⟨-, h2, h3⟩ := DiscreteDAG.weightedRow_spec hD.tabled hA ot hn hix (N := []) (vals := []) (by simp) (by simp) rfl (by simp)
    (x := fun v => u (i, v) ω) fun v => hu.range (i, v) ω
  set R := D.weightedRow ot n ix [] [] fun v => u (i, v) ω with hR
  have hfix : (DiscreteDAG.fixAt ([] : List ℕ).toFinset fun v => ([] : List ℕ).getD (([] : List ℕ).idxOf v) 0) = fun _ => none := by
    funext v; simp [DiscreteDAG.fixAt]
  rw [hfix] at h2
  have hsame := (DiscreteDAG.Filled.iff hD.tabled ot (hrow ω i) fun v => (R.1 (ix v)).toNat).2
    ((DiscreteDAG.Filled.iff hD.tabled ot h2 fun v => (R.1 (ix v)).toNat).1 fun v hv => (h2 v hv).1)
  have hmap : (S.map fun v => (row ω i v).toNat) = S.map fun v => (R.1 (ix v)).toNat := by
    refine List.map_congr_left fun v hv => ?_
    have := hsame v (hS v hv)
    rw [hix v (hS v hv)] at this ⊢
    rw [this, Int.toNat_natCast]
  rw [h3, hmap]
  simp only [List.map_nil, List.prod_nil, one_mul]
  split_ifs <;> simp

/-- C264. On nodes `0, ..., n-1` with alphabets `0, 1, ..., k-1`: `fit`, with the graph and the alphabets of a `DiscreteDAG` and any amount `add`
added to the counts, applied to independent rows of its `sample`, gives tables that converge, with probability one, to those of the
`DiscreteDAG`, wherever the values of the parents have positive probability. -/
theorem C264_fit_consistent_partial {D : DiscreteDAG ℕ} (hD : D.Proper) (hA : D.Counting) (ot : SetOrder (Option ℕ) ℕ) {n : ℕ} {ix : ℕ → ℕ}
    (hn : ∀ v ∈ D.dag.nodes, v < n) (hix : ∀ v ∈ D.dag.nodes, ix v = v) {u : ℕ × ℕ → Ω → ℝ} (hu : UniformNoise μ u)
    (o ot' : SetOrder (Option ℕ) ℕ) (oa : SetOrder Bool (ℕ × ℕ)) (op : SetOrder ℕ ℕ) (oz : SetOrder ℕ (List ℕ)) (add : ℝ≥0) :
    ∃ (row : Ω → ℕ → ℕ → ℤ) (fit : Ω → ℕ → DiscreteDAG ℕ),
      (∀ ω i, (D.sample ot ix fun v => u (i, v) ω).run = some (.ok (row ω i))) ∧
      (∀ ω N, 0 < N → (fitCounts o ot' oa op oz D.dag n (fun (j : Fin N) c => (row ω j c).toNat) (some D.alph) add).run =
        some (.ok (fit ω N)) ∧ (fit ω N).dag.nodes = D.dag.nodes ∧ (fit ω N).dag.arcs = D.dag.arcs) ∧
      ∀ᵐ ω ∂μ, ∀ v ∈ D.dag.nodes, ∀ y : ℕ → ℕ, y v < D.dims v → D.pr (D.pars v) y ≠ 0 →
        Tendsto (fun N => ((fit ω N).cond v).val (((fit ω N).pars v ++ [v]).map y)) atTop
          (𝓝 ((D.cond v).val ((D.pars v ++ [v]).map y))) := by
  classical
  have hinj : Set.InjOn ix D.dag.nodes := fun a ha b hb h => by rwa [hix a ha, hix b hb] at h
  choose row h1 h2 using fun ω i => DiscreteDAG.sample_run hD.tabled hA ot hinj (u := fun v => u (i, v) ω) fun v => hu.range (i, v) ω
  have hrange : ∀ ω i, ∀ v ∈ D.dag.nodes, (row ω i v).toNat < D.dims v := fun ω i v hv => by
    have := (h2 ω i v hv).2.1
    rwa [hix v hv] at this
  have hex : ∀ ω N, ∃ F, 0 < N → (fitCounts o ot' oa op oz D.dag n (fun (j : Fin N) c => (row ω j c).toNat) (some D.alph) add).run =
      some (.ok F) ∧ Fitted D.dag (fun (j : Fin N) c => (row ω j c).toNat) D.alph add F := by
    intro ω N
    by_cases hN : 0 < N
    · obtain ⟨F, g1, g2⟩ := fitCounts_run o ot' oa op oz (n := n) (data := fun (j : Fin N) c => (row ω j c).toNat)
        (alphabets := some D.alph) hD.valid hn hN.ne' rfl (fun j v hv => hrange ω j v hv) add
      exact ⟨F, fun _ => ⟨g1, g2⟩⟩
    · exact ⟨D, fun h => absurd h hN⟩
  choose fit hfit using hex
  refine ⟨row, fit, h1, fun ω N hN => ⟨(hfit ω N hN).1, (hfit ω N hN).2.nodes, (hfit ω N hN).2.arcs⟩, ?_⟩
  filter_upwards [frequency_slln hD hA ot hn hix hu h2] with ω hω v hv y hy h0
  have hps : ∀ p ∈ D.pars v, p ∈ D.dag.nodes := fun p hp => hD.valid.fst_mem _ _ ((hD.pars_iff v hv p).1 hp)
  have hpr : ∀ S : List ℕ, prob D.dag.nodes D.dims D.law (fun z => S.map z = S.map y) = D.pr S y := fun S => by
    rw [DiscreteDAG.pr]; simp only [List.map_inj_left]
  set c0 : ℕ → ℝ≥0 := fun N => ((Finset.univ.filter fun j : Fin N => ((D.pars v).map fun p => (row ω j p).toNat) = (D.pars v).map y).card : ℕ)
    with hc0
  set c1 : ℕ → ℝ≥0 := fun N =>
    ((Finset.univ.filter fun j : Fin N => ((D.pars v ++ [v]).map fun p => (row ω j p).toNat) = (D.pars v ++ [v]).map y).card : ℕ) with hc1
  have t0 : Tendsto (fun N : ℕ => (c0 N : ℝ) / N) atTop (𝓝 (D.pr (D.pars v) y : ℝ)) := by
    have := hω (D.pars v) ((D.pars v).map y) hps
    rw [hpr] at this
    simpa only [hc0, NNReal.coe_natCast] using this
  have t1 : Tendsto (fun N : ℕ => (c1 N : ℝ) / N) atTop (𝓝 (D.pr (D.pars v ++ [v]) y : ℝ)) := by
    have := hω (D.pars v ++ [v]) ((D.pars v ++ [v]).map y) (by
      intro p hp
      rcases List.mem_append.1 hp with h | h
      exacts [hps p h, by rwa [List.mem_singleton.1 h]])
    rw [hpr] at this
    simpa only [hc1, NNReal.coe_natCast] using this
  have hprow : D.pr (D.pars v ++ [v]) y = (D.cond v).val ((D.pars v ++ [v]).map y) * D.pr (D.pars v) y := by
    have := DiscreteDAG.pr_row hD ot hv (x := y) hy
    rwa [Function.update_eq_self, ← List.map_singleton, ← List.map_append] at this
  have h0' : (D.pr (D.pars v) y : ℝ) ≠ 0 := by exact_mod_cast h0
  have hpos : ∀ᶠ N in atTop, c0 N ≠ 0 := by
    filter_upwards [t0.eventually_ne h0'] with N hN h
    exact hN (by simp [h])
  have hentry : ∀ᶠ N in atTop, (c1 N + add) / (c0 N + D.dims v * add) = ((fit ω N).cond v).val (((fit ω N).pars v ++ [v]).map y) := by
    filter_upwards [hpos, eventually_gt_atTop 0] with N hN hN0
    have g := (hfit ω N hN0).2
    have hm : matching (fun (j : Fin N) c => (row ω j c).toNat) ((fit ω N).pars v) y =
        Finset.univ.filter fun j : Fin N => ((D.pars v).map fun p => (row ω j p).toNat) = (D.pars v).map y := by
      ext j
      simp only [matching, Finset.mem_filter, Finset.mem_univ, true_and, List.map_inj_left, g.pars_iff, hD.pars_iff v hv]
    have hne : (matching (fun (j : Fin N) c => (row ω j c).toNat) ((fit ω N).pars v) y).Nonempty := by
      rw [hm, ← Finset.card_ne_zero]
      intro h
      exact hN (by rw [hc0]; beta_reduce; rw [h, Nat.cast_zero])
    rw [List.map_append, List.map_singleton, g.val v hv, fitted, if_pos hne, frequencies_eq (hA v hv) (fun j _ => hrange ω j v hv) hy, hm,
      Finset.filter_filter]
    simp only [hc0, hc1, List.map_append, List.map_singleton]
    congr 4
    refine Finset.filter_congr fun j _ => ?_
    constructor
    · intro h
      have := List.append_inj h (by simp)
      exact ⟨this.1, by simpa using this.2⟩
    · rintro ⟨h, h'⟩
      rw [h, h']
  refine Tendsto.congr' hentry ?_
  rw [← NNReal.tendsto_coe]
  push_cast
  have hz : ∀ x : ℝ, Tendsto (fun N : ℕ => x / N) atTop (𝓝 0) := fun x => tendsto_const_div_atTop_nhds_zero_nat x
  have hq := (t1.add (hz add)).div (t0.add (hz (D.dims v * add))) (by simpa using h0')
  have hlim : ((D.pr (D.pars v ++ [v]) y : ℝ) + 0) / ((D.pr (D.pars v) y : ℝ) + 0) = ((D.cond v).val ((D.pars v ++ [v]).map y) : ℝ) := by
    rw [hprow, add_zero, add_zero, NNReal.coe_mul, mul_div_cancel_right₀ _ h0']
  rw [hlim] at hq
  refine hq.congr' ?_
  filter_upwards [eventually_gt_atTop 0] with N hN
  have : (N : ℝ) ≠ 0 := by exact_mod_cast hN.ne'
  simp only [Pi.div_apply]
  rw [← add_div, ← add_div, div_div_div_cancel_right₀ this]

example : ∃ (Ω : Type) (_ : MeasurableSpace Ω) (μ : Measure Ω) (fit : Ω → ℕ → DiscreteDAG ℕ), μ ≠ 0 ∧
    ∀ᵐ ω ∂μ, Tendsto (fun N => ((fit ω N).cond 0).val (((fit ω N).pars 0 ++ [0]).map fun _ => 1)) atTop
      (𝓝 (((Sample.natParity {0, 1, 2} {(0, 1), (1, 2)}).cond 0).val
        (((Sample.natParity {0, 1, 2} {(0, 1), (1, 2)}).pars 0 ++ [0]).map fun _ => 1))) := by
  obtain ⟨Ω, m, μ, u, hμ, hu⟩ := uniformNoise_exists (ℕ × ℕ)
  have hP := Sample.natParity_proper (nodes := {0, 1, 2}) (arcs := {(0, 1), (1, 2)}) (by decide)
  obtain ⟨row, fit, -, -, h⟩ := C264_fit_consistent_partial hP (fun v _ => rfl) Sample.order (n := 3) (ix := id)
    (by simp [Sample.natParity, Sample.natGraph]) (fun _ _ => rfl) hu Sample.order Sample.order Sample.order Sample.order Sample.order 1
  refine ⟨Ω, m, μ, fit, NeZero.ne μ, h.mono fun ω hω => hω 0 (by simp [Sample.natParity, Sample.natGraph]) _
    (by simp [Sample.natParity, DiscreteDAG.dims]) ?_⟩
  have h0 : (Sample.natParity {0, 1, 2} {(0, 1), (1, 2)}).pars 0 = [] :=
    List.eq_nil_iff_forall_not_mem.2 fun p hp => by
      have := (hP.pars_iff 0 (by simp [Sample.natParity, Sample.natGraph]) p).1 hp
      simp [Sample.natParity, Sample.natGraph] at this
  rw [h0, DiscreteDAG.pr_nil hP]
  exact one_ne_zero

/-- C264, violated: a sample of a `DiscreteDAG` with the single node 1 has one column, and `fit` looks for column 1. -/
theorem C264_violated : ∃ D : DiscreteDAG ℕ, D.Proper ∧ D.Counting ∧ D.dag.nodes = {1} ∧
    ∀ o ot oa op oz, ∀ N, ∀ data : Fin N → ℕ → ℕ, (fitCounts o ot oa op oz D.dag 1 data (some D.alph) 0).run = some (.error .index) := by
  refine ⟨Sample.natParity {1} ∅, Sample.natParity_proper (by simp), fun _ _ => rfl, rfl, fun o ot oa op oz N data => ?_⟩
  obtain ⟨t, ht1, ht⟩ := DAG.topologicalSort_ok (Sample.natParity {1} ∅).dag ot (Sample.natGraph_valid (by simp))
  have ht0 : t = [1] := by
    refine List.perm_singleton.1 ((List.perm_ext_iff_of_nodup ht.nodup (by simp)).2 fun u => ?_)
    rw [ht.mem_iff]
    simp [Sample.natParity, Sample.natGraph]
  subst ht0
  rw [fitCounts]
  dsimp only
  rw [LawfulMonad.pure_bind, DiscreteDAG.run_bind_ok ht1]
  rfl

end Props
