import Verif.Model.Importance
import Verif.Proof.Slln
import Verif.Props.DiscreteDraws

/-! # Importance sampling converges -/

namespace Model.DiscreteDAG

open Spec MeasureTheory ProbabilityTheory Filter Topology
open scoped NNReal ENNReal

section Points

variable {α : Type} [DecidableEq α] {D : DiscreteDAG α}

open scoped Classical in
/-- A function of a filled row, as a sum over all assignments. -/
theorem drawn_sum {M : Type} [AddCommMonoid M] (hD : D.Tabled) (ot : SetOrder (Option α) α) {fixed : α → Option ℕ} {x : α → ℝ} {ix : α → ℕ}
    {row : ℕ → ℤ} (h : ∀ v ∈ D.dag.nodes, D.Filled fixed x ix row v) {F : M} {g : (α → ℕ) → M}
    (hF : ∀ y : α → ℕ, (∀ v ∈ D.dag.nodes, row (ix v) = y v) → F = g y) :
    F = ∑ y ∈ assignments D.dag.nodes D.dims, if ∀ v ∈ D.dag.nodes, D.Draws fixed x y v then g y else 0 := by
  set y0 : α → ℕ := fun v => if v ∈ D.dag.nodes then (row (ix v)).toNat else 0 with hy0
  have hy0m : y0 ∈ assignments D.dag.nodes D.dims :=
    mem_assignments.2 ⟨fun v hv => by rw [hy0]; simpa [hv] using (h v hv).2.1, fun v hv => by rw [hy0]; simp [hv]⟩
  have hrow : ∀ v ∈ D.dag.nodes, row (ix v) = y0 v := fun v hv => by
    rw [hy0]; simpa [hv] using (h v hv).1
  rw [Finset.sum_eq_single y0]
  · rw [if_pos ((Filled.iff hD ot h y0).1 hrow), hF y0 hrow]
  · intro y hy hne
    refine if_neg fun hd => hne ?_
    have := (Filled.iff hD ot h y).2 hd
    funext v
    by_cases hv : v ∈ D.dag.nodes
    · have h1 := this v hv
      rw [hrow v hv] at h1
      exact_mod_cast h1.symm
    · rw [(mem_assignments.1 hy).2 v hv, (mem_assignments.1 hy0m).2 v hv]
  · exact fun hn => absurd hy0m hn

end Points

/-- What `weighted_samples` returns for one row. -/
noncomputable def weightedRow (D : DiscreteDAG ℕ) (ot : SetOrder (Option ℕ) ℕ) (n : ℕ) (ix : ℕ → ℕ) (N vals : List ℕ) (x : ℕ → ℝ) :
    (ℕ → ℤ) × List ℝ≥0 :=
  match (D.weightedSamples ot n ix x N vals).run with
  | some (.ok r) => r
  | _ => (fun _ => 0, [])

variable {Ω : Type} [MeasurableSpace Ω] {μ : Measure Ω} [IsProbabilityMeasure μ]

section Rows

variable {D : DiscreteDAG ℕ} (hD : D.Tabled) (hA : D.Counting) (ot : SetOrder (Option ℕ) ℕ) {n : ℕ}
    {ix : ℕ → ℕ} (hn : ∀ v ∈ D.dag.nodes, v < n) (hix : ∀ v ∈ D.dag.nodes, ix v = v) {N vals : List ℕ} (hN : N.Nodup)
    (hNn : ∀ v ∈ N, v ∈ D.dag.nodes) (hlen : N.length = vals.length) (hval : ∀ v ∈ N, vals.getD (N.idxOf v) 0 < D.dims v)

include hD hA hn hix hN hNn hlen hval

theorem weightedRow_spec {x : ℕ → ℝ} (hx : ∀ v, x v ∈ Set.Ico (0 : ℝ) 1) :
    (D.weightedSamples ot n ix x N vals).run = some (.ok (D.weightedRow ot n ix N vals x)) ∧
      (∀ v ∈ D.dag.nodes, D.Filled (fixAt N.toFinset fun v => vals.getD (N.idxOf v) 0) x ix (D.weightedRow ot n ix N vals x).1 v) ∧
      (D.weightedRow ot n ix N vals x).2 =
        N.map fun v => D.rowAt v (fun w => ((D.weightedRow ot n ix N vals x).1 (ix w)).toNat) (vals.getD (N.idxOf v) 0) := by
  obtain ⟨row, w, h1, h2, h3⟩ := weightedSamples_run hD hA ot hn hix hx hN hNn hlen hval
  have : D.weightedRow ot n ix N vals x = (row, w) := by rw [weightedRow, h1]
  rw [this]
  exact ⟨h1, h2, h3⟩

/-- The averages of a function of the rows, weighted, converge to its expectation on the event. -/
theorem weighted_slln {u : ℕ × ℕ → Ω → ℝ} (hu : UniformNoise μ u) (g : (ℕ → ℕ) → ℝ≥0)
    (hg : ∀ y z : ℕ → ℕ, (∀ v ∈ D.dag.nodes, y v = z v) → g y = g z) : ∀ᵐ ω ∂μ, Tendsto (fun m : ℕ =>
      (∑ i ∈ Finset.range m, (((D.weightedRow ot n ix N vals fun v => u (i, v) ω).2.prod *
        g (fun v => ((D.weightedRow ot n ix N vals fun v => u (i, v) ω).1 (ix v)).toNat) : ℝ≥0) : ℝ)) / m) atTop
      (𝓝 ((prob D.dag.nodes D.dims (fun y => D.law y * g y) fun y => ∀ v ∈ N, y v = vals.getD (N.idxOf v) 0 : ℝ≥0) : ℝ)) := by
  classical
  set fixed := fixAt N.toFinset fun v => vals.getD (N.idxOf v) 0 with hfixed
  set X : (ℕ → ℝ) → ℝ≥0 := fun x => (D.weightedRow ot n ix N vals x).2.prod *
    g (fun v => ((D.weightedRow ot n ix N vals x).1 (ix v)).toNat) with hX
  set h : (ℕ → ℕ) → ℝ≥0 := fun y => (N.map fun v => D.rowAt v y (vals.getD (N.idxOf v) 0)).prod * g y with hh
  set F : (D.dag.nodes → ℝ) → ℝ := fun z => ∑ y ∈ assignments D.dag.nodes D.dims,
    if ∀ v ∈ D.dag.nodes, D.Draws fixed (fun v => if hv : v ∈ D.dag.nodes then z ⟨v, hv⟩ else 0) y v then (h y : ℝ) else 0 with hFdef
  have hXF : ∀ x : ℕ → ℝ, (∀ v, x v ∈ Set.Ico (0 : ℝ) 1) → (X x : ℝ) = F fun v => x v := by
    intro x hx
    obtain ⟨-, h2, h3⟩ := weightedRow_spec hD hA ot hn hix hN hNn hlen hval hx
    have := drawn_sum hD ot h2 (F := (X x : ℝ)) (g := fun y => (h y : ℝ)) fun y hy => by
      have hz : ∀ v ∈ D.dag.nodes, ((D.weightedRow ot n ix N vals x).1 (ix v)).toNat = y v := fun v hv => by rw [hy v hv]; simp
      simp only [hX, hh]
      rw [hg _ y hz, h3]
      congr 3
      refine List.map_congr_left fun v hv => congrFun (rowAt_congr fun p hp => hz p ?_) _
      exact hD.valid.fst_mem _ _ (hD.pars_sub v (hNn v hv) p hp)
    rw [this]
    refine Finset.sum_congr rfl fun y _ => ?_
    congr 1
    refine propext (forall₂_congr fun v hv => ?_)
    unfold Draws
    beta_reduce
    rw [dif_pos hv]
  have hFm : Measurable F := by
    refine Finset.measurable_sum _ fun y _ => Measurable.ite ?_ measurable_const measurable_const
    have : {z : D.dag.nodes → ℝ | ∀ v ∈ D.dag.nodes, D.Draws fixed (fun v => if hv : v ∈ D.dag.nodes then z ⟨v, hv⟩ else 0) y v} =
        ⋂ v ∈ D.dag.nodes, {z | D.Draws fixed (fun v => if hv : v ∈ D.dag.nodes then z ⟨v, hv⟩ else 0) y v} := by
      ext z; simp
    rw [this]
    refine D.dag.nodes.measurableSet_biInter fun v hv => ?_
    have h2 : {z : D.dag.nodes → ℝ | D.Draws fixed (fun v => if hv : v ∈ D.dag.nodes then z ⟨v, hv⟩ else 0) y v} =
        {z | ∀ c, fixed v = some c → y v = c} ∩
          {z | fixed v = none → Drawn (fun i => (D.rowAt v y i : ℝ)) (y v) (z ⟨v, hv⟩)} := by
      ext z
      simp only [Draws, dif_pos hv, Set.mem_inter_iff, Set.mem_ofPred_eq]
    rw [h2]
    refine (MeasurableSet.const _).inter ?_
    by_cases hf : fixed v = none
    · simp only [hf, true_implies]
      have hz : Measurable fun z : D.dag.nodes → ℝ => z ⟨v, hv⟩ := measurable_pi_apply _
      exact hz (measurableSet_Ico (a := ∑ j ∈ Finset.range (y v), (D.rowAt v y j : ℝ)))
    · simp [hf]
  have hFb : ∀ z, |F z| ≤ ∑ y ∈ assignments D.dag.nodes D.dims, (h y : ℝ) := by
    intro z
    rw [abs_of_nonneg (Finset.sum_nonneg fun y _ => by split_ifs; exacts [(h y).2, le_rfl])]
    refine Finset.sum_le_sum fun y _ => ?_
    split_ifs
    exacts [le_rfl, (h y).2]
  clear_value F
  have hE : ∫ ω, F (fun v => u (0, v) ω) ∂μ =
      ((prob D.dag.nodes D.dims (fun y => D.law y * g y) fun y => ∀ v ∈ N, y v = vals.getD (N.idxOf v) 0 : ℝ≥0) : ℝ) := by
    have h0 : (fun ω => F fun v => u (0, v) ω) = fun ω => (X (fun v => u (0, v) ω) : ℝ) := by
      funext ω
      exact (hXF (fun v => u (0, v) ω) fun v => hu.range (0, v) ω).symm
    have hmeas : Measurable fun ω => F fun v => u (0, v) ω := hFm.comp (measurable_pi_lambda _ fun v => hu.meas (0, (v : ℕ)))
    obtain ⟨row, w, h1, h2⟩ := Props.C133_weighted_samples_partial hD hA ot hn hix (hu.block 0) hN hNn hlen hval
    have h3 := h2 (fun y => (g y : ℝ≥0∞)) fun y z hyz => by rw [hg y z hyz]
    have h4 : ∀ ω, D.weightedRow ot n ix N vals (fun v => u (0, v) ω) = (row ω, w ω) := fun ω => by rw [weightedRow, h1]
    rw [integral_eq_lintegral_of_nonneg_ae (ae_of_all _ fun ω => by rw [congrFun h0 ω]; exact (X _).2) hmeas.aestronglyMeasurable]
    have h5 : ∫⁻ ω, ENNReal.ofReal (F fun v => u (0, v) ω) ∂μ = ∫⁻ ω, (w ω).prod * (g fun v => (row ω (ix v)).toNat) ∂μ := by
      refine lintegral_congr fun ω => ?_
      rw [congrFun h0 ω, ENNReal.ofReal_coe_nnreal, hX]
      simp only [h4 ω, ENNReal.coe_mul]
    rw [h5, h3, ← ENNReal.coe_toReal]
    congr 1
    rw [prob, prob, ENNReal.ofNNReal_finsetSum]
    exact Finset.sum_congr rfl fun y _ => (ENNReal.coe_mul _ _).symm
  filter_upwards [slln_blocks hu hFm hFb] with ω hω
  rw [hE] at hω
  refine hω.congr fun m => ?_
  congr 1
  exact Finset.sum_congr rfl fun i _ => (hXF (fun v => u (i, v) ω) fun v => hu.range (i, v) ω).symm

end Rows

end Model.DiscreteDAG
