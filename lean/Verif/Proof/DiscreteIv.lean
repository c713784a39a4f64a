import Verif.Proof.DiscreteSample
import Verif.Proof.Queries
import Mathlib.MeasureTheory.Integral.Lebesgue.Basic
import Mathlib.MeasureTheory.Integral.Lebesgue.Add

/-! # Interventions and weights of `DiscreteDAG` -/

set_option linter.unusedSectionVars false

namespace Model.DiscreteDAG

open Spec
open scoped NNReal ENNReal

variable {α : Type} [DecidableEq α] {D : DiscreteDAG α}

theorem new_ok (o : SetOrder (Option α) α) (oa : SetOrder Bool (α × α)) {nodes : Finset α} {arcs : Finset (α × α)}
    (h : Acyclic fun a b => (a, b) ∈ arcs) (hn : ∀ a ∈ arcs, a.1 ∈ nodes ∧ a.2 ∈ nodes) {cond : α → Tensor ℝ≥0} {pars : α → List α}
    {alph : α → List ℤ} (hs : ∀ v ∈ nodes, (cond v).shape = (pars v ++ [v]).map fun p => (alph p).length) :
    ∃ G : DAG α, new o oa nodes arcs cond pars alph = some (.ok ⟨G, cond, pars, alph⟩) ∧ G.Valid ∧ G.nodes = nodes ∧ G.arcs = arcs := by
  obtain ⟨G, h1, h2, h3, h4⟩ := DAG.new_ok o oa nodes arcs h
  refine ⟨G, ?_, h2, ?_, h3⟩
  · rw [new, h1]
    exact if_pos hs
  · rw [h4]
    ext v
    simp only [Finset.mem_union, Finset.mem_image]
    constructor
    · rintro ((h | ⟨a, ha, rfl⟩) | ⟨a, ha, rfl⟩)
      · exact h
      · exact (hn a ha).1
      · exact (hn a ha).2
    · exact fun h => .inl (.inl h)

theorem hardInterventional_run (hD : D.Proper) (o : SetOrder (Option α) α) (oa : SetOrder Bool (α × α)) {s : α}
    (hs : s ∈ D.dag.nodes) (hnd : (D.alph s).Nodup) {c : ℕ} (hc : c < D.dims s) :
    ∃ D', D.hardInterventional o oa s ((D.alph s).getD c 0) = some (.ok D') ∧ D'.dag.nodes = D.dag.nodes ∧
      (∀ a, a ∈ D'.dag.arcs ↔ a ∈ D.dag.arcs ∧ a.2 ≠ s) ∧ D'.alph = D.alph ∧ D'.Proper ∧
      ∀ y : α → ℕ, (∀ v ∈ D.dag.nodes, y v < D.dims v) → D'.law y = D.lawDo (fun v => if v = s then some c else none) y := by
  have hval : ∀ i < D.dims s, (pointMass (D.alph s) ((D.alph s).getD c 0)).val [i] = if i = c then 1 else 0 := fun i hi => by
    change (if (D.alph s).getD i 0 = (D.alph s).getD c 0 then (1 : ℝ≥0) else 0) = _
    refine if_congr ?_ rfl rfl
    rw [List.getD_eq_getElem?_getD, List.getD_eq_getElem?_getD, List.getElem?_eq_getElem hi, List.getElem?_eq_getElem hc]
    exact hnd.getElem_inj_iff
  have hac : Acyclic fun a b => (a, b) ∈ D.dag.arcs.filter fun a => a.2 ≠ s := fun v hv =>
    hD.valid.acyclic v (Relation.TransGen.mono (fun a b h => (Finset.mem_filter.1 h).1) _ _ hv)
  have harc : ∀ a ∈ D.dag.arcs.filter fun a => a.2 ≠ s, a.1 ∈ D.dag.nodes ∧ a.2 ∈ D.dag.nodes := fun a ha =>
    ⟨hD.valid.fst_mem _ _ (Finset.mem_filter.1 ha).1, hD.valid.snd_mem _ _ (Finset.mem_filter.1 ha).1⟩
  obtain ⟨G, h1, h2, h3, h4⟩ := new_ok o oa (nodes := D.dag.nodes) (arcs := D.dag.arcs.filter fun a => a.2 ≠ s) (cond :=
    fun v => if v ≠ s then D.cond v else pointMass (D.alph s) ((D.alph s).getD c 0))
    (pars := fun v => if v = s then [] else D.pars v) (alph := D.alph) hac harc fun v hv => by
      by_cases h : v = s
      · simp [h, pointMass]
      · simp only [ne_eq, h, not_false_eq_true, if_true, if_false]
        exact hD.shape v hv
  · refine ⟨_, h1, h3, fun a => by simp [h4], rfl, ⟨⟨h2, fun v hv => ?_, fun v hv u => ?_, fun v hv => ?_⟩, fun v hv x hx => ?_⟩,
      fun y hy => ?_⟩
    · dsimp only
      split_ifs
      · simp
      · exact hD.nodup v (h3 ▸ hv)
    · dsimp only
      rw [h4]
      split_ifs with h
      · simp [h]
      · rw [hD.pars_iff v (h3 ▸ hv)]; simp [h]
    · by_cases h : v = s
      · subst h; simp [dims, pointMass]
      · simp only [ne_eq, h, not_false_eq_true, if_true, if_false]
        exact hD.shape v (h3 ▸ hv)
    · by_cases h : v = s
      · subst h
        simp only [if_true, List.map_nil, List.nil_append, ne_eq, not_true_eq_false, if_false]
        change ∑ i ∈ Finset.range (D.dims v), _ = _
        rw [Finset.sum_congr rfl fun i hi => hval i (Finset.mem_range.1 hi), Finset.sum_ite_eq', if_pos (Finset.mem_range.2 hc)]
      · simp only [ne_eq, h, not_false_eq_true, if_true, if_false] at hx ⊢
        exact hD.total v (h3 ▸ hv) x hx
    · classical
      have key : ∀ v ∈ D.dag.nodes, v ≠ s → ((if v ≠ s then D.cond v else pointMass (D.alph s) ((D.alph s).getD c 0) : Tensor ℝ≥0).val
          (((if v = s then [] else D.pars v) ++ [v]).map y)) = (D.cond v).val ((D.pars v ++ [v]).map y) := fun v _ h => by
        rw [if_pos h, if_neg h]
      rw [law, joint, lawDo]
      dsimp only
      rw [h3, ← Finset.mul_prod_erase _ _ hs, Finset.prod_congr rfl fun v hv =>
        key v (Finset.mem_of_mem_erase hv) (Finset.ne_of_mem_erase hv)]
      have hf : D.dag.nodes.erase s = D.dag.nodes.filter fun v => (if v = s then some c else none) = none := by
        ext v
        simp only [Finset.mem_erase, Finset.mem_filter]
        by_cases hv : v = s
        · simp [hv]
        · simp [hv]
      simp only [ne_eq, not_true_eq_false, if_false, if_true, List.nil_append, List.map_singleton, hval _ (hy s hs)]
      by_cases hys : y s = c
      · rw [if_pos hys, one_mul, if_pos, hf]
        intro v _ c' hc'
        by_cases hv : v = s
        · rw [if_pos hv] at hc'
          rw [hv, hys]
          exact Option.some.inj hc'
        · simp [hv] at hc'
      · rw [if_neg hys, zero_mul, if_neg]
        exact fun h => hys (h s hs c (by simp))

section

open MeasureTheory

variable {Ω : Type} [MeasurableSpace Ω] {μ : Measure Ω} [IsProbabilityMeasure μ]

/-- The expectation of a function of the assignment that is drawn. -/
theorem lintegral_drawn (hD : D.Tabled) (ot : SetOrder (Option α) α) {u : α → Ω → ℝ} (hu : UniformNoise μ u) (fixed : α → Option ℕ)
    {ix : α → ℕ} {row : Ω → ℕ → ℤ} (h : ∀ ω, ∀ v ∈ D.dag.nodes, D.Filled fixed (fun v => u v ω) ix (row ω) v) (F : Ω → ℝ≥0∞)
    (g : (α → ℕ) → ℝ≥0∞) (hF : ∀ ω y, (∀ v ∈ D.dag.nodes, row ω (ix v) = y v) → F ω = g y) :
    ∫⁻ ω, F ω ∂μ = ∑ y ∈ assignments D.dag.nodes D.dims, D.lawDo fixed y * g y := by
  classical
  have hpt : F = fun ω => ∑ y ∈ assignments D.dag.nodes D.dims,
      {ω | ∀ v ∈ D.dag.nodes, D.Draws fixed (fun v => u v ω) y v}.indicator (fun _ => g y) ω := by
    funext ω
    set y0 : α → ℕ := fun v => if v ∈ D.dag.nodes then (row ω (ix v)).toNat else 0 with hy0
    have hy0m : y0 ∈ assignments D.dag.nodes D.dims :=
      mem_assignments.2 ⟨fun v hv => by rw [hy0]; simpa [hv] using (h ω v hv).2.1, fun v hv => by rw [hy0]; simp [hv]⟩
    have hrow : ∀ v ∈ D.dag.nodes, row ω (ix v) = y0 v := fun v hv => by
      rw [hy0]; simpa [hv] using (h ω v hv).1
    rw [Finset.sum_eq_single y0]
    · rw [Set.indicator_of_mem (s := {ω | ∀ v ∈ D.dag.nodes, D.Draws fixed (fun v => u v ω) y0 v})
        ((Filled.iff hD ot (h ω) y0).1 hrow), hF ω y0 hrow]
    · intro y hy hne
      refine Set.indicator_of_notMem (fun hd => hne ?_) _
      have := (Filled.iff hD ot (h ω) y).2 hd
      funext v
      by_cases hv : v ∈ D.dag.nodes
      · have h1 := this v hv
        rw [hrow v hv] at h1
        exact_mod_cast h1.symm
      · rw [(mem_assignments.1 hy).2 v hv, (mem_assignments.1 hy0m).2 v hv]
    · exact fun hn => absurd hy0m hn
  rw [hpt, lintegral_finsetSum _ fun y _ => measurable_const.indicator (draws_measurable hu fixed y)]
  refine Finset.sum_congr rfl fun y hy => ?_
  rw [lintegral_indicator_const (draws_measurable hu fixed y), draws_measure hD hu fixed (mem_assignments.1 hy).1, mul_comm]

end

end Model.DiscreteDAG
