import Verif.Spec.NormalRows
import Verif.Proof.LeastSquaresLimit
import Mathlib.Probability.StrongLaw
import Mathlib.Probability.Independence.Integration

/-! # The law of large numbers for products of normal noise -/

namespace Spec

set_option linter.unusedSectionVars false

open MeasureTheory ProbabilityTheory Filter Topology

variable {n : ℕ} {Ω : Type} [MeasurableSpace Ω] {μ : Measure Ω} [IsProbabilityMeasure μ] {b v : Fin n → ℝ} {e : ℕ × Fin n → Ω → ℝ}

namespace NormalRows

variable (he : NormalRows μ b v e)
include he

theorem memLp (p : ℕ × Fin n) : MemLp (e p) 2 μ := by
  have h := memLp_id_gaussianReal' (μ := b p.2) (v := (v p.2).toNNReal) 2 (by norm_num)
  rw [← he.law p] at h
  exact h.comp_of_map (he.meas p).aemeasurable

theorem integrable (p : ℕ × Fin n) : Integrable (e p) μ := (he.memLp p).integrable (by norm_num)

theorem mean (p : ℕ × Fin n) : ∫ ω, e p ω ∂μ = b p.2 := by
  have h := integral_id_gaussianReal (μ := b p.2) (v := (v p.2).toNNReal)
  rw [← he.law p, integral_map (he.meas p).aemeasurable (by fun_prop)] at h
  exact h

theorem square (hv : ∀ k, 0 ≤ v k) (p : ℕ × Fin n) : ∫ ω, (e p ω - b p.2) * (e p ω - b p.2) ∂μ = v p.2 := by
  have h := variance_fun_id_gaussianReal (μ := b p.2) (v := (v p.2).toNNReal)
  rw [← he.law p, variance_eq_integral aemeasurable_id', he.law p, integral_id_gaussianReal, ← he.law p,
    integral_map (he.meas p).aemeasurable (by fun_prop), Real.coe_toNNReal _ (hv _)] at h
  rw [← h]
  exact integral_congr_ae (ae_of_all _ fun ω => (sq _).symm)

theorem pair_law (i : ℕ) (k l : Fin n) : μ.map (fun ω => (e (i, k) ω, e (i, l) ω)) = μ.map (fun ω => (e (0, k) ω, e (0, l) ω)) := by
  by_cases hkl : k = l
  · subst hkl
    have h : ∀ i, μ.map (fun ω => (e (i, k) ω, e (i, k) ω)) = (μ.map (e (i, k))).map fun y => (y, y) := fun i => by
      rw [Measure.map_map (by fun_prop) (he.meas _)]; rfl
    rw [h, h, he.law, he.law]
  · have h : ∀ i, μ.map (fun ω => (e (i, k) ω, e (i, l) ω)) = (μ.map (e (i, k))).prod (μ.map (e (i, l))) := fun i =>
      (indepFun_iff_map_prod_eq_prod_map_map (he.meas _).aemeasurable (he.meas _).aemeasurable).1
        (he.indep.indepFun fun h => hkl (Prod.mk.inj h).2)
    rw [h, h, he.law, he.law, he.law, he.law]

theorem slln {F : ℝ × ℝ → ℝ} (hF : Measurable F) (k l : Fin n) (hi : Integrable (fun ω => F (e (0, k) ω, e (0, l) ω)) μ) :
    ∀ᵐ ω ∂μ, Tendsto (fun r : ℕ => (∑ i ∈ Finset.range r, F (e (i, k) ω, e (i, l) ω)) / r) atTop
      (𝓝 (∫ ω, F (e (0, k) ω, e (0, l) ω) ∂μ)) := by
  refine strong_law_ae_real (fun i ω => F (e (i, k) ω, e (i, l) ω)) hi ?_ ?_
  · intro i j hij
    have hne : ∀ k l : Fin n, ((i, k) : ℕ × Fin n) ≠ (j, l) := fun k l h => hij (Prod.mk.inj h).1
    exact (he.indep.indepFun_prodMk_prodMk he.meas (i, k) (i, l) (j, k) (j, l) (hne _ _) (hne _ _) (hne _ _) (hne _ _)).comp hF hF
  · intro i
    have hm : ∀ i, Measurable fun ω => (e (i, k) ω, e (i, l) ω) := fun i => (he.meas _).prodMk (he.meas _)
    have : IdentDistrib (fun ω => (e (i, k) ω, e (i, l) ω)) (fun ω => (e (0, k) ω, e (0, l) ω)) μ μ :=
      ⟨(hm i).aemeasurable, (hm 0).aemeasurable, he.pair_law i k l⟩
    exact this.comp hF

/-- The centred noise, with a constant. -/
theorem moments (hv : ∀ k, 0 ≤ v k) : ∀ᵐ ω ∂μ, ∀ p q : Option (Fin n),
    Tendsto (fun r => secondMoment (fun a (p : Option (Fin n)) => p.elim 1 fun k => e (a, k) ω - b k) r p q) atTop
      (𝓝 (if p = q then p.elim 1 v else 0)) := by
  have hint : ∀ k, Integrable (fun ω => e (0, k) ω - b k) μ := fun k => (he.integrable _).sub (integrable_const _)
  have hzero : ∀ k, ∫ ω, (e (0, k) ω - b k) ∂μ = 0 := fun k => by
    rw [integral_sub (he.integrable _) (integrable_const _), he.mean]; simp
  have h1 : ∀ k, ∀ᵐ ω ∂μ, Tendsto (fun r : ℕ => (∑ i ∈ Finset.range r, (e (i, k) ω - b k)) / r) atTop (𝓝 0) := fun k => by
    have := he.slln (F := fun y => y.1 - b k) (by fun_prop) k k (hint k)
    rwa [hzero] at this
  have h2 : ∀ k l, ∀ᵐ ω ∂μ, Tendsto (fun r : ℕ => (∑ i ∈ Finset.range r, (e (i, k) ω - b k) * (e (i, l) ω - b l)) / r) atTop
      (𝓝 (if k = l then v k else 0)) := fun k l => by
    have hp : Integrable (fun ω => (e (0, k) ω - b k) * (e (0, l) ω - b l)) μ :=
      ((he.memLp (0, k)).sub (memLp_const _)).integrable_mul ((he.memLp (0, l)).sub (memLp_const _))
    have := he.slln (F := fun y => (y.1 - b k) * (y.2 - b l)) (by fun_prop) k l hp
    have hE : ∫ ω, (e (0, k) ω - b k) * (e (0, l) ω - b l) ∂μ = if k = l then v k else 0 := by
      split_ifs with hkl
      · subst hkl; exact he.square hv (0, k)
      · have hi : IndepFun (fun ω => e (0, k) ω - b k) (fun ω => e (0, l) ω - b l) μ :=
          (he.indep.indepFun fun h : ((0, k) : ℕ × Fin n) = (0, l) => hkl (Prod.mk.inj h).2).comp
            (φ := fun y => y - b k) (ψ := fun y => y - b l) (by fun_prop) (by fun_prop)
        rw [hi.integral_fun_mul_eq_mul_integral (hint k).aestronglyMeasurable (hint l).aestronglyMeasurable, hzero, zero_mul]
    rwa [hE] at this
  filter_upwards [ae_all_iff.2 h1, ae_all_iff.2 fun k => ae_all_iff.2 (h2 k)] with ω g1 g2
  intro p q
  unfold secondMoment
  rcases p with _ | k <;> rcases q with _ | l
  · simp only [Option.elim, if_true, mul_one, Finset.sum_const, Finset.card_range, nsmul_eq_mul]
    refine (tendsto_const_nhds (x := (1 : ℝ))).congr' ?_
    filter_upwards [eventually_gt_atTop 0] with r hr
    have : (r : ℝ) ≠ 0 := by exact_mod_cast hr.ne'
    rw [div_self this]
  · simpa using g1 l
  · simpa using g1 k
  · simpa using g2 k l

end NormalRows

end Spec
