import Verif.Spec.DiscreteSample
import Mathlib.Probability.StrongLaw
import Mathlib.Probability.Independence.InfinitePi

/-! # The law of large numbers for functions of blocks of uniform noise -/

namespace Spec

open MeasureTheory ProbabilityTheory Filter Topology

variable {Ω : Type} [MeasurableSpace Ω] {μ : Measure Ω} [IsProbabilityMeasure μ]

theorem UniformNoise.block {u : ℕ × ℕ → Ω → ℝ} (hu : UniformNoise μ u) (i : ℕ) : UniformNoise μ fun v => u (i, v) where
  meas v := hu.meas _
  range v := hu.range _
  indep := hu.indep.precomp (g := fun v => (i, v)) fun a b h => (Prod.mk.inj h).2
  law v := hu.law _

theorem slln_blocks {V : Finset ℕ} {u : ℕ × ℕ → Ω → ℝ} (hu : UniformNoise μ u) {F : (V → ℝ) → ℝ} (hF : Measurable F) {C : ℝ}
    (hb : ∀ z, |F z| ≤ C) : ∀ᵐ ω ∂μ, Tendsto (fun n : ℕ => (∑ i ∈ Finset.range n, F fun v => u (i, v) ω) / n) atTop
      (𝓝 (∫ ω, F (fun v => u (0, v) ω) ∂μ)) := by
  have hm : ∀ i, Measurable fun ω (v : V) => u (i, v) ω := fun i => measurable_pi_lambda _ fun v => hu.meas _
  refine strong_law_ae_real (fun i ω => F fun v => u (i, v) ω) ?_ ?_ ?_
  · exact Integrable.of_bound (hF.comp (hm 0)).aestronglyMeasurable C (ae_of_all _ fun ω => hb _)
  · intro i j hij
    have h := hu.indep.indepFun_finset (({i} : Finset ℕ) ×ˢ V) (({j} : Finset ℕ) ×ˢ V) (by
      rw [Finset.disjoint_left]
      intro p hp hq
      simp only [Finset.mem_product, Finset.mem_singleton] at hp hq
      exact hij (hp.1.symm.trans hq.1)) hu.meas
    have hφ : ∀ k, Measurable fun (z : (({k} : Finset ℕ) ×ˢ V : Finset (ℕ × ℕ)) → ℝ) => F fun v : V => z ⟨(k, v), by simp⟩ := fun k =>
      hF.comp (measurable_pi_lambda _ fun v => measurable_pi_apply _)
    exact h.comp (hφ i) (hφ j)
  · intro i
    have hl : ∀ k, μ.map (fun ω (v : V) => u (k, v) ω) = Measure.pi fun _ : V => volume.restrict (Set.Ico (0 : ℝ) 1) := by
      intro k
      have h1 : iIndepFun (fun (v : V) => u (k, v)) μ :=
        hu.indep.precomp (g := fun v : V => (k, (v : ℕ))) fun a b h => Subtype.ext (Prod.mk.inj h).2
      rw [(iIndepFun_iff_map_fun_eq_pi_map fun v => (hu.meas _).aemeasurable).1 h1]
      congr 1
      funext v
      exact hu.law _
    have : IdentDistrib (fun ω (v : V) => u (i, v) ω) (fun ω (v : V) => u (0, v) ω) μ μ :=
      ⟨(hm i).aemeasurable, (hm 0).aemeasurable, (hl i).trans (hl 0).symm⟩
    exact this.comp hF

/-- The average over the block of numbers `n k, ..., n (k + 1) - 1`. -/
theorem tendsto_block {f : ℕ → ℝ} {E : ℝ} (h : Tendsto (fun n : ℕ => (∑ i ∈ Finset.range n, f i) / n) atTop (𝓝 E)) (k : ℕ) :
    Tendsto (fun n : ℕ => (∑ r ∈ Finset.range n, f (n * k + r)) / n) atTop (𝓝 E) := by
  have hk : ∀ k : ℕ, Tendsto (fun n : ℕ => (∑ i ∈ Finset.range (n * k), f i) / n) atTop (𝓝 (k * E)) := by
    intro k
    rcases Nat.eq_zero_or_pos k with rfl | hk
    · simp
    · have h1 : Tendsto (fun n : ℕ => n * k) atTop atTop := tendsto_id.atTop_mul_const' hk
      have h2 := (h.comp h1).const_mul (k : ℝ)
      refine h2.congr fun n => ?_
      have hk' : (k : ℝ) ≠ 0 := by exact_mod_cast hk.ne'
      simp only [Function.comp, Nat.cast_mul]
      rcases eq_or_ne (n : ℝ) 0 with hn | hn
      · simp [hn]
      · field_simp
  have h3 := (hk (k + 1)).sub (hk k)
  have h4 : ((k + 1 : ℕ) : ℝ) * E - k * E = E := by push_cast; ring
  rw [h4] at h3
  refine h3.congr fun n => ?_
  rw [← sub_div, Nat.mul_succ, Finset.sum_range_add, add_sub_cancel_left]

end Spec
