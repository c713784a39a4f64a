import Verif.Proof.GaussMoments
import Verif.Spec.Density
import Mathlib.MeasureTheory.Measure.Lebesgue.Basic
import Mathlib.LinearAlgebra.Matrix.Block

/-! # The density of the solution of linear structural equations -/

namespace Model.Gauss

set_option linter.unusedSectionVars false

open Relation Spec MeasureTheory ProbabilityTheory

variable {n : ℕ}

theorem lintegral_pi_prod {n : ℕ} (f : Fin n → ℝ → ENNReal) (hf : ∀ i, Measurable (f i)) :
    ∫⁻ x : Fin n → ℝ, ∏ i, f i (x i) = ∏ i, ∫⁻ t, f i t := by
  induction n with
  | zero => simp [volume_pi]
  | succ n ih =>
    rw [← (volume_preserving_piFinSuccAbove (fun _ : Fin (n + 1) => ℝ) 0).symm.lintegral_comp_emb
      (MeasurableEquiv.measurableEmbedding _)]
    simp only [MeasurableEquiv.piFinSuccAbove_symm_apply, Fin.insertNthEquiv, Equiv.coe_fn_mk, Fin.prod_univ_succ,
      Fin.insertNth_zero, Fin.cons_zero, Fin.cons_succ]
    simp only [cast_eq]
    rw [Measure.volume_eq_prod, lintegral_prod_mul (f := f 0) (g := fun y : Fin n → ℝ => ∏ i, f i.succ (y i))]
    · rw [ih _ fun i => hf _]
    · exact (hf 0).aemeasurable
    · exact (Finset.measurable_prod _ fun i _ => (hf _).comp (measurable_pi_apply i)).aemeasurable

theorem pi_withDensity (f : Fin n → ℝ → ENNReal) (hf : ∀ i, Measurable (f i))
    (hp : ∀ i, SigmaFinite ((volume : Measure ℝ).withDensity (f i))) :
    Measure.pi (fun i => (volume : Measure ℝ).withDensity (f i)) =
      (volume : Measure (Fin n → ℝ)).withDensity fun x => ∏ i, f i (x i) := by
  refine (Measure.pi_eq fun s hs => ?_)
  rw [withDensity_apply _ (MeasurableSet.univ_pi hs), ← lintegral_indicator (MeasurableSet.univ_pi hs)]
  have h1 : ∀ x : Fin n → ℝ, (Set.univ.pi s).indicator (fun x => ∏ i, f i (x i)) x =
      ∏ i, (s i).indicator (f i) (x i) := by
    intro x
    by_cases hx : x ∈ Set.univ.pi s
    · rw [Set.indicator_of_mem hx]
      exact Finset.prod_congr rfl fun i _ => (Set.indicator_of_mem (hx i trivial) _).symm
    · rw [Set.indicator_of_notMem hx]
      simp only [Set.mem_pi, Set.mem_univ, forall_const, not_forall] at hx
      obtain ⟨i, hi⟩ := hx
      exact (Finset.prod_eq_zero (Finset.mem_univ i) (Set.indicator_of_notMem hi _)).symm
  simp only [h1]
  rw [lintegral_pi_prod _ fun i => (hf i).indicator (hs i)]
  exact Finset.prod_congr rfl fun i _ => by rw [lintegral_indicator (hs i), withDensity_apply _ (hs i)]

/-- Number of ancestors. -/
theorem exists_rank {A : Matrix (Fin n) (Fin n) ℝ} (hA : AcyclicWeights A) : ∃ r : Fin n → ℕ, ∀ i j, A i j ≠ 0 → r i < r j := by
  classical
  refine ⟨fun j => (Finset.univ.filter fun i => TransGen (fun a b => A a b ≠ 0) i j).card, fun i j hij => ?_⟩
  apply Finset.card_lt_card
  refine Finset.ssubset_iff_of_subset (fun k hk => ?_) |>.2 ⟨i, ?_, ?_⟩
  · rw [Finset.mem_filter] at hk ⊢
    exact ⟨hk.1, hk.2.tail hij⟩
  · rw [Finset.mem_filter]
    exact ⟨Finset.mem_univ _, .single hij⟩
  · rw [Finset.mem_filter]
    exact fun h => hA i h.2

theorem det_one_sub {A : Matrix (Fin n) (Fin n) ℝ} (hA : AcyclicWeights A) : (1 - A).det = 1 := by
  obtain ⟨r, hr⟩ := exists_rank hA
  have hb : Matrix.BlockTriangular (1 - A) r := by
    intro i j hij
    have h1 : A i j = 0 := by
      by_contra h
      exact lt_asymm (hr i j h) hij
    have h2 : i ≠ j := fun e => by rw [e] at hij; exact lt_irrefl _ hij
    simp [h1, h2]
  rw [hb.det]
  refine Finset.prod_eq_one fun a _ => ?_
  have : (1 - A).toSquareBlock r a = 1 := by
    ext ⟨i, hi⟩ ⟨j, hj⟩
    have h1 : A i j = 0 := by
      by_contra h
      have := hr i j h
      rw [hi, hj] at this
      exact lt_irrefl _ this
    simp [Matrix.toSquareBlock_def, h1, Matrix.one_apply]
  rw [this, Matrix.det_one]

variable {Ω : Type} [MeasurableSpace Ω] {μ : Measure Ω} [IsProbabilityMeasure μ]

/-- A linear map of determinant ±1 takes `x` to independent variables with densities `f j`. -/
theorem linear_density {B : Matrix (Fin n) (Fin n) ℝ} (hB : |B.det| = 1) {e x : Fin n → Ω → ℝ} (he : ∀ k, Measurable (e k))
    (hi : iIndepFun e μ) {f : Fin n → ℝ → ENNReal} (hf : ∀ k, Measurable (f k))
    (hl : ∀ k, μ.map (e k) = (volume : Measure ℝ).withDensity (f k)) (hx : ∀ ω j, ∑ i, B j i * x i ω = e j ω) :
    μ.map (fun ω j => x j ω) = volume.withDensity fun y => ∏ j, f j (∑ i, B j i * y i) := by
  have hprob : ∀ k, IsProbabilityMeasure ((volume : Measure ℝ).withDensity (f k)) := fun k => by
    rw [← hl k]; exact Measure.isProbabilityMeasure_map (he k).aemeasurable
  have hlaw : μ.map (fun ω i => e i ω) = (volume : Measure (Fin n → ℝ)).withDensity fun y => ∏ i, f i (y i) := by
    rw [(iIndepFun_iff_map_fun_eq_pi_map fun i => (he i).aemeasurable).1 hi]
    simp only [hl]
    exact pi_withDensity f hf fun i => inferInstance
  let T : (Fin n → ℝ) → (Fin n → ℝ) := Matrix.toLin' B
  have hTm : Measurable T := (LinearMap.continuous_of_finiteDimensional _).measurable
  have hT : ∀ y j, T y j = ∑ i, B j i * y i := fun y j => rfl
  let S : (Fin n → ℝ) → (Fin n → ℝ) := Matrix.toLin' B⁻¹
  have hSm : Measurable S := (LinearMap.continuous_of_finiteDimensional _).measurable
  have hne : B.det ≠ 0 := fun h => by rw [h] at hB; simp at hB
  have hu : IsUnit B.det := isUnit_iff_ne_zero.2 hne
  have hST : ∀ y, S (T y) = y := fun y => by
    simp only [S, T, Matrix.toLin'_apply, Matrix.mulVec_mulVec, Matrix.nonsing_inv_mul _ hu, Matrix.one_mulVec]
  have hTS : ∀ y, T (S y) = y := fun y => by
    simp only [S, T, Matrix.toLin'_apply, Matrix.mulVec_mulVec, Matrix.mul_nonsing_inv _ hu, Matrix.one_mulVec]
  have hSp : MeasurePreserving S volume volume := by
    refine ⟨hSm, ?_⟩
    have hd : |B⁻¹.det⁻¹| = 1 := by rw [Matrix.det_nonsing_inv, Ring.inverse_eq_inv', inv_inv, hB]
    have hne' : B⁻¹.det ≠ 0 := by rw [Matrix.det_nonsing_inv, Ring.inverse_eq_inv']; exact inv_ne_zero hne
    have := Real.map_matrix_volume_pi_eq_smul_volume_pi hne'
    rw [hd, ENNReal.ofReal_one, one_smul] at this
    exact this
  have hxe : (fun ω j => x j ω) = fun ω => S fun i => e i ω := by
    funext ω
    have : T (fun j => x j ω) = fun i => e i ω := funext fun j => hx ω j
    rw [← this, hST]
  rw [hxe]
  change μ.map (S ∘ fun ω i => e i ω) = _
  rw [← Measure.map_map hSm (measurable_pi_lambda _ he), hlaw]
  ext s hs
  rw [Measure.map_apply hSm hs, withDensity_apply _ (hSm hs), withDensity_apply _ hs]
  have hg : Measurable fun y : Fin n → ℝ => ∏ j, f j (∑ i, B j i * y i) :=
    Finset.measurable_prod _ fun j _ => (hf j).comp ((measurable_pi_apply j).comp hTm)
  rw [← hSp.setLIntegral_comp_preimage hs hg]
  refine lintegral_congr fun y => ?_
  refine Finset.prod_congr rfl fun j _ => ?_
  rw [← hT, hTS]

/-- Independent noise with densities `f j`: the solution of the equations has the density `∏ f j (x j - Σ A i j x i)`. -/
theorem sem_density {A : Matrix (Fin n) (Fin n) ℝ} (hA : AcyclicWeights A) {e x : Fin n → Ω → ℝ} (he : ∀ k, Measurable (e k))
    (hi : iIndepFun e μ) {f : Fin n → ℝ → ENNReal} (hf : ∀ k, Measurable (f k))
    (hl : ∀ k, μ.map (e k) = (volume : Measure ℝ).withDensity (f k)) (hx : LinearSEM A e x) :
    μ.map (fun ω j => x j ω) = volume.withDensity fun y => ∏ j, f j (y j - ∑ i, A i j * y i) := by
  have hT : ∀ (y : Fin n → ℝ) j, ∑ i, (1 - A).transpose j i * y i = y j - ∑ i, A i j * y i := by
    intro y j
    simp only [Matrix.transpose_apply, Matrix.sub_apply, sub_mul, Finset.sum_sub_distrib, Matrix.one_apply, ite_mul, one_mul,
      zero_mul]
    simp
  have := linear_density (B := (1 - A).transpose) (by rw [Matrix.det_transpose, det_one_sub hA, abs_one]) he hi hf hl (x := x)
    (fun ω j => by
      rw [hT fun i => x i ω]
      have := congrFun (hx j) ω
      simp only [Pi.add_apply, Finset.sum_apply, Pi.smul_apply, smul_eq_mul] at this
      rw [this]; ring)
  simpa only [hT] using this

end Model.Gauss
