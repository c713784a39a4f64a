import Verif.Model.Gauss
import Verif.Spec.Linear
import Verif.Proof.Sampling
import Mathlib.LinearAlgebra.Matrix.ToLinearEquiv
import Mathlib.Order.WellFounded
import Mathlib.Data.Fintype.Order

/-! # `GaussDAG`: linear algebra -/

namespace Model

set_option linter.unusedSectionVars false
open Relation Spec

section Algebra

variable {ι K M : Type} [Fintype ι] [DecidableEq ι] [Field K] [AddCommGroup M] [Module K M]

theorem acyclic_wf {E : ι → ι → Prop} (h : Acyclic E) : WellFounded E := by
  have : IsTrans ι (TransGen E) := ⟨fun _ _ _ => TransGen.trans⟩
  have : Std.Irrefl (TransGen E) := ⟨h⟩
  have hw : WellFounded (TransGen E) := Finite.wellFounded_of_trans_of_irrefl _
  exact Subrelation.wf (fun h => TransGen.single h) hw

theorem sem_unique {A : Matrix ι ι K} (hA : AcyclicWeights A) {e x y : ι → M} (hx : LinearSEM A e x)
    (hy : LinearSEM A e y) : x = y := by
  funext j
  induction j using (acyclic_wf hA).induction with
  | _ j ih =>
    rw [hx j, hy j]
    congr 1
    refine Finset.sum_congr rfl fun i _ => ?_
    by_cases h : A i j = 0
    · simp [h]
    · rw [ih i h]

theorem det_ne_zero {A : Matrix ι ι K} (hA : AcyclicWeights A) : (1 - A).det ≠ 0 := by
  intro h
  obtain ⟨v, hv, h0⟩ := Matrix.exists_vecMul_eq_zero_iff.2 h
  refine hv (sem_unique (e := 0) hA ?_ ?_)
  · intro j
    have := congrFun h0 j
    rw [Matrix.vecMul_sub, Matrix.vecMul_one, Pi.sub_apply, Pi.zero_apply, sub_eq_zero] at this
    rw [Pi.zero_apply, add_zero, this]
    simp [Matrix.vecMul, dotProduct, mul_comm]
  · intro j; simp

/-- The solution of the equations in terms of the noise. -/
theorem sem_solution {A : Matrix ι ι K} (hA : AcyclicWeights A) {e x : ι → M} (hx : LinearSEM A e x) :
    ∀ j, x j = ∑ i, (1 - A)⁻¹ i j • e i := by
  have hu : IsUnit (1 - A).det := isUnit_iff_ne_zero.2 (det_ne_zero hA)
  have hm : (1 - A)⁻¹ * (1 - A) = 1 := Matrix.nonsing_inv_mul _ hu
  have : LinearSEM A e fun j => ∑ i, (1 - A)⁻¹ i j • e i := by
    intro j
    have h1 : ∑ i, (1 - A)⁻¹ i j • e i - ∑ k, A k j • ∑ i, (1 - A)⁻¹ i k • e i = e j := by
      have : ∀ i, (1 - A)⁻¹ i j - ∑ k, (1 - A)⁻¹ i k * A k j = if i = j then 1 else 0 := by
        intro i
        have := congrFun (congrFun hm i) j
        rw [Matrix.mul_sub, Matrix.mul_one, Matrix.sub_apply, Matrix.mul_apply, Matrix.one_apply] at this
        exact this
      calc _ = ∑ i, ((1 - A)⁻¹ i j - ∑ k, (1 - A)⁻¹ i k * A k j) • e i := by
            simp only [sub_smul, Finset.sum_smul, Finset.sum_sub_distrib, Finset.smul_sum, smul_smul]
            rw [Finset.sum_comm]
            congr 1
            refine Finset.sum_congr rfl fun i _ => Finset.sum_congr rfl fun k _ => ?_
            rw [mul_comm]
        _ = e j := by simp [this]
    dsimp only
    rw [sub_eq_iff_eq_add] at h1
    rw [add_comm]; exact h1
  exact fun j => congrFun (sem_unique hA hx this) j

end Algebra

namespace Gauss

variable {n : ℕ} {K : Type} [Field K] [DecidableEq K]

/-- The matrices of the current weights. -/
theorem readCovariance_fresh {G : Gauss n K} (h : G.covariance = none) (hA : AcyclicWeights G.weight) :
    ∃ G', readCovariance G =
      .ok ((1 - G.weight)⁻¹.transpose * Matrix.diagonal G.variances * (1 - G.weight)⁻¹, G') ∧
      G' = { G with covariance := some ((1 - G.weight)⁻¹.transpose * Matrix.diagonal G.variances * (1 - G.weight)⁻¹) } := by
  refine ⟨_, ?_, rfl⟩
  unfold readCovariance
  rw [h]
  dsimp only
  rw [if_neg (det_ne_zero hA)]
  by_cases hv : ∀ i, G.variances i = 1
  · have : Matrix.diagonal G.variances = 1 := by
      rw [show G.variances = fun _ => 1 from funext hv]; exact Matrix.diagonal_one
    simp only [if_pos hv, this, Matrix.mul_one]
  · simp only [if_neg hv]

theorem readPrecision_fresh {G : Gauss n K} (h : G.precision = none) :
    readPrecision G =
      ((1 - G.weight) * Matrix.diagonal (fun i => (G.variances i)⁻¹) * (1 - G.weight).transpose,
        { G with precision := some ((1 - G.weight) * Matrix.diagonal (fun i => (G.variances i)⁻¹) *
          (1 - G.weight).transpose) }) := by
  unfold readPrecision
  rw [h]
  dsimp only
  by_cases hv : ∀ i, G.variances i = 1
  · have : Matrix.diagonal (fun i => (G.variances i)⁻¹) = 1 := by
      rw [show (fun i => (G.variances i)⁻¹) = fun _ => 1 from funext fun i => by rw [hv i, inv_one]]
      exact Matrix.diagonal_one
    simp only [if_pos hv, this, Matrix.mul_one]
  · simp only [if_neg hv]

theorem precision_mul_covariance {A : Matrix (Fin n) (Fin n) K} (hA : AcyclicWeights A) {v : Fin n → K}
    (hv : ∀ i, v i ≠ 0) :
    ((1 - A) * Matrix.diagonal (fun i => (v i)⁻¹) * (1 - A).transpose) *
      ((1 - A)⁻¹.transpose * Matrix.diagonal v * (1 - A)⁻¹) = 1 := by
  have hu : IsUnit (1 - A).det := isUnit_iff_ne_zero.2 (det_ne_zero hA)
  have h1 : (1 - A).transpose * (1 - A)⁻¹.transpose = 1 := by
    rw [← Matrix.transpose_mul, Matrix.nonsing_inv_mul _ hu, Matrix.transpose_one]
  have h2 : Matrix.diagonal (fun i => (v i)⁻¹) * Matrix.diagonal v = 1 := by
    rw [Matrix.diagonal_mul_diagonal, ← Matrix.diagonal_one]
    congr 1; funext i; exact inv_mul_cancel₀ (hv i)
  calc _ = (1 - A) * (Matrix.diagonal (fun i => (v i)⁻¹) * ((1 - A).transpose * (1 - A)⁻¹.transpose) * Matrix.diagonal v)
        * (1 - A)⁻¹ := by simp only [Matrix.mul_assoc]
    _ = 1 := by rw [h1, Matrix.mul_one, h2, Matrix.mul_one, Matrix.mul_nonsing_inv _ hu]

end Gauss

end Model
