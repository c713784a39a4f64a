import Verif.Model.ExtendedCov
import Mathlib.Algebra.BigOperators.Field
import Mathlib.Tactic.FieldSimp
import Mathlib.Tactic.Linarith

/-! # The extended covariance matrix from the moments (property C212) -/

namespace Props

open Model.Gauss

variable {n r : ℕ}

/-- C212. For at least two samples, `get_extended_cov2` on `np.cov(samples, rowvar=False)`, the means of the columns and the number of samples
is `get_extended_cov(samples)`: the matrix of the sums of products of the columns and of an additional column of ones. -/
theorem C212_extended_cov (x : Matrix (Fin r) (Fin n) ℝ) (hr : 2 ≤ r) {mean : Fin n → ℝ} (hm : ∀ j, mean j = (∑ a, x a j) / r)
    {cov : Matrix (Fin n) (Fin n) ℝ} (hc : ∀ i j, cov i j = (∑ a, (x a i - mean i) * (x a j - mean j)) / (r - 1)) :
    extendedCov2 cov mean r = extendedCov x ∧
      (∀ i j, extendedCov2 cov mean r (some i) (some j) = ∑ a, x a i * x a j) ∧
      (∀ i, extendedCov2 cov mean r (some i) none = ∑ a, x a i) ∧ (∀ i, extendedCov2 cov mean r none (some i) = ∑ a, x a i) ∧
      extendedCov2 cov mean r none none = r := by
  have h0 : (r : ℝ) ≠ 0 := by positivity
  have h1 : (r : ℝ) - 1 ≠ 0 := by
    have : (2 : ℝ) ≤ r := by exact_mod_cast hr
    linarith
  have hmr : ∀ j, mean j * r = ∑ a, x a j := fun j => by rw [hm, div_mul_cancel₀ _ h0]
  have hss : ∀ i j, extendedCov2 cov mean r (some i) (some j) = ∑ a, x a i * x a j := by
    intro i j
    change cov i j * ((r : ℝ) - 1) + mean i * mean j * r = _
    rw [hc, div_mul_cancel₀ _ h1]
    have : ∀ a, (x a i - mean i) * (x a j - mean j) = x a i * x a j - mean j * x a i - mean i * x a j + mean i * mean j := fun a => by ring
    simp only [this, Finset.sum_add_distrib, Finset.sum_sub_distrib, ← Finset.mul_sum, ← hmr, Finset.sum_const, Finset.card_univ,
      Fintype.card_fin, nsmul_eq_mul]
    ring
  refine ⟨?_, hss, hmr, hmr, rfl⟩
  ext a b
  rw [extendedCov, Matrix.mul_apply]
  cases a with
  | none =>
    cases b with
    | none => simp [extendedSamples, extendedCov2]
    | some j => exact (hmr j).trans (by simp [extendedSamples])
  | some i =>
    cases b with
    | none => exact (hmr i).trans (by simp [extendedSamples])
    | some j => exact (hss i j).trans rfl

/-- C212. Hence the regression coefficients, the bias and the variance computed from either matrix are the same. -/
theorem C212_regression (lstsq : Lstsq) (x : Matrix (Fin r) (Fin n) ℝ) (hr : 2 ≤ r) {mean : Fin n → ℝ} (hm : ∀ j, mean j = (∑ a, x a j) / r)
    {cov : Matrix (Fin n) (Fin n) ℝ} (hc : ∀ i j, cov i j = (∑ a, (x a i - mean i) * (x a j - mean j)) / (r - 1))
    (inputs : List (Fin n)) (output : Fin n) :
    linearRegressionMle lstsq (extendedCov2 cov mean r) inputs output = linearRegressionMle lstsq (extendedCov x) inputs output := by
  rw [(C212_extended_cov x hr hm hc).1]

example : extendedCov2 (n := 1) (Matrix.of fun _ _ => 2) (fun _ => 2) 2 (some 0) (some 0) = 10 := by
  have h := (C212_extended_cov (n := 1) (r := 2) (Matrix.of fun a _ => if a = 0 then 1 else 3) le_rfl (mean := fun _ => 2)
    (fun j => by simp [Fin.sum_univ_two]; norm_num) (cov := Matrix.of fun _ _ => 2) (fun i j => by simp [Fin.sum_univ_two]; norm_num)).2.1 0 0
  rw [h]
  simp [Fin.sum_univ_two]
  norm_num

end Props
