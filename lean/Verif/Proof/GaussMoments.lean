import Verif.Model.GaussMoments
import Verif.Spec.Gaussian
import Verif.Proof.GaussMarkov
import Verif.Proof.GaussEffects
import Mathlib.LinearAlgebra.Matrix.PosDef
import Mathlib.Data.Matrix.Block
import Mathlib.Tactic.FieldSimp
import Mathlib.Tactic.LinearCombination

/-! # `GaussDAG`: covariances, marginal precision, partial correlation, regression -/

namespace Spec

set_option linter.unusedSectionVars false
open Matrix Relation

section Algebra

variable {ι : Type} [Fintype ι] [DecidableEq ι]

theorem semCov_mul {K : Type} [Field K] {A : Matrix ι ι K} (hA : AcyclicWeights A) (v : ι → K) :
    semCov A v * (1 - A) = (1 - A)⁻¹.transpose * Matrix.diagonal v := by
  have hu : IsUnit (1 - A).det := isUnit_iff_ne_zero.2 (Model.det_ne_zero hA)
  rw [semCov, Matrix.mul_assoc, Matrix.nonsing_inv_mul _ hu, Matrix.mul_one]

theorem semCov_symm {K : Type} [Field K] (A : Matrix ι ι K) (v : ι → K) : (semCov A v).transpose = semCov A v := by
  simp [semCov, Matrix.transpose_mul, Matrix.mul_assoc]

theorem semCov_posDef {A : Matrix ι ι ℝ} (hA : AcyclicWeights A) {v : ι → ℝ} (hv : ∀ i, 0 < v i) :
    (semCov A v).PosDef := by
  have hu : IsUnit (1 - A).det := isUnit_iff_ne_zero.2 (Model.det_ne_zero hA)
  have hd : (Matrix.diagonal v).PosDef := PosDef.diagonal hv
  have hui : IsUnit (1 - A)⁻¹ := by rw [Matrix.isUnit_iff_isUnit_det]; exact Matrix.isUnit_nonsing_inv_det _ hu
  have := hd.conjTranspose_mul_mul_same (B := (1 - A)⁻¹) (Matrix.mulVec_injective_of_isUnit hui)
  rwa [Matrix.conjTranspose_eq_transpose_of_trivial] at this

theorem lcov_comm {K : Type} [CommSemiring K] {S : Matrix ι ι K} (hS : S.transpose = S) (u w : ι → K) : lcov S u w = lcov S w u := by
  unfold lcov
  rw [dotProduct_comm, ← Matrix.vecMul_transpose, hS, Matrix.dotProduct_mulVec]

theorem lcov_single {K : Type} [Semiring K] (S : Matrix ι ι K) (c : ι) (u : ι → K) : lcov S (Pi.single c 1) u = (S *ᵥ u) c := by
  simp [lcov]

/-- d-separated variables have partial correlation zero. -/
theorem partialCorr_dsep {A : Matrix ι ι ℝ} (hA : AcyclicWeights A) {v : ι → ℝ} (hv : ∀ i, 0 < v i) {i j : ι} {C : Set ι}
    (hij : i ≠ j) (hiC : i ∉ C) (hjC : j ∉ C) (hd : DSep (fun a b => A a b ≠ 0) {i} {j} C) {ρ : ℝ}
    (hρ : PartialCorr (semCov A v) i j C ρ) : ρ = 0 := by
  obtain ⟨u, w, hu, hw, -, -, rfl⟩ := hρ
  set S := semCov A v with hS
  have hsym : S.transpose = S := semCov_symm A v
  suffices h : lcov S u w = 0 by rw [h, zero_div]
  have hdet : IsUnit (1 - A).det := isUnit_iff_ne_zero.2 (Model.det_ne_zero hA)
  let x : ι → ℝ := lcov S u u • w - lcov S u w • u
  let z : ι → ℝ := (1 - A)⁻¹ *ᵥ x
  let y : ι → ℝ := S *ᵥ x
  have hz : ∀ a, x a = z a - ∑ b, A a b * z b := by
    intro a
    have : (1 - A) *ᵥ z = x := by
      simp only [z, Matrix.mulVec_mulVec, Matrix.mul_nonsing_inv _ hdet, Matrix.one_mulVec]
    have h := congrFun this a
    rw [Matrix.sub_mulVec, Matrix.one_mulVec] at h
    simpa [Matrix.mulVec, dotProduct] using h.symm
  have hy : ∀ b, v b * z b = y b - ∑ a, A a b * y a := by
    intro b
    have : (1 - A).transpose *ᵥ y = Matrix.diagonal v *ᵥ z := by
      simp only [y, z, hS, semCov, Matrix.mulVec_mulVec]
      rw [← Matrix.mul_assoc, ← Matrix.mul_assoc, ← Matrix.transpose_mul, Matrix.nonsing_inv_mul _ hdet, Matrix.transpose_one,
        Matrix.one_mul]
    have h := congrFun this b
    rw [Matrix.mulVec_diagonal, Matrix.transpose_sub, Matrix.transpose_one, Matrix.sub_mulVec, Matrix.one_mulVec] at h
    simpa [Matrix.mulVec, dotProduct] using h.symm
  have hyC : ∀ c ∈ C, y c = 0 := by
    intro c hc
    have h1 := hu.uncorrelated c hc
    have h2 := hw.uncorrelated c hc
    rw [lcov_single] at h1 h2
    simp [y, x, Matrix.mulVec_sub, Matrix.mulVec_smul, h1, h2]
  have hyi : y i = 0 := by
    have h0 : u ⬝ᵥ y = 0 := by
      have : u ⬝ᵥ y = lcov S u u * lcov S u w - lcov S u w * lcov S u u := by
        simp only [y, x, Matrix.mulVec_sub, Matrix.mulVec_smul, dotProduct_sub, dotProduct_smul, smul_eq_mul]
        rfl
      rw [this]; ring
    have h1 : u ⬝ᵥ y = y i := by
      rw [dotProduct, Finset.sum_eq_single i, hu.self, one_mul]
      · intro a _ ha
        by_cases haC : a ∈ C
        · rw [hyC a haC, mul_zero]
        · rw [hu.support a ha haC, zero_mul]
      · simp
    rw [← h1, h0]
  have hx0 := gauss_core hA hv hiC hjC hd hz hy (x := x) (by
    intro a ha
    by_contra hcon
    push Not at hcon
    apply ha
    simp [x, hu.support a hcon.1 hcon.2.2, hw.support a hcon.2.1 hcon.2.2]) hyi hyC
  have : x i = - lcov S u w := by
    simp [x, hu.self, hw.support i hij hiC]
  linarith

/-! ### Pushing vectors forward -/

variable {κ : Type} [Fintype κ]

/-- The vector with entry `c k` at `f k`. -/
def push (f : κ → ι) (c : κ → ℝ) : ι → ℝ := fun a => ∑ k, if f k = a then c k else 0

theorem push_apply {f : κ → ι} (hf : Function.Injective f) (c : κ → ℝ) (k : κ) : push f c (f k) = c k := by
  classical
  simp [push, hf.eq_iff]

theorem push_outside {f : κ → ι} (c : κ → ℝ) {a : ι} (ha : ∀ k, f k ≠ a) : push f c a = 0 := by
  simp [push, ha]

theorem push_dot (f : κ → ι) (c : κ → ℝ) (y : ι → ℝ) : push f c ⬝ᵥ y = c ⬝ᵥ fun k => y (f k) := by
  simp only [push, dotProduct, Finset.sum_mul]
  rw [Finset.sum_comm]
  refine Finset.sum_congr rfl fun k _ => ?_
  simp [ite_mul]

theorem mulVec_push (S : Matrix ι ι ℝ) (f : κ → ι) (c : κ → ℝ) (k : κ) :
    (S *ᵥ push f c) (f k) = (S.submatrix f f *ᵥ c) k := by
  rw [Matrix.mulVec, dotProduct_comm, push_dot, Matrix.mulVec, dotProduct_comm]
  rfl

theorem lcov_push (S : Matrix ι ι ℝ) (f : κ → ι) (c d : κ → ℝ) :
    lcov S (push f c) (push f d) = c ⬝ᵥ S.submatrix f f *ᵥ d := by
  unfold lcov
  rw [push_dot]
  congr 1
  funext k
  exact mulVec_push S f d k

/-- Residuals from the inverse of a positive definite matrix. -/
theorem residual_coefs [DecidableEq κ] {R : Matrix κ κ ℝ} (hR : R.PosDef) {p q : κ} (hpq : p ≠ q) :
    0 < R⁻¹ p p * R⁻¹ q q - R⁻¹ p q * R⁻¹ p q ∧
    ∃ c : κ → ℝ, c p = 1 ∧ c q = 0 ∧
      ∀ k, (R *ᵥ c) k = (R⁻¹ q q * (if k = p then 1 else 0) - R⁻¹ p q * (if k = q then 1 else 0)) /
        (R⁻¹ p p * R⁻¹ q q - R⁻¹ p q * R⁻¹ p q) := by
  set θ := R⁻¹ with hθ
  have hθpd : θ.PosDef := hR.inv
  have hsym : ∀ a b, θ a b = θ b a := fun a b => by
    have := congrFun (congrFun hθpd.isHermitian b) a
    simpa using this
  have hRθ : R * θ = 1 := Matrix.mul_nonsing_inv _ ((Matrix.isUnit_iff_isUnit_det _).1 hR.isUnit)
  have hΔ : 0 < θ p p * θ q q - θ p q * θ p q := by
    have hd := hθpd.dotProduct_mulVec_pos (x := fun k => (θ q q * if k = p then 1 else 0) - θ p q * if k = q then 1 else 0) (by
      intro h0
      have h1 := congrFun h0 p
      simp only [if_true, if_neg hpq, mul_zero, sub_zero, mul_one, Pi.zero_apply] at h1
      exact (hθpd.diag_pos (i := q)).ne' h1)
    have he : (star fun k => (θ q q * if k = p then 1 else 0) - θ p q * if k = q then 1 else 0) ⬝ᵥ
        θ *ᵥ (fun k => (θ q q * if k = p then 1 else 0) - θ p q * if k = q then 1 else 0) =
        θ q q * (θ p p * θ q q - θ p q * θ p q) := by
      simp only [Matrix.mulVec, dotProduct, mul_sub, Finset.sum_sub_distrib, Pi.star_apply, star_trivial, sub_mul, mul_ite,
        mul_one, mul_zero, ite_mul, zero_mul, Finset.sum_ite_eq', Finset.mem_univ, if_true]
      rw [hsym q p]; ring
    rw [he] at hd
    exact (pos_iff_pos_of_mul_pos hd).1 hθpd.diag_pos
  refine ⟨hΔ, fun k => (θ k p * θ q q - θ k q * θ p q) / (θ p p * θ q q - θ p q * θ p q), ?_, ?_, fun k => ?_⟩
  · exact div_self hΔ.ne'
  · simp only
    rw [hsym q p, mul_comm, sub_self, zero_div]
  · have h1 : ∀ b, ∑ a, R k a * θ a b = if k = b then 1 else 0 := by
      intro b
      have := congrFun (congrFun hRθ k) b
      rwa [Matrix.mul_apply, Matrix.one_apply] at this
    have : (R *ᵥ fun k => (θ k p * θ q q - θ k q * θ p q) / (θ p p * θ q q - θ p q * θ p q)) k =
        (θ q q * ∑ a, R k a * θ a p - θ p q * ∑ a, R k a * θ a q) / (θ p p * θ q q - θ p q * θ p q) := by
      simp only [Matrix.mulVec, dotProduct, Finset.mul_sum, ← Finset.sum_sub_distrib, Finset.sum_div]
      refine Finset.sum_congr rfl fun a _ => ?_
      ring
    rw [this, h1, h1]

/-- The formula for partial correlations. -/
theorem partialCorr_inverse [DecidableEq κ] {S : Matrix ι ι ℝ} (hS : S.PosDef) {f : κ → ι} (hf : Function.Injective f) {p q : κ}
    (hpq : p ≠ q) {R : Matrix κ κ ℝ} (hR : ∀ a b, R a b = S (f a) (f b) / (√(S (f a) (f a)) * √(S (f b) (f b)))) :
    R.PosDef ∧ PartialCorr S (f p) (f q) {a | ∃ k, k ≠ p ∧ k ≠ q ∧ f k = a} (-R⁻¹ p q / √(R⁻¹ p p * R⁻¹ q q)) := by
  let D : κ → ℝ := fun k => √(S (f k) (f k))
  have hD : ∀ k, 0 < D k := fun k => Real.sqrt_pos.2 hS.diag_pos
  have hSR : ∀ a b, S (f a) (f b) = D a * R a b * D b := by
    intro a b
    rw [hR]
    have := (hD a).ne'
    have := (hD b).ne'
    simp only [D] at *
    field_simp
  have hsub : (S.submatrix f f).PosDef := hS.submatrix hf
  have hRpd : R.PosDef := by
    have h1 := hsub.conjTranspose_mul_mul_same (B := Matrix.diagonal fun k => (D k)⁻¹) (by
      refine Matrix.mulVec_injective_of_isUnit ?_
      rw [Matrix.isUnit_iff_isUnit_det, Matrix.det_diagonal, isUnit_iff_ne_zero]
      exact Finset.prod_ne_zero_iff.2 fun k _ => inv_ne_zero (hD k).ne')
    convert h1 using 1
    ext a b
    rw [Matrix.diagonal_conjTranspose, Matrix.mul_diagonal, Matrix.diagonal_mul]
    simp only [Matrix.submatrix_apply, hSR, Pi.star_apply, star_trivial]
    have := (hD a).ne'
    have := (hD b).ne'
    field_simp
  refine ⟨hRpd, ?_⟩
  obtain ⟨hΔ, c, hcp, hcq, hc⟩ := residual_coefs hRpd hpq
  obtain ⟨-, d, hdq, hdp, hd⟩ := residual_coefs hRpd hpq.symm
  have hsym : ∀ a b, R⁻¹ a b = R⁻¹ b a := fun a b => by
    have := congrFun (congrFun hRpd.inv.isHermitian b) a
    simpa using this
  set Δ := R⁻¹ p p * R⁻¹ q q - R⁻¹ p q * R⁻¹ p q with hΔdef
  have hΔ' : R⁻¹ q q * R⁻¹ p p - R⁻¹ q p * R⁻¹ q p = Δ := by rw [hsym q p, hΔdef]; ring
  rw [hΔ'] at hd
  have scale : ∀ (s : ℝ) (c : κ → ℝ) (k : κ), (S.submatrix f f *ᵥ fun k => s * (D k)⁻¹ * c k) k = s * D k * (R *ᵥ c) k := by
    intro s c k
    simp only [Matrix.mulVec, dotProduct, Matrix.submatrix_apply, hSR, Finset.mul_sum]
    refine Finset.sum_congr rfl fun a _ => ?_
    have := (hD a).ne'
    field_simp
  let u := push f fun k => D p * (D k)⁻¹ * c k
  let w := push f fun k => D q * (D k)⁻¹ * d k
  have hDp := (hD p).ne'
  have hDq := (hD q).ne'
  have hu : Residual S (f p) {a | ∃ k, k ≠ p ∧ k ≠ q ∧ f k = a} u := by
    refine ⟨?_, ?_, ?_⟩
    · simp only [u, push_apply hf, hcp]
      field_simp
    · intro a ha hC
      by_cases hk : ∃ k, f k = a
      · obtain ⟨k, rfl⟩ := hk
        have : k = q := by
          by_contra hq
          exact hC ⟨k, fun h => ha (h ▸ rfl), hq, rfl⟩
        simp only [u, push_apply hf, this, hcq, mul_zero]
      · push Not at hk
        exact push_outside _ hk
    · rintro _ ⟨k, hkp, hkq, rfl⟩
      rw [lcov_single]
      simp only [u, mulVec_push, scale, hc, if_neg hkp, if_neg hkq, mul_zero, sub_zero, zero_div]
  have hw : Residual S (f q) {a | ∃ k, k ≠ p ∧ k ≠ q ∧ f k = a} w := by
    refine ⟨?_, ?_, ?_⟩
    · simp only [w, push_apply hf, hdq]
      field_simp
    · intro a ha hC
      by_cases hk : ∃ k, f k = a
      · obtain ⟨k, rfl⟩ := hk
        have : k = p := by
          by_contra hp
          exact hC ⟨k, hp, fun h => ha (h ▸ rfl), rfl⟩
        simp only [w, push_apply hf, this, hdp, mul_zero]
      · push Not at hk
        exact push_outside _ hk
    · rintro _ ⟨k, hkp, hkq, rfl⟩
      rw [lcov_single]
      simp only [w, mulVec_push, scale, hd, if_neg hkp, if_neg hkq, mul_zero, sub_zero, zero_div]
  -- covariances
  have lu : ∀ y : κ → ℝ, (∀ k, k ≠ p → k ≠ q → y k = 0) → (fun k => D p * (D k)⁻¹ * c k) ⬝ᵥ y = y p := by
    intro y hy
    rw [dotProduct, Finset.sum_eq_single p, hcp]
    · field_simp
    · intro k _ hk
      by_cases hq : k = q
      · rw [hq, hcq]; ring
      · rw [hy k hk hq, mul_zero]
    · simp
  have lw : ∀ y : κ → ℝ, (∀ k, k ≠ p → k ≠ q → y k = 0) → (fun k => D q * (D k)⁻¹ * d k) ⬝ᵥ y = y q := by
    intro y hy
    rw [dotProduct, Finset.sum_eq_single q, hdq]
    · field_simp
    · intro k _ hk
      by_cases hp : k = p
      · rw [hp, hdp]; ring
      · rw [hy k hp hk, mul_zero]
    · simp
  have huu : lcov S u u = D p ^ 2 * (R⁻¹ q q / Δ) := by
    rw [lcov_push, lu, scale, hc]
    · simp only [if_true, if_neg hpq]; ring
    · intro k hp hq
      rw [scale, hc, if_neg hp, if_neg hq]; simp
  have hww : lcov S w w = D q ^ 2 * (R⁻¹ p p / Δ) := by
    rw [lcov_push, lw, scale, hd]
    · simp only [if_true, if_neg hpq.symm]; ring
    · intro k hp hq
      rw [scale, hd, if_neg hp, if_neg hq]; simp
  have huw : lcov S u w = D p * D q * (-R⁻¹ p q / Δ) := by
    rw [lcov_push, lu, scale, hd]
    · simp only [if_true, if_neg hpq]; rw [hsym q p]; ring
    · intro k hp hq
      rw [scale, hd, if_neg hp, if_neg hq]; simp
  have hpp : 0 < R⁻¹ p p := hRpd.inv.diag_pos
  have hqq : 0 < R⁻¹ q q := hRpd.inv.diag_pos
  refine ⟨u, w, hu, hw, ?_, ?_, ?_⟩
  · rw [huu]; have := hD p; positivity
  · rw [hww]; have := hD q; positivity
  · rw [huu, hww, huw, Real.sqrt_mul (sq_nonneg _), Real.sqrt_mul (sq_nonneg _), Real.sqrt_sq (hD p).le, Real.sqrt_sq (hD q).le,
      Real.sqrt_div hqq.le, Real.sqrt_div hpp.le, Real.sqrt_mul hpp.le]
    have h1 : √Δ ^ 2 = Δ := Real.sq_sqrt hΔ.le
    have h5 := hΔ.ne'
    have h2 : √Δ ≠ 0 := (Real.sqrt_pos.2 hΔ).ne'
    have h3 : √(R⁻¹ p p) ≠ 0 := (Real.sqrt_pos.2 hpp).ne'
    have h4 : √(R⁻¹ q q) ≠ 0 := (Real.sqrt_pos.2 hqq).ne'
    field_simp
    rw [h1]

/-- Without conditioning the partial correlation is the correlation. -/
theorem partialCorr_empty {S : Matrix ι ι ℝ} (hS : S.PosDef) (i j : ι) :
    PartialCorr S i j ∅ (S i j / (√(S i i) * √(S j j))) := by
  have h : ∀ a b, lcov S (Pi.single a 1) (Pi.single b 1) = S a b := by
    intro a b
    rw [lcov_single, Matrix.mulVec_single_one]; rfl
  refine ⟨Pi.single i 1, Pi.single j 1, ⟨by simp, fun a ha _ => by simp [ha], by simp⟩,
    ⟨by simp, fun a ha _ => by simp [ha], by simp⟩, ?_, ?_, ?_⟩
  · rw [h]; exact hS.diag_pos
  · rw [h]; exact hS.diag_pos
  · rw [h, h, h]

/-- Residuals are unique. -/
theorem residual_unique {S : Matrix ι ι ℝ} (hS : S.PosDef) {i : ι} {C : Set ι} (hi : i ∉ C) {u u' : ι → ℝ} (hu : Residual S i C u)
    (hu' : Residual S i C u') : u = u' := by
  by_contra hne
  have h := hS.dotProduct_mulVec_pos (x := u - u') (sub_ne_zero.2 hne)
  refine h.ne' ?_
  rw [dotProduct]
  refine Finset.sum_eq_zero fun a _ => ?_
  by_cases ha : a ∈ C
  · have h1 := hu.uncorrelated a ha
    have h2 := hu'.uncorrelated a ha
    rw [lcov_single] at h1 h2
    simp [Matrix.mulVec_sub, h1, h2]
  · by_cases hai : a = i
    · subst hai
      simp [hu.self, hu'.self]
    · simp [hu.support a hai ha, hu'.support a hai ha]

theorem partialCorr_unique {S : Matrix ι ι ℝ} (hS : S.PosDef) {i j : ι} {C : Set ι} (hi : i ∉ C) (hj : j ∉ C) {ρ ρ' : ℝ}
    (h : PartialCorr S i j C ρ) (h' : PartialCorr S i j C ρ') : ρ = ρ' := by
  obtain ⟨u, w, hu, hw, -, -, rfl⟩ := h
  obtain ⟨u', w', hu', hw', -, -, rfl⟩ := h'
  rw [residual_unique hS hi hu hu', residual_unique hS hj hw hw']

end Algebra

end Spec

namespace Model.Gauss

set_option linter.unusedSectionVars false
open Matrix Spec

variable {n k t : ℕ} {K : Type} [Field K] [DecidableEq K]

theorem positions_val (l : Fin k → Fin n) : positions n (fun a => (l a).val) = some l := by
  unfold positions
  rw [dif_pos fun a => (l a).isLt]

theorem Current.readCovariance {G : Gauss n K} (h : G.Current) (hA : AcyclicWeights G.weight) :
    ∃ G1, G.readCovariance = .ok (semCov G.weight G.variances, G1) ∧
      G1 = { G with covariance := some (semCov G.weight G.variances) } := by
  cases hc : G.covariance with
  | none =>
    obtain ⟨G1, h1, h2⟩ := readCovariance_fresh hc hA
    exact ⟨G1, h1, h2⟩
  | some S =>
    have := h.covariance S hc
    subst this
    refine ⟨G, ?_, ?_⟩
    · simp only [Gauss.readCovariance, hc]
    · cases G; simp_all

theorem semCov_inv {A : Matrix (Fin n) (Fin n) K} (hA : AcyclicWeights A) {v : Fin n → K} (hv : ∀ i, v i ≠ 0) :
    (semCov A v)⁻¹ = (1 - A) * Matrix.diagonal (fun i => (v i)⁻¹) * (1 - A).transpose :=
  Matrix.inv_eq_left_inv (precision_mul_covariance hA hv)

theorem Current.readPrecision {G : Gauss n K} (h : G.Current) (hA : AcyclicWeights G.weight) (hv : ∀ i, G.variances i ≠ 0) :
    G.readPrecision.1 = (semCov G.weight G.variances)⁻¹ := by
  cases hc : G.precision with
  | none => rw [readPrecision_fresh hc, semCov_inv hA hv]
  | some P =>
    have := h.precision P hc
    subst this
    simp only [Gauss.readPrecision, hc]

theorem CurrentR.readCorrelation {G : Gauss n ℝ} (h : G.CurrentR) (hA : AcyclicWeights G.weight) :
    ∃ R G1, G.readCorrelation = .ok (R, G1) ∧ (∀ a b, R a b = semCov G.weight G.variances a b /
      (√(semCov G.weight G.variances a a) * √(semCov G.weight G.variances b b))) ∧ G1.CurrentR ∧ G1.dag = G.dag ∧
      G1.names = G.names ∧ G1.weight = G.weight ∧ G1.variances = G.variances ∧ G1.biases = G.biases := by
  cases hc : G.correlation with
  | some R =>
    refine ⟨R, G, ?_, h.correlation R hc, h, rfl, rfl, rfl, rfl, rfl⟩
    simp only [Gauss.readCorrelation, hc]
  | none =>
    obtain ⟨G1, h1, rfl⟩ := h.toCurrent.readCovariance hA
    have hR : ∀ a b, semCov G.weight G.variances a b / √(semCov G.weight G.variances b b) / √(semCov G.weight G.variances a a) =
        semCov G.weight G.variances a b / (√(semCov G.weight G.variances a a) * √(semCov G.weight G.variances b b)) := by
      intro a b; rw [div_div, mul_comm]
    refine ⟨Matrix.of fun a b => semCov G.weight G.variances a b / √(semCov G.weight G.variances b b) /
      √(semCov G.weight G.variances a a), { G with
        covariance := some (semCov G.weight G.variances)
        correlation := some (Matrix.of fun a b => semCov G.weight G.variances a b / √(semCov G.weight G.variances b b) /
          √(semCov G.weight G.variances a a)) }, ?_, hR, ?_⟩
    · simp only [Gauss.readCorrelation, hc, h1]
    · refine ⟨⟨⟨?_, ?_⟩, ?_⟩, rfl, rfl, rfl, rfl, rfl⟩
      · intro S hS
        simp only [Option.some.injEq] at hS
        exact hS.symm
      · exact h.precision
      · intro R hR'
        simp only [Option.some.injEq] at hR'
        intro a b
        rw [← hR']
        exact hR a b

theorem invOrRaise_posDef {m : Matrix (Fin k) (Fin k) ℝ} (h : m.PosDef) : invOrRaise m = .ok m⁻¹ := by
  unfold invOrRaise
  rw [if_neg]
  exact isUnit_iff_ne_zero.1 ((Matrix.isUnit_iff_isUnit_det _).1 h.isUnit)

/-- `partial_correlation` returns the partial correlation. -/
theorem partialCorrelation_spec {G : Gauss n ℝ} (hA : AcyclicWeights G.weight) (hv : ∀ i, 0 < G.variances i) (hc : G.CurrentR)
    (oc : SetOrder Unit ℕ) {i j : Fin n} {C : Finset (Fin n)} (hij : i ≠ j) (hi : i ∉ C) (hj : j ∉ C) :
    ∃ ρ G1, G.partialCorrelation oc i j (C.image Fin.val) = .ok (ρ, G1) ∧ PartialCorr (semCov G.weight G.variances) i j C ρ ∧
      G1.CurrentR ∧ G1.dag = G.dag ∧ G1.names = G.names ∧ G1.weight = G.weight ∧ G1.variances = G.variances ∧
      G1.biases = G.biases := by
  obtain ⟨R, G1, h1, h2, h3⟩ := hc.readCorrelation hA
  have hS := semCov_posDef hA hv
  have hcard : (C.image Fin.val).card = C.card := Finset.card_image_of_injective _ Fin.val_injective
  by_cases h0 : C.card = 0
  · have hC : C = ∅ := Finset.card_eq_zero.1 h0
    subst hC
    refine ⟨R i j, G1, ?_, ?_, h3⟩
    · simp only [Gauss.partialCorrelation, h1, hcard, if_pos h0, at?_val]
    · rw [h2]
      simpa using partialCorr_empty hS i j
  · set L := oc.ord () (C.image Fin.val) with hL
    have hmem : ∀ v, v ∈ L ↔ ∃ c ∈ C, c.val = v := fun v => by rw [hL, oc.mem_iff]; simp
    have hlt : ∀ a, Matrix.vecCons i.val (Matrix.vecCons j.val L.get) a < n := by
      intro a
      refine Fin.cases ?_ (fun a => ?_) a
      · exact i.isLt
      · refine Fin.cases ?_ (fun a => ?_) a
        · exact j.isLt
        · obtain ⟨c, -, hcv⟩ := (hmem (L.get a)).1 (L.get_mem a)
          simp only [Matrix.cons_val_succ]
          rw [← hcv]; exact c.isLt
    let l : Fin (L.length + 1 + 1) → Fin n := fun a => ⟨_, hlt a⟩
    have hl : positions n (Matrix.vecCons i.val (Matrix.vecCons j.val L.get)) = some l := by
      unfold positions
      rw [dif_pos hlt]
    have hl0 : l 0 = i := rfl
    have hl1 : l 1 = j := rfl
    have hl2 : ∀ a, (l (Fin.succ (Fin.succ a))).val = L.get a := fun a => rfl
    have hlC : ∀ a : Fin L.length, l (Fin.succ (Fin.succ a)) ∈ C := by
      intro a
      obtain ⟨c, h, hcv⟩ := (hmem (L.get a)).1 (L.get_mem a)
      have : l (Fin.succ (Fin.succ a)) = c := Fin.ext (by rw [hl2, hcv])
      rw [this]; exact h
    have hinj : Function.Injective l := by
      have hn : L.Nodup := oc.nodup _ _
      have key : ∀ a : Fin (L.length + 1 + 1), a = 0 ∨ a = 1 ∨ ∃ b : Fin L.length, a = b.succ.succ := by
        intro a
        refine Fin.cases (Or.inl rfl) (fun a => ?_) a
        refine Fin.cases (Or.inr (Or.inl rfl)) (fun a => Or.inr (Or.inr ⟨a, rfl⟩)) a
      intro a b hab
      rcases key a with rfl | rfl | ⟨a, rfl⟩ <;> rcases key b with rfl | rfl | ⟨b, rfl⟩
      · rfl
      · exact absurd hab hij
      · exact absurd (hlC b) (by rw [← hab]; exact hi)
      · exact absurd hab.symm hij
      · rfl
      · exact absurd (hlC b) (by rw [← hab]; exact hj)
      · exact absurd (hlC a) (by rw [hab]; exact hi)
      · exact absurd (hlC a) (by rw [hab]; exact hj)
      · have := congrArg Fin.val hab
        rw [hl2, hl2] at this
        rw [List.nodup_iff_injective_get.1 hn this]
    obtain ⟨g1, g2⟩ := partialCorr_inverse hS hinj (p := 0) (q := 1) (by simp) (R := R.submatrix l l) (fun a b => h2 _ _)
    refine ⟨-(R.submatrix l l)⁻¹ 0 1 / √((R.submatrix l l)⁻¹ 0 0 * (R.submatrix l l)⁻¹ 1 1), G1, ?_, ?_, h3⟩
    · simp only [Gauss.partialCorrelation, h1, hcard, if_neg h0]
      have hl' : positions n (Matrix.vecCons i.val (Matrix.vecCons j.val (oc.ord () (C.image Fin.val)).get)) = some l := hl
      rw [hl']
      simp only
      rw [invOrRaise_posDef g1]
    · rw [hl0, hl1] at g2
      convert g2 using 1
      ext c
      simp only [Finset.mem_coe, Set.mem_ofPred_eq]
      constructor
      · intro h
        obtain ⟨a, ha⟩ := List.get_of_mem ((hmem c.val).2 ⟨c, h, rfl⟩)
        refine ⟨a.succ.succ, Fin.succ_ne_zero _, ?_, Fin.ext (by rw [hl2, ha])⟩
        intro h1
        have : a.succ = 0 := Fin.succ_injective _ h1
        exact Fin.succ_ne_zero _ this
      · rintro ⟨a, ha0, ha1, rfl⟩
        revert ha0 ha1
        refine Fin.cases (fun h => absurd rfl h) (fun a => ?_) a
        refine Fin.cases (fun _ h => absurd rfl h) (fun a _ _ => hlC a) a

/-- Schur complement. -/
theorem schur {ι κ μ : Type} [Fintype ι] [DecidableEq ι] [Fintype κ] [DecidableEq κ] [Fintype μ] [DecidableEq μ]
    {P S : Matrix ι ι ℝ} (hPS : P * S = 1) (hP : P.transpose = P) {l : κ → ι} {c : μ → ι} (hb : Function.Bijective (Sum.elim l c))
    (hu : IsUnit (P.submatrix c c).det) :
    (P.submatrix l l - P.submatrix l c * (P.submatrix c c)⁻¹ * (P.submatrix l c).transpose) * S.submatrix l l = 1 := by
  have hsplit : ∀ {α β : Type} (x : α → ι) (y : β → ι), P.submatrix x l * S.submatrix l y + P.submatrix x c * S.submatrix c y =
      (1 : Matrix ι ι ℝ).submatrix x y := by
    intro α β x y
    ext a b
    rw [← hPS, Matrix.add_apply, Matrix.mul_apply, Matrix.mul_apply, Matrix.submatrix_apply, Matrix.mul_apply]
    rw [← (Equiv.ofBijective _ hb).sum_comp, Fintype.sum_sum_type]
    rfl
  have hT : (P.submatrix l c).transpose = P.submatrix c l := by
    ext a b
    simpa using congrFun (congrFun hP (c a)) (l b)
  have hinjl : Function.Injective l := fun a b hab => Sum.inl_injective (hb.1 (show Sum.elim l c _ = Sum.elim l c _ from hab))
  have h1 := hsplit l l
  have h2 := hsplit c l
  rw [Matrix.submatrix_one _ hinjl] at h1
  have h0 : (1 : Matrix ι ι ℝ).submatrix c l = 0 := by
    ext a b
    rw [Matrix.submatrix_apply, Matrix.one_apply, if_neg, Matrix.zero_apply]
    intro hab
    have := hb.1 (show Sum.elim l c (Sum.inr a) = Sum.elim l c (Sum.inl b) from hab)
    simp at this
  rw [h0] at h2
  have h3 : S.submatrix c l = -((P.submatrix c c)⁻¹ * P.submatrix c l * S.submatrix l l) := by
    have : (P.submatrix c c)⁻¹ * (P.submatrix c l * S.submatrix l l + P.submatrix c c * S.submatrix c l) = 0 := by
      rw [h2, Matrix.mul_zero]
    rw [Matrix.mul_add, ← Matrix.mul_assoc, ← Matrix.mul_assoc, Matrix.nonsing_inv_mul _ hu, Matrix.one_mul] at this
    exact eq_neg_of_add_eq_zero_right this
  rw [h3] at h1
  rw [hT, Matrix.sub_mul, ← h1, Matrix.mul_neg, sub_eq_add_neg]
  simp only [Matrix.mul_assoc]

theorem marginalPrecision_spec {G : Gauss n ℝ} (h : G.Plain) (hv : ∀ i, 0 < G.variances i) (hc : G.Current)
    (on : SetOrder Unit ℕ) {l : Fin k → Fin n} (hl : Function.Injective l) :
    ∃ M, G.marginalPrecision on (fun a => (l a).val) = .ok M ∧ M * (semCov G.weight G.variances).submatrix l l = 1 := by
  have hA := h.acyclic
  have hS := semCov_posDef hA hv
  have hP : G.readPrecision.1 = (semCov G.weight G.variances)⁻¹ := hc.readPrecision hA fun i => (hv i).ne'
  set L := (on.ord () G.dag.nodes).filter fun v => ∀ a, (l a).val ≠ v with hL
  have hmem : ∀ v, v ∈ L ↔ v < n ∧ ∀ a, (l a).val ≠ v := by
    intro v
    rw [hL, List.mem_filter, on.mem_iff, h.nodes]; simp
  have hlt : ∀ a, L.get a < n := fun a => ((hmem _).1 (L.get_mem a)).1
  let c : Fin L.length → Fin n := fun a => ⟨_, hlt a⟩
  have hcp : positions n L.get = some c := by
    unfold positions
    rw [dif_pos hlt]
  have hci : Function.Injective c := by
    intro a b hab
    have hn : L.Nodup := (on.nodup _ _).filter _
    exact List.nodup_iff_injective_get.1 hn (congrArg Fin.val hab)
  have hb : Function.Bijective (Sum.elim l c) := by
    constructor
    · rintro (a | a) (b | b) hab
      · exact congrArg _ (hl hab)
      · exact absurd (congrArg Fin.val hab) (((hmem _).1 (L.get_mem b)).2 a)
      · exact absurd (congrArg Fin.val hab).symm (((hmem _).1 (L.get_mem a)).2 b)
      · exact congrArg _ (hci hab)
    · intro v
      by_cases hv : ∃ a, l a = v
      · obtain ⟨a, ha⟩ := hv
        exact ⟨Sum.inl a, ha⟩
      · push Not at hv
        obtain ⟨a, ha⟩ := List.get_of_mem ((hmem v.val).2 ⟨v.isLt, fun a h => hv a (Fin.ext h)⟩)
        exact ⟨Sum.inr a, Fin.ext ha⟩
  have hpd : ((semCov G.weight G.variances)⁻¹.submatrix c c).PosDef := hS.inv.submatrix hci
  refine ⟨_, ?_, schur (P := (semCov G.weight G.variances)⁻¹) (S := semCov G.weight G.variances) ?_ ?_ hb ?_⟩
  · unfold Gauss.marginalPrecision
    simp only [hP, positions_val]
    rw [← hL, hcp]
    simp only [invOrRaise_posDef hpd]
  · exact Matrix.nonsing_inv_mul _ ((Matrix.isUnit_iff_isUnit_det _).1 hS.isUnit)
  · rw [Matrix.transpose_nonsing_inv, semCov_symm]
  · exact (Matrix.isUnit_iff_isUnit_det _).1 hpd.isUnit

theorem remainder_eq {ι κ : Type} [Fintype ι] [DecidableEq ι] [Fintype κ] (t : ι) (p : κ → ι) (β : κ → ℝ) :
    remainder t p β = Pi.single t 1 - push p β := by
  unfold remainder
  congr 1
  funext a
  simp [push, Finset.sum_apply, Pi.single_apply, eq_comm]

theorem push_sub {ι κ : Type} [Fintype ι] [DecidableEq ι] [Fintype κ] (p : κ → ι) (β γ : κ → ℝ) :
    push p (β - γ) = push p β - push p γ := by
  funext a
  simp only [push, Pi.sub_apply, ← Finset.sum_sub_distrib]
  refine Finset.sum_congr rfl fun k _ => ?_
  split <;> simp

/-- Normal equations give the best predictor. -/
theorem bestPredictor {ι κ : Type} [Fintype ι] [DecidableEq ι] [Fintype κ] {S : Matrix ι ι ℝ} (hS : S.PosDef) {t : ι} {p : κ → ι}
    (hp : Function.Injective p) {β : κ → ℝ} (hβ : ∀ a, (S.submatrix p p *ᵥ β) a = S (p a) t) : BestPredictor S t p β := by
  intro γ hγ
  have hsym : S.transpose = S := by
    have := hS.isHermitian
    rwa [Matrix.IsHermitian, Matrix.conjTranspose_eq_transpose_of_trivial] at this
  set u := remainder t p β with hu
  have h0 : ∀ δ, lcov S (push p δ) u = 0 := by
    intro δ
    have : ∀ a, (S *ᵥ u) (p a) = 0 := by
      intro a
      rw [hu, remainder_eq, Matrix.mulVec_sub, Pi.sub_apply, mulVec_push, hβ, Matrix.mulVec_single_one]
      exact sub_self _
    rw [lcov, push_dot]
    simp [this]
  have hγu : remainder t p γ = u - push p (γ - β) := by
    rw [hu, remainder_eq, remainder_eq, push_sub]; abel
  have hexp : ∀ d, lcov S (u - d) (u - d) = lcov S u u - lcov S u d - lcov S d u + lcov S d d := by
    intro d
    simp only [lcov, Matrix.mulVec_sub, sub_dotProduct, dotProduct_sub]
    ring
  rw [hγu, hexp, lcov_comm hsym u (push p (γ - β))]
  have hd : push p (γ - β) ≠ 0 := by
    intro h
    apply hγ
    funext a
    have := congrFun h (p a)
    rw [push_apply hp] at this
    exact sub_eq_zero.1 this
  have hpos : 0 < lcov S (push p (γ - β)) (push p (γ - β)) := by
    have := hS.dotProduct_mulVec_pos hd
    rwa [star_trivial] at this
  rw [h0]
  linarith

theorem regressionCoefs_run {G : Gauss n ℝ} (hA : AcyclicWeights G.weight) (hv : ∀ i, 0 < G.variances i) (hc : G.Current)
    {tg : Fin t → Fin n} {p : Fin k → Fin n} (hp : Function.Injective p) :
    ∃ M, G.regressionCoefs (fun a => (tg a).val) (fun a => (p a).val) = .ok M ∧
      (semCov G.weight G.variances).submatrix p p * M = (semCov G.weight G.variances).submatrix p tg := by
  obtain ⟨G1, h1, -⟩ := hc.readCovariance hA
  have hpd := (semCov_posDef hA hv).submatrix hp
  refine ⟨((semCov G.weight G.variances).submatrix p p)⁻¹ * (semCov G.weight G.variances).submatrix p tg, ?_, ?_⟩
  · simp only [Gauss.regressionCoefs, h1, positions_val, invOrRaise_posDef hpd]
  · rw [← Matrix.mul_assoc, Matrix.mul_nonsing_inv _ ((Matrix.isUnit_iff_isUnit_det _).1 hpd.isUnit), Matrix.one_mul]

/-- A node and its non-descendants: the covariance satisfies the structural equation. -/
theorem semCov_structural {A : Matrix (Fin n) (Fin n) ℝ} (hA : AcyclicWeights A) (v : Fin n → ℝ) {p j : Fin n}
    (hp : ¬ Path0 (fun a b => A a b ≠ 0) j p) : semCov A v p j = ∑ x, semCov A v p x * A x j := by
  have h := congrFun (congrFun (semCov_mul hA v) p) j
  rw [Matrix.mul_sub, Matrix.mul_one, Matrix.sub_apply, Matrix.mul_diagonal, Matrix.mul_apply, Matrix.transpose_apply] at h
  have h0 : (1 - A)⁻¹ j p = 0 := by
    have hdet : IsUnit (1 - A).det := isUnit_iff_ne_zero.2 (Model.det_ne_zero hA)
    have hz : ∀ a, (Pi.single p 1 : Fin n → ℝ) a = ((1 - A)⁻¹ *ᵥ Pi.single p 1) a -
        ∑ b, A a b * ((1 - A)⁻¹ *ᵥ Pi.single p 1) b := by
      intro a
      have : (1 - A) *ᵥ ((1 - A)⁻¹ *ᵥ Pi.single p 1) = (Pi.single p 1 : Fin n → ℝ) := by
        rw [Matrix.mulVec_mulVec, Matrix.mul_nonsing_inv _ hdet, Matrix.one_mulVec]
      have h := congrFun this a
      rw [Matrix.sub_mulVec, Matrix.one_mulVec] at h
      rw [← h]
      rfl
    have := support_up hA hz (T := {a | Path0 (fun a b => A a b ≠ 0) a p}) (fun a b hab hb => .head hab hb)
      (fun a ha => by
        have : a = p := by
          by_contra hne
          exact ha (by simp [hne])
        subst this; exact .refl) j hp
    rwa [Matrix.mulVec_single_one] at this
  rw [h0, zero_mul] at h
  exact sub_eq_zero.1 h

theorem regressionCoefs_structural {G : Gauss n ℝ} (hA : AcyclicWeights G.weight) (hv : ∀ i, 0 < G.variances i)
    {tg : Fin t → Fin n} {p : Fin k → Fin n} (hp : Function.Injective p) {M : Matrix (Fin k) (Fin t) ℝ}
    (hM : (semCov G.weight G.variances).submatrix p p * M = (semCov G.weight G.variances).submatrix p tg) {b : Fin t}
    (hpar : ∀ x, G.weight x (tg b) ≠ 0 → ∃ a, p a = x) (hdesc : ∀ a, ¬ Path0 (fun x y => G.weight x y ≠ 0) (tg b) (p a)) (a : Fin k) :
    M a b = G.weight (p a) (tg b) := by
  set S := semCov G.weight G.variances
  have hpd : (S.submatrix p p).PosDef := (semCov_posDef hA hv).submatrix hp
  have hinj := Matrix.mulVec_injective_of_isUnit hpd.isUnit
  have : (S.submatrix p p) *ᵥ (fun a => M a b) = (S.submatrix p p) *ᵥ (fun a => G.weight (p a) (tg b)) := by
    funext c
    have h1 := congrFun (congrFun hM c) b
    rw [Matrix.mul_apply] at h1
    have h2 : (S.submatrix p p *ᵥ fun a => M a b) c = S (p c) (tg b) := h1
    rw [h2, show S (p c) (tg b) = _ from semCov_structural hA G.variances (hdesc c)]
    simp only [Matrix.mulVec, dotProduct, Matrix.submatrix_apply]
    symm
    refine Finset.sum_of_injOn p hp.injOn (fun _ _ => Finset.mem_univ _) ?_ (fun _ _ => rfl)
    intro x _ hx
    by_contra hne
    obtain ⟨a, ha⟩ := hpar x (right_ne_zero_of_mul hne)
    exact hx ⟨a, by simp, ha⟩
  exact congrFun (hinj this) a

theorem regressionBias_run {G : Gauss n ℝ} (h : G.Plain) (hv : ∀ i, 0 < G.variances i) (hc : G.Current)
    (hlt : ∀ i j : Fin n, (i.val, j.val) ∈ G.dag.arcs → i < j) (op : SetOrder ℕ ℕ)
    {tg : Fin t → Fin n} {p : Fin k → Fin n} (hp : Function.Injective p) :
    ∃ M m, G.regressionBias op (fun a => (tg a).val) (fun a => (p a).val) =
        .ok (M, fun b => m (tg b) - ∑ a, m (p a) * M a b) ∧ LinearSEM G.weight G.biases m ∧
      G.regressionCoefs (fun a => (tg a).val) (fun a => (p a).val) = .ok M := by
  obtain ⟨M, h1, -⟩ := regressionCoefs_run h.acyclic hv hc (tg := tg) hp
  obtain ⟨m, h2, h3⟩ := h.means_spec hlt op
  exact ⟨M, m, by simp only [Gauss.regressionBias, h1, h2, positions_val], h3, h1⟩

end Model.Gauss
