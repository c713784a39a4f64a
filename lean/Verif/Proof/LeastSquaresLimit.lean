import Mathlib.Analysis.SpecificLimits.Basic
import Mathlib.Topology.Algebra.Order.Field
import Mathlib.Analysis.Real.Sqrt
import Mathlib.Algebra.BigOperators.Field

/-! # Limits of least squares -/

namespace Spec

open Filter Topology Finset

variable {ι : Type} [Fintype ι] [DecidableEq ι]

/-- The second moments of the first `r` rows. -/
noncomputable def secondMoment (z : ℕ → ι → ℝ) (r : ℕ) (p q : ι) : ℝ := (∑ a ∈ range r, z a p * z a q) / r

omit [DecidableEq ι] in
theorem rss_expand (z : ℕ → ι → ℝ) (j : ι) (h : ι → ℝ) (r : ℕ) :
    (∑ a ∈ range r, (z a j + ∑ p, h p * z a p) ^ 2) / r =
      secondMoment z r j j + 2 * ∑ p, h p * secondMoment z r j p + ∑ p, ∑ q, h p * h q * secondMoment z r p q := by
  unfold secondMoment
  have h1 : ∀ a, (z a j + ∑ p, h p * z a p) ^ 2 =
      z a j * z a j + 2 * ∑ p, h p * (z a j * z a p) + ∑ p, ∑ q, h p * h q * (z a p * z a q) := by
    intro a
    have e1 : ∑ p, h p * (z a j * z a p) = z a j * ∑ p, h p * z a p := by
      rw [mul_sum]; exact sum_congr rfl fun p _ => by ring
    have e2 : ∑ p, ∑ q, h p * h q * (z a p * z a q) = (∑ p, h p * z a p) * ∑ p, h p * z a p := by
      rw [sum_mul_sum]; exact sum_congr rfl fun p _ => sum_congr rfl fun q _ => by ring
    rw [e1, e2]; ring
  rw [sum_congr rfl fun a _ => h1 a, sum_add_distrib, sum_add_distrib, add_div, add_div]
  congr 1
  · congr 1
    rw [← mul_sum, sum_comm, mul_div_assoc, sum_div]
    congr 1
    exact sum_congr rfl fun p _ => by rw [← mul_sum, mul_div_assoc]
  · rw [sum_comm, sum_div]
    refine sum_congr rfl fun p _ => ?_
    rw [sum_comm, sum_div]
    exact sum_congr rfl fun q _ => by rw [← mul_sum, mul_div_assoc]

theorem least_squares_limit {z : ℕ → ι → ℝ} {V : ι → ℝ} (hV : ∀ p, 0 < V p)
    (hQ : ∀ p q, Tendsto (fun r => secondMoment z r p q) atTop (𝓝 (if p = q then V p else 0))) {j : ι} {h : ℕ → ι → ℝ}
    (hj : ∀ r, h r j = 0)
    (hmin : ∀ r, ∑ a ∈ range r, (z a j + ∑ p, h r p * z a p) ^ 2 ≤ ∑ a ∈ range r, z a j ^ 2) :
    (∀ p, Tendsto (fun r => h r p) atTop (𝓝 0)) ∧
      Tendsto (fun r : ℕ => (∑ a ∈ range r, (z a j + ∑ p, h r p * z a p) ^ 2) / r) atTop (𝓝 (V j)) := by
  have key : ∀ p, Tendsto (fun r => h r p) atTop (𝓝 0) := by
    obtain ⟨p0, -, hp0⟩ := exists_min_image univ V ⟨j, mem_univ _⟩
    set m := V p0
    have hm : 0 < m := hV p0
    let R : ℕ → ι → ι → ℝ := fun r p q => secondMoment z r p q - if p = q then V p else 0
    let η : ℕ → ℝ := fun r => ∑ p, ∑ q, |R r p q|
    have hη : Tendsto η atTop (𝓝 0) := by
      have : Tendsto η atTop (𝓝 (∑ _p : ι, ∑ _q : ι, |(0 : ℝ)|)) :=
        tendsto_finsetSum _ fun p _ => tendsto_finsetSum _ fun q _ => by
          have := (hQ p q).sub_const (if p = q then V p else 0)
          rw [sub_self] at this
          exact this.abs
      simpa using this
    let H : ℕ → ℝ := fun r => ∑ p, h r p ^ 2
    have hle : ∀ r p, h r p ^ 2 ≤ H r := fun r p => single_le_sum (f := fun p => h r p ^ 2) (fun q _ => sq_nonneg _) (mem_univ p)
    have hmain : ∀ r, m * H r ≤ (2 * H r + 1) * η r := by
      intro r
      have h0 : 2 * ∑ p, h r p * secondMoment z r j p + ∑ p, ∑ q, h r p * h r q * secondMoment z r p q ≤ 0 := by
        have h1 := div_le_div_of_nonneg_right (hmin r) (Nat.cast_nonneg (α := ℝ) r)
        rw [rss_expand] at h1
        have h2 : (∑ a ∈ range r, z a j ^ 2) / r = secondMoment z r j j := by
          unfold secondMoment; simp only [sq]
        rw [h2] at h1
        linarith
      have h1 : ∑ p, h r p * secondMoment z r j p = ∑ p, h r p * R r j p := by
        refine sum_congr rfl fun p _ => ?_
        by_cases hp : j = p
        · subst hp; rw [hj]; simp
        · simp [R, hp]
      have h2 : ∑ p, ∑ q, h r p * h r q * secondMoment z r p q = ∑ p, V p * h r p ^ 2 + ∑ p, ∑ q, h r p * h r q * R r p q := by
        rw [← sum_add_distrib]
        refine sum_congr rfl fun p _ => ?_
        have : ∑ q, h r p * h r q * secondMoment z r p q =
            ∑ q, (h r p * h r q * (if p = q then V p else 0) + h r p * h r q * R r p q) :=
          sum_congr rfl fun q _ => by simp only [R]; ring
        rw [this, sum_add_distrib]
        congr 1
        simp [mul_ite]
        ring
      have h3 : m * H r ≤ ∑ p, V p * h r p ^ 2 := by
        rw [mul_sum]
        exact sum_le_sum fun p _ => mul_le_mul_of_nonneg_right (hp0 p (mem_univ _)) (sq_nonneg _)
      have h4 : -(H r * η r) ≤ ∑ p, ∑ q, h r p * h r q * R r p q := by
        rw [mul_sum, ← sum_neg_distrib]
        refine sum_le_sum fun p _ => ?_
        rw [mul_sum, ← sum_neg_distrib]
        refine sum_le_sum fun q _ => ?_
        have a1 : |h r p * h r q| ≤ H r := by
          rw [abs_le]
          constructor <;> nlinarith [hle r p, hle r q, sq_nonneg (h r p + h r q), sq_nonneg (h r p - h r q)]
        have a2 := neg_abs_le (h r p * h r q * R r p q)
        rw [abs_mul] at a2
        nlinarith [abs_nonneg (R r p q)]
      have h5 : -((H r + 1) * η r) ≤ 2 * ∑ p, h r p * R r j p := by
        have b1 : ∑ q, |R r j q| ≤ η r :=
          single_le_sum (f := fun p => ∑ q, |R r p q|) (fun p _ => sum_nonneg fun q _ => abs_nonneg _) (mem_univ j)
        have b2 : -((H r + 1) * ∑ q, |R r j q|) ≤ 2 * ∑ p, h r p * R r j p := by
          rw [mul_sum, mul_sum, ← sum_neg_distrib]
          refine sum_le_sum fun q _ => ?_
          have a1 : 2 * |h r q| ≤ H r + 1 := by
            nlinarith [hle r q, sq_nonneg (|h r q| - 1), sq_abs (h r q)]
          have a2 := neg_abs_le (h r q * R r j q)
          rw [abs_mul] at a2
          nlinarith [abs_nonneg (R r j q)]
        have b3 : 0 ≤ H r := sum_nonneg fun p _ => sq_nonneg _
        nlinarith
      rw [h1, h2] at h0
      nlinarith
    have hH : Tendsto H atTop (𝓝 0) := by
      have hu : Tendsto (fun r => 2 / m * η r) atTop (𝓝 0) := by simpa using hη.const_mul (2 / m)
      refine tendsto_of_tendsto_of_tendsto_of_le_of_le' tendsto_const_nhds hu
        (Eventually.of_forall fun r => sum_nonneg fun p _ => sq_nonneg _) ?_
      filter_upwards [hη.eventually (gt_mem_nhds (show (0 : ℝ) < m / 4 by linarith))] with r hr
      have b3 : 0 ≤ H r := sum_nonneg fun p _ => sq_nonneg _
      rw [div_mul_eq_mul_div, le_div_iff₀ hm]
      nlinarith [hmain r]
    intro p
    have : Tendsto (fun r => h r p ^ 2) atTop (𝓝 0) :=
      tendsto_of_tendsto_of_tendsto_of_le_of_le tendsto_const_nhds hH (fun r => sq_nonneg _) fun r => hle r p
    have h2 := this.sqrt
    simp only [Real.sqrt_sq_eq_abs, Real.sqrt_zero] at h2
    exact (tendsto_zero_iff_abs_tendsto_zero _).2 h2
  refine ⟨key, ?_⟩
  simp only [rss_expand]
  have h1 : Tendsto (fun r => ∑ p, h r p * secondMoment z r j p) atTop (𝓝 (∑ p, 0 * if j = p then V j else 0)) :=
    tendsto_finsetSum _ fun p _ => (key p).mul (hQ j p)
  have h2 : Tendsto (fun r => ∑ p, ∑ q, h r p * h r q * secondMoment z r p q) atTop
      (𝓝 (∑ p, ∑ q, 0 * 0 * if p = q then V p else 0)) :=
    tendsto_finsetSum _ fun p _ => tendsto_finsetSum _ fun q _ => ((key p).mul (key q)).mul (hQ p q)
  have h3 := ((hQ j j).add (h1.const_mul 2)).add h2
  simpa using h3

end Spec
