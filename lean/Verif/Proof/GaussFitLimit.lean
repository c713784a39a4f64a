import Verif.Proof.GaussFit
import Verif.Proof.GaussMisc
import Verif.Proof.NormalRows

/-! # `fit_mle` on many observations -/

namespace Model.Gauss

open Spec Filter Topology

variable {n r : ℕ}

theorem inv_path {A : Matrix (Fin n) (Fin n) ℝ} (hA : AcyclicWeights A) {a : Fin n} :
    ∀ j, (1 - A)⁻¹ a j ≠ 0 → Path0 (fun i j => A i j ≠ 0) a j := by
  have hm : (1 - A)⁻¹ * (1 - A) = 1 := Matrix.nonsing_inv_mul _ (isUnit_iff_ne_zero.2 (det_ne_zero hA))
  intro j
  induction j using (acyclic_wf hA).induction with
  | _ j ih =>
    intro hj
    by_cases haj : a = j
    · rw [haj]
    have h1 := congrFun (congrFun hm a) j
    rw [Matrix.mul_sub, Matrix.mul_one, Matrix.sub_apply, Matrix.mul_apply, Matrix.one_apply, if_neg haj, sub_eq_zero] at h1
    rw [h1] at hj
    obtain ⟨k, -, hk⟩ := Finset.exists_ne_zero_of_sum_ne_zero hj
    exact (ih k (right_ne_zero_of_mul hk) (left_ne_zero_of_mul hk)).tail (right_ne_zero_of_mul hk)

/-- The difference of two columns of weights, in terms of the noise. -/
noncomputable def noiseCoef (A : Matrix (Fin n) (Fin n) ℝ) (w : Fin n → ℝ) (j : Fin n) : Fin n → ℝ :=
  (1 - A)⁻¹.mulVec fun i => A i j - w i

theorem noiseCoef_mul {A : Matrix (Fin n) (Fin n) ℝ} (hA : AcyclicWeights A) (w : Fin n → ℝ) (j i : Fin n) :
    A i j - w i = noiseCoef A w j i - ∑ k, A i k * noiseCoef A w j k := by
  have hm : (1 - A) * (1 - A)⁻¹ = 1 := Matrix.mul_nonsing_inv _ (isUnit_iff_ne_zero.2 (det_ne_zero hA))
  have h : (1 - A).mulVec (noiseCoef A w j) = fun i => A i j - w i := by
    unfold noiseCoef
    rw [Matrix.mulVec_mulVec, hm, Matrix.one_mulVec]
  rw [Matrix.sub_mulVec, Matrix.one_mulVec] at h
  exact (congrFun h i).symm

theorem noiseCoef_self {D : DAG ℕ} (hD : D.Sortable) {A : Matrix (Fin n) (Fin n) ℝ} (hA : AcyclicWeights A)
    (hs : ∀ i j : Fin n, A i j ≠ 0 → (i.val, j.val) ∈ D.arcs) {w : Fin n → ℝ} {j : Fin n}
    (hw : ∀ i, w i ≠ 0 → (i.val, j.val) ∈ D.arcs) : noiseCoef A w j j = 0 := by
  by_contra hne
  obtain ⟨i, -, hi⟩ := Finset.exists_ne_zero_of_sum_ne_zero (show ∑ i, (1 - A)⁻¹ j i * (A i j - w i) ≠ 0 from hne)
  have hp := inv_path hA i (left_ne_zero_of_mul hi)
  have hij : D.E i.val j.val := by
    by_cases h : A i j = 0
    · have := right_ne_zero_of_mul hi
      rw [h, zero_sub] at this
      exact hw i (neg_ne_zero.1 this)
    · exact hs i j h
  refine hD.acyclic j.val (Relation.TransGen.tail' (?_ : Relation.ReflTransGen D.E j.val i.val) hij)
  have hlift : ∀ i, Path0 (fun i j => A i j ≠ 0) j i → Relation.ReflTransGen D.E j.val i.val := fun i h => by
    induction h with
    | refl => exact .refl
    | tail _ h' ih => exact ih.tail (hs _ _ h')
  exact hlift i hp

/-- A residual in terms of the noise. -/
theorem residual_noise {A : Matrix (Fin n) (Fin n) ℝ} (hA : AcyclicWeights A) {y e : Fin n → ℝ} (hx : ∀ j, y j = ∑ i, A i j * y i + e j)
    (b : Fin n → ℝ) (w : Fin n → ℝ) (β : ℝ) (j : Fin n) :
    y j - (∑ i, w i * y i + β) = (e j - b j) + ((b j + ∑ k, noiseCoef A w j k * b k - β) + ∑ k, noiseCoef A w j k * (e k - b k)) := by
  have h1 : ∑ i, (A i j - w i) * y i = ∑ k, noiseCoef A w j k * e k := by
    have : ∀ i, (A i j - w i) * y i = noiseCoef A w j i * y i - ∑ k, A i k * noiseCoef A w j k * y i := fun i => by
      rw [noiseCoef_mul hA w j i, sub_mul, Finset.sum_mul]
    rw [Finset.sum_congr rfl fun i _ => this i, Finset.sum_sub_distrib, Finset.sum_comm, ← Finset.sum_sub_distrib]
    refine Finset.sum_congr rfl fun k _ => ?_
    have h2 : e k = y k - ∑ i, A i k * y i := by rw [eq_sub_iff_add_eq, add_comm]; exact (hx k).symm
    rw [h2, mul_sub, Finset.mul_sum]
    congr 1
    exact Finset.sum_congr rfl fun i _ => by ring
  have h3 : ∑ i, (A i j - w i) * y i = ∑ i, A i j * y i - ∑ i, w i * y i := by
    rw [← Finset.sum_sub_distrib]; exact Finset.sum_congr rfl fun i _ => by ring
  have h4 : ∑ k, noiseCoef A w j k * (e k - b k) = ∑ k, noiseCoef A w j k * e k - ∑ k, noiseCoef A w j k * b k := by
    rw [← Finset.sum_sub_distrib]; exact Finset.sum_congr rfl fun i _ => by ring
  rw [h4, ← h1, h3]
  have := hx j
  linarith

/-- Least squares on more and more observations. -/
theorem nodeFit_limit {D : DAG ℕ} (hD : D.Sortable) {A : Matrix (Fin n) (Fin n) ℝ} (hA : AcyclicWeights A)
    (hs : ∀ i j : Fin n, A i j ≠ 0 → (i.val, j.val) ∈ D.arcs) {b v : Fin n → ℝ} (hv : ∀ k, 0 < v k) {e : ℕ → Fin n → ℝ}
    (hQ : ∀ p q : Option (Fin n), Tendsto (fun r => secondMoment (fun a (p : Option (Fin n)) => p.elim 1 fun k => e a k - b k) r p q)
      atTop (𝓝 (if p = q then p.elim 1 v else 0)))
    {x : ∀ r : ℕ, Matrix (Fin r) (Fin n) ℝ} (hx : ∀ r a j, x r a j = ∑ i, A i j * x r a i + e a j) {j : Fin n} {w : ℕ → Fin n → ℝ}
    {β s : ℕ → ℝ} (hf : ∀ r, NodeFit D (x r) (w r) (β r) (s r) j) :
    (∀ i, Tendsto (fun r => w r i) atTop (𝓝 (A i j))) ∧ Tendsto β atTop (𝓝 (b j)) ∧
      Tendsto (fun r : ℕ => s r / r) atTop (𝓝 (v j)) := by
  let z : ℕ → Option (Fin n) → ℝ := fun a p => p.elim 1 fun k => e a k - b k
  let γ : ℕ → ℝ := fun r => b j + ∑ k, noiseCoef A (w r) j k * b k - β r
  let h : ℕ → Option (Fin n) → ℝ := fun r p => p.elim (γ r) (noiseCoef A (w r) j)
  have hrss : ∀ r, rss (x r) j (w r) (β r) = ∑ a ∈ Finset.range r, (z a (some j) + ∑ p, h r p * z a p) ^ 2 := by
    intro r
    rw [Finset.sum_range]
    refine Finset.sum_congr rfl fun a _ => ?_
    rw [residual_noise hA (hx r a) b (w r) (β r) j, Fintype.sum_option]
    simp only [z, h, γ, Option.elim, mul_one]
  have htrue : ∀ r, rss (x r) j (fun i => A i j) (b j) = ∑ a ∈ Finset.range r, z a (some j) ^ 2 := by
    intro r
    rw [Finset.sum_range]
    refine Finset.sum_congr rfl fun a _ => ?_
    have := hx r a j
    simp only [z, Option.elim]
    congr 1
    linarith
  obtain ⟨k1, k2⟩ := least_squares_limit (z := z) (V := fun p => p.elim 1 v) (by rintro (_ | k); exacts [one_pos, hv k]) hQ
    (j := some j) (h := h) (fun r => noiseCoef_self hD hA hs (hf r).support) fun r => by
      rw [← hrss, ← htrue]
      exact (hf r).min _ _ fun i hi => hs i j hi
  have hc : ∀ k, Tendsto (fun r => noiseCoef A (w r) j k) atTop (𝓝 0) := fun k => k1 (some k)
  have hγ : Tendsto γ atTop (𝓝 0) := k1 none
  refine ⟨fun i => ?_, ?_, ?_⟩
  · have h1 : ∀ r, w r i = A i j - (noiseCoef A (w r) j i - ∑ k, A i k * noiseCoef A (w r) j k) := fun r => by
      rw [← noiseCoef_mul hA]; ring
    simp only [h1]
    have h2 := ((hc i).sub (tendsto_finsetSum Finset.univ fun k _ => (hc k).const_mul (A i k))).const_sub (A i j)
    simpa using h2
  · have h1 : ∀ r, β r = b j + ∑ k, noiseCoef A (w r) j k * b k - γ r := fun r => by simp only [γ]; ring
    have h2 := ((tendsto_finsetSum Finset.univ fun k _ => (hc k).mul_const (b k)).const_add (b j)).sub hγ
    have h3 : Tendsto (fun r => b j + ∑ k, noiseCoef A (w r) j k * b k - γ r) atTop (𝓝 (b j)) := by simpa using h2
    exact h3.congr fun r => (h1 r).symm
  · refine k2.congr fun r => ?_
    rw [(hf r).var, hrss]

end Model.Gauss
