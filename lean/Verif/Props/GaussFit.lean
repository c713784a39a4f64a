import Verif.Proof.GaussFit
import Verif.Props.GaussMoments
import Mathlib.Analysis.SpecialFunctions.Log.Deriv
import Mathlib.Analysis.Complex.ExponentialBounds

/-! # `GaussDAG.fit_mle` (property C121) -/

namespace Props

set_option linter.unusedSectionVars false

open Model Spec

variable {n r : ℕ}

/-- C121, weights and biases: `fit_mle(dag, samples)` raises nothing, its arcs are among those of `dag`, and for fixed positive variances
no other weights on the arcs of `dag`, with any biases, give the samples a larger likelihood. The variances are the residual sums of
squares. Missing: the variances. -/
theorem C121_weights_partial {D : DAG ℕ} (hD : D.Sortable) (hn : ∀ v, v ∈ D.nodes ↔ v < n) (lstsq : Gauss.Lstsq)
    (od : SetOrder Unit ℕ) (op : SetOrder ℕ ℕ) (oa : SetOrder Bool (ℕ × ℕ)) (x : Matrix (Fin r) (Fin n) ℝ) :
    ∃ G, Gauss.fitMle lstsq od op oa D x = .ok G ∧ G.Plain ∧ (∀ i j, (i, j) ∈ G.dag.arcs → (i, j) ∈ D.arcs) ∧
      (∀ (A : Matrix (Fin n) (Fin n) ℝ) (b v : Fin n → ℝ), (∀ i j : Fin n, A i j ≠ 0 → (i.val, j.val) ∈ D.arcs) → (∀ j, 0 < v j) →
        logLik A b v x ≤ logLik G.weight G.biases v x) ∧
      ∀ j, G.variances j = ∑ a, residual G.weight G.biases (x a) j ^ 2 := by
  obtain ⟨G, h1, h2, h3, h4⟩ := Gauss.fitMle_spec lstsq od op oa hD hn x
  have hA : AcyclicWeights G.weight := by
    intro v hv
    have : ∀ i j, Path (fun i j => G.weight i j ≠ 0) i j → Path D.E i.val j.val := fun i j hij => by
      induction hij with
      | single h' => exact .single ((h4 _).support _ h')
      | tail _ h' ih => exact ih.tail ((h4 _).support _ h')
    exact hD.acyclic _ (this v v hv)
  have hp : G.Plain := Linked.plain h2 h3 hA
  refine ⟨G, h1, hp, fun i j hij => ?_, fun A b v hs hv => ?_, fun j => (h4 j).var⟩
  · obtain ⟨a, rfl⟩ := (h2.range _).1 (h2.views.fst_mem _ _ hij)
    obtain ⟨b, rfl⟩ := (h2.range _).1 (h2.views.snd_mem _ _ hij)
    have := (h4 b).support a ((h2.arcs_iff a b).1 hij)
    rwa [h3]
  · exact Gauss.logLik_mono hv fun j => (h4 j).min _ _ fun i hi => hs i j hi

/-- What is missing in C121: after dividing the variances by the number of samples the parameters have maximal likelihood, if
no variable is a linear combination of its parents and a constant in the samples. -/
theorem C121_rescaled_partial {D : DAG ℕ} (hD : D.Sortable) (hn : ∀ v, v ∈ D.nodes ↔ v < n) (lstsq : Gauss.Lstsq)
    (od : SetOrder Unit ℕ) (op : SetOrder ℕ ℕ) (oa : SetOrder Bool (ℕ × ℕ)) (x : Matrix (Fin r) (Fin n) ℝ) (hr : 0 < r) {G : Gauss n ℝ}
    (hG : Gauss.fitMle lstsq od op oa D x = .ok G) (hpos : ∀ j, 0 < G.variances j) {A : Matrix (Fin n) (Fin n) ℝ} {b v : Fin n → ℝ}
    (hs : ∀ i j : Fin n, A i j ≠ 0 → (i.val, j.val) ∈ D.arcs) (hv : ∀ j, 0 < v j) :
    logLik A b v x ≤ logLik G.weight G.biases (fun j => G.variances j / r) x := by
  obtain ⟨G', h1, -, -, h4⟩ := Gauss.fitMle_spec lstsq od op oa hD hn x
  rw [hG] at h1
  cases h1
  have hr' : (0 : ℝ) < r := by exact_mod_cast hr
  refine (Gauss.logLik_mono hv fun j => (h4 j).min _ _ fun i hi => hs i j hi).trans ?_
  rw [Gauss.logLik_eq _ _ hv, Gauss.logLik_eq _ _ fun j => div_pos (hpos j) hr']
  refine Finset.sum_le_sum fun j _ => ?_
  rw [← (h4 j).var]
  exact Gauss.variance_max (hpos j) (hv j) hr'

/-- C121 is violated: one variable with the observations 0 and 2. The variance 1 gives a larger likelihood than the returned one,
which is 2. -/
theorem C121_violated (lstsq : Gauss.Lstsq) (od : SetOrder Unit ℕ) (op : SetOrder ℕ ℕ) (oa : SetOrder Bool (ℕ × ℕ)) :
    ∃ G, Gauss.fitMle lstsq od op oa (DAG.empty {0}) (!![0; 2] : Matrix (Fin 2) (Fin 1) ℝ) = .ok G ∧ G.variances 0 = 2 ∧
      logLik G.weight G.biases G.variances !![0; 2] < logLik G.weight G.biases 1 (!![0; 2] : Matrix (Fin 2) (Fin 1) ℝ) := by
  have hD : (DAG.empty {0} : DAG ℕ).Sortable :=
    { parents_iff := by simp [DAG.empty], children_iff := by simp [DAG.empty], fst_mem := by simp [DAG.empty]
      snd_mem := by simp [DAG.empty]
      acyclic := by
        intro v hv
        obtain ⟨c, hc, -⟩ := Relation.TransGen.head'_iff.1 hv
        simp [DAG.E, DAG.empty] at hc }
  obtain ⟨G, h1, -, -, h4⟩ := Gauss.fitMle_spec lstsq od op oa hD (n := 1) (by simp [DAG.empty]) (!![0; 2] : Matrix (Fin 2) (Fin 1) ℝ)
  have hw : G.weight 0 0 = 0 := by
    by_contra hc
    have := (h4 0).support 0 hc
    simp [DAG.empty] at this
  have hrss : ∀ b : ℝ, Gauss.rss (!![0; 2] : Matrix (Fin 2) (Fin 1) ℝ) 0 (fun _ => 0) b = b ^ 2 + (2 - b) ^ 2 := by
    intro b
    simp [Gauss.rss, Fin.sum_univ_two]
  have hw' : (fun i => G.weight i 0) = fun _ : Fin 1 => (0 : ℝ) := by
    funext i; rw [Fin.eq_zero i]; exact hw
  have h5 := (h4 0).min (fun _ => 0) 1 (by simp)
  have h6 := (h4 0).var
  rw [hw', hrss] at h5 h6
  rw [hrss] at h5
  have hvar : G.variances 0 = 2 := by
    rw [h6]
    have := sq_nonneg (G.biases 0 - 1)
    nlinarith
  refine ⟨G, h1, hvar, ?_⟩
  have hv : ∀ j, 0 < G.variances j := fun j => by rw [Fin.eq_zero j, hvar]; norm_num
  rw [Gauss.logLik_eq _ _ hv, Gauss.logLik_eq _ _ (v := 1) (by simp)]
  simp only [Fin.sum_univ_one, hw']
  rw [hrss, ← h6, hvar]
  have hp : (0:ℝ) < 2 * Real.pi := by positivity
  rw [Real.log_mul hp.ne' two_ne_zero]
  have := Real.log_two_gt_d9
  norm_num
  linarith

/-! ## Concrete cases of the hypotheses -/

namespace GaussCase

theorem normal_solvable {k : ℕ} (m : Matrix (Fin k) (Fin k) ℝ) (c : Fin k → ℝ) :
    ∃ β, m.transpose.mulVec (m.mulVec β - c) = 0 := by
  have h1 : LinearMap.range (m.transpose * m).mulVecLin = LinearMap.range m.transpose.mulVecLin := by
    apply Submodule.eq_of_le_of_finrank_eq
    · rw [Matrix.mulVecLin_mul]
      exact LinearMap.range_comp_le_range _ _
    · have := m.rank_transpose_mul_self
      rw [← m.rank_transpose] at this
      exact this
  have h2 : m.transpose.mulVec c ∈ LinearMap.range (m.transpose * m).mulVecLin := by
    rw [h1]; exact ⟨c, rfl⟩
  obtain ⟨β, hβ⟩ := h2
  refine ⟨β, ?_⟩
  rw [Matrix.mulVec_sub, Matrix.mulVec_mulVec, sub_eq_zero]
  exact hβ

/-- Least squares solutions exist. -/
noncomputable def leastSquares : Gauss.Lstsq where
  solve m c := (normal_solvable m c).choose
  normal m c := (normal_solvable m c).choose_spec

/-- The arc 0 → 1. -/
def arc01 : DAG ℕ := DAG.addArcUnchecked (DAG.empty {0, 1}) 0 1

theorem arc01_sortable : arc01.Sortable := by
  have harc : arc01.arcs = {(0, 1)} := by decide
  refine ⟨?_, ?_, ?_, ?_, ?_⟩
  · intro i j
    simp only [arc01, DAG.addArcUnchecked, DAG.link, DAG.empty, Function.update]
    grind
  · intro i j
    simp only [arc01, DAG.addArcUnchecked, DAG.link, DAG.empty, Function.update]
    grind
  · intro i j h
    rw [harc] at h
    simp at h
    rw [h.1]; decide
  · intro i j h
    rw [harc] at h
    simp at h
    rw [h.2]; decide
  · refine acyclic_of_rank id fun i j h => ?_
    have h : (i, j) ∈ arc01.arcs := h
    rw [harc] at h
    simp at h
    simp [h.1, h.2]

example (od : SetOrder Unit ℕ) (op : SetOrder ℕ ℕ) (oa : SetOrder Bool (ℕ × ℕ)) (x : Matrix (Fin 5) (Fin 2) ℝ) :
    ∃ G, Gauss.fitMle leastSquares od op oa arc01 x = .ok G ∧
      ∀ w b0, logLik !![0, w; 0, 0] b0 1 x ≤ logLik G.weight G.biases 1 x := by
  obtain ⟨G, h1, -, -, h2, -⟩ := C121_weights_partial arc01_sortable (n := 2) (by
    intro v
    have : arc01.nodes = {0, 1} := by decide
    rw [this]; simp; omega) leastSquares od op oa x
  refine ⟨G, h1, fun w b0 => h2 _ _ _ (fun i j hij => ?_) (by simp)⟩
  have harc : arc01.arcs = {(0, 1)} := by decide
  rw [harc]
  fin_cases i <;> fin_cases j <;> simp_all

end GaussCase

end Props
