import Verif.Proof.GGMToDag
import Verif.Proof.IMap
import Verif.Props.GGM
import Verif.Props.GaussFactor
import Verif.Spec.GaussImap

/-! # `GGM.to_gauss_dag` (property C218)

The docstring promises a `GaussDAG` with the same mean and covariance that is a minimal I-map consistent with the order. -/

namespace Props

open Model Spec Matrix

variable {n : ℕ}

theorem partialCorr_exists {P : Matrix (Fin n) (Fin n) ℝ} (hP : P.PosDef) {i j : Fin n} {C : Set (Fin n)} (hij : i ≠ j) (hi : i ∉ C)
    (hj : j ∉ C) : ∃ ρ, PartialCorr P⁻¹ i j C ρ := by
  classical
  obtain ⟨-, h2, h3⟩ := C140_edges (SetOrder.any _ _) (SetOrder.any _ _) (SetOrder.any _ _) hP none
  obtain ⟨ρ, -, -, h, -⟩ := GGM.partialCorrelation_spec (by rw [h3]; exact hP) h2 (SetOrder.any _ _) hij (C := Finset.univ.filter (· ∈ C))
    (by simpa using hi) (by simpa using hj)
  rw [h3] at h
  exact ⟨ρ, by simpa using h⟩

/-- The graph of structural equations ordered by `order` is a minimal I-map. -/
theorem sem_minimal {A : Matrix (Fin n) (Fin n) ℝ} (hA : AcyclicWeights A) {v : Fin n → ℝ} (hv : ∀ i, 0 < v i)
    {order : Fin n ≃ Fin n} (ho : ∀ i j, A i j ≠ 0 → order.symm i < order.symm j) :
    MinimalGaussImap (fun i j => A i j ≠ 0) (semCov A v) := by
  have hpd := semCov_posDef hA hv
  have hinv : ((semCov A v)⁻¹)⁻¹ = semCov A v :=
    Matrix.nonsing_inv_nonsing_inv _ ((Matrix.isUnit_iff_isUnit_det _).1 hpd.isUnit)
  constructor
  · intro i j C hij hi hj hd
    obtain ⟨ρ, hρ⟩ := partialCorr_exists hpd.inv hij hi hj
    rw [hinv] at hρ
    rwa [partialCorr_dsep hA hv hij hi hj hd hρ] at hρ
  · intro F hF himap i j hij
    by_contra hne
    have hFA : Acyclic F := acyclic_mono hF hA
    have hlt := ho i j hij
    have hp : ∀ a b, Path F a b → order.symm a < order.symm b := by
      intro a b hab
      induction hab with
      | single h => exact ho _ _ (hF _ _ h)
      | tail _ h ih => exact ih.trans (ho _ _ (hF _ _ h))
    let D : Set (Fin n) := {k | order.symm k < order.symm j ∧ k ≠ i ∧ ¬ F k j}
    have h1 : DSep F {j} ({i} ∪ D) {p | F p j} := by
      refine dsep_mono subset_rfl ?_ (local_markov hFA j)
      rintro k (rfl | ⟨h1, h2, h3⟩)
      · refine ⟨fun e => hlt.ne (by rw [e]), fun h => lt_asymm hlt (hp _ _ h), hne⟩
      · exact ⟨fun e => h1.ne (by rw [e]), fun h => lt_asymm h1 (hp _ _ h), h3⟩
    have h2 := dsep_weak_union hFA (by
      rw [Set.disjoint_left]; rintro x rfl hx; exact hFA.irrefl hx) (by
      rw [Set.disjoint_left]; rintro x rfl hx; exact lt_irrefl _ hx.1) h1
    have hC : {p | F p j} ∪ D = {k | order.symm k < order.symm j ∧ k ≠ i} := by
      ext k
      simp only [Set.mem_union, Set.mem_ofPred_eq, D]
      constructor
      · rintro (h | ⟨h1, h2, -⟩)
        · refine ⟨ho _ _ (hF _ _ h), ?_⟩
          rintro rfl
          exact hne h
        · exact ⟨h1, h2⟩
      · rintro ⟨h1, h2⟩
        by_cases h : F k j
        · exact Or.inl h
        · exact Or.inr ⟨h1, h2, h⟩
    rw [hC] at h2
    have h3 := himap i j _ (fun e => hlt.ne (by rw [e])) (by simp) (by simp) (dsep_symm h2)
    refine hij ((partialCorr_blanket hA hv (r := fun a => (order.symm a).val) (fun a b hab => ho a b hab) hlt ?_ ?_ h3).1 rfl)
    · intro g hg
      exact hg
    · intro g h1 h2 _
      exact ⟨h2, h1⟩

/-- C218 (partial: the class imported as `GaussDAG` takes `means`, and no partial correlation is below the tolerance). For every order of
the nodes the graph returned is a minimal I-map of the covariance consistent with the order. With `b` and `v` as biases and variances
of the nodes it would have the mean and the covariance; but what it gets at position `k` is the value of the `k`-th node of the order. -/
theorem C218_any_order_partial (o : SetOrder (Option ℕ) ℕ) (oc : SetOrder Unit ℕ) (op : SetOrder ℕ ℕ) (oa : SetOrder Bool (ℕ × ℕ))
    {G : GGM n} (hP : G.precision.PosDef) (hc : G.Current) (hd : G.Drawn) (htiny : NoTinyCorr G.precision⁻¹ (1 / 10 ^ 8))
    (order : Fin n ≃ Fin n) :
    ∃ (H : Gauss n ℝ) (b v : Fin n → ℝ), G.toGaussDag true o oc op oa (fun k => (order k).val) = some (.ok H) ∧ H.Plain ∧ H.CurrentR ∧
      (∀ i j : Fin n, (i.val, j.val) ∈ H.dag.arcs → order.symm i < order.symm j) ∧
      MinimalGaussImap (fun i j : Fin n => (i.val, j.val) ∈ H.dag.arcs) G.precision⁻¹ ∧
      (∀ i, 0 < v i) ∧ semCov H.weight v = G.precision⁻¹ ∧ LinearSEM H.weight b G.means ∧
      (∀ k, H.biases k = b (order k)) ∧ ∀ k, H.variances k = v (order k) := by
  obtain ⟨A, v, hA, hv, ho, hS⟩ := Gauss.exists_sem hP order
  have hS' : semCov A v = G.precision⁻¹ := by
    rw [← hS, Matrix.nonsing_inv_nonsing_inv _ ((Matrix.isUnit_iff_isUnit_det _).1 (semCov_posDef hA hv).isUnit)]
  obtain ⟨⟨H, h1, h2, h3, h4, h5, h6, h7, h8, h9⟩, -⟩ := GGM.toGaussDag_spec o oc op oa hA hv ho hP hc hd hS' htiny
  have hp := Linked.plain h2 h3 (h4 ▸ hA)
  have harc : ∀ i j : Fin n, (i.val, j.val) ∈ H.dag.arcs ↔ A i j ≠ 0 := fun i j => by
    have := h2.arcs_iff i j
    rwa [h3, h4] at this
  refine ⟨H, fun i => G.means i - ∑ x, A x i * G.means x, v, h1, hp, currentR_of_fresh h8 h7 h9, fun i j hij => ho _ _ ((harc i j).1 hij),
    ?_, hv, h4 ▸ hS', fun j => ?_, fun k => by rw [h5], fun k => by rw [h6]⟩
  · simp only [harc]
    exact hS' ▸ sem_minimal hA hv ho
  · rw [h4]
    simp only [smul_eq_mul]
    ring

/-- C218 (partial: only for the order `0, …, n-1`, and under the conditions of `C218_any_order_partial`). The graph returned has the same
covariance and mean as the model and is a minimal I-map of it, consistent with the order. -/
theorem C218_natural_order_partial (o : SetOrder (Option ℕ) ℕ) (oc : SetOrder Unit ℕ) (op om : SetOrder ℕ ℕ)
    (oa : SetOrder Bool (ℕ × ℕ)) {G : GGM n} (hP : G.precision.PosDef) (hc : G.Current) (hd : G.Drawn)
    (htiny : NoTinyCorr G.precision⁻¹ (1 / 10 ^ 8)) :
    ∃ (H H1 : Gauss n ℝ), G.toGaussDag true o oc op oa Fin.val = some (.ok H) ∧ H.Plain ∧
      H.readCovariance = .ok (G.precision⁻¹, H1) ∧ H.means om = .ok G.means ∧
      (∀ i j : Fin n, (i.val, j.val) ∈ H.dag.arcs → i < j) ∧
      MinimalGaussImap (fun i j : Fin n => (i.val, j.val) ∈ H.dag.arcs) G.precision⁻¹ := by
  obtain ⟨H, b, v, h1, h2, h3, h4, h5, h6, h7, h8, h9, h10⟩ := C218_any_order_partial o oc op oa hP hc hd htiny (Equiv.refl _)
  have hb : H.biases = b := funext h9
  have hvv : H.variances = v := funext h10
  obtain ⟨H1, k1, -⟩ := h3.toCurrent.readCovariance h2.acyclic
  obtain ⟨m, k2, k3⟩ := h2.means_spec h4 om
  refine ⟨H, H1, h1, h2, ?_, ?_, h4, h5⟩
  · rw [k1, hvv, h7]
  · rw [k2, sem_unique h2.acyclic k3 (hb ▸ h8)]

/-- C218 is violated: with the class `GaussDAG` of this package, which has no parameter `means`, every call ends in a `TypeError`. -/
theorem C218_violated_keyword (o : SetOrder (Option ℕ) ℕ) (oc : SetOrder Unit ℕ) (op : SetOrder ℕ ℕ) (oa : SetOrder Bool (ℕ × ℕ))
    {G : GGM n} (hP : G.precision.PosDef) (hc : G.Current) (hd : G.Drawn) (htiny : NoTinyCorr G.precision⁻¹ (1 / 10 ^ 8))
    (order : Fin n ≃ Fin n) : G.toGaussDag false o oc op oa (fun k => (order k).val) = some (.error .type) := by
  obtain ⟨A, v, hA, hv, ho, hS⟩ := Gauss.exists_sem hP order
  have hS' : semCov A v = G.precision⁻¹ := by
    rw [← hS, Matrix.nonsing_inv_nonsing_inv _ ((Matrix.isUnit_iff_isUnit_det _).1 (semCov_posDef hA hv).isUnit)]
  exact (GGM.toGaussDag_spec o oc op oa hA hv ho hP hc hd hS' htiny).2

/-! ## The witness: 0 → 1 with weight 1 and variances 1, 2 -/

/-- The covariance of the witness. -/
noncomputable def pairCov : Matrix (Fin 2) (Fin 2) ℝ := !![1, 1; 1, 3]

theorem pairCov_eq : semCov (!![0, 1; 0, 0] : Matrix (Fin 2) (Fin 2) ℝ) ![1, 2] = pairCov := by
  have hA : AcyclicWeights (!![0, 1; 0, 0] : Matrix (Fin 2) (Fin 2) ℝ) :=
    acyclicWeights_of_rank ![0, 1] fun i j => by fin_cases i <;> fin_cases j <;> simp
  have hinv : (1 - !![0, 1; 0, 0] : Matrix (Fin 2) (Fin 2) ℝ)⁻¹ = !![1, 1; 0, 1] := by
    refine Matrix.inv_eq_right_inv ?_
    ext a b
    fin_cases a <;> fin_cases b <;> simp [Matrix.mul_apply, Fin.sum_univ_two, Matrix.one_apply]
  unfold semCov pairCov
  rw [hinv]
  ext a b
  fin_cases a <;> fin_cases b <;> simp [Matrix.mul_apply, Fin.sum_univ_two, Matrix.diagonal_apply] <;> norm_num

theorem pairCov_posDef : pairCov.PosDef := by
  rw [← pairCov_eq]
  exact semCov_posDef (acyclicWeights_of_rank ![0, 1] fun i j => by fin_cases i <;> fin_cases j <;> simp)
    fun i => by fin_cases i <;> simp

theorem pairCov_noTiny : NoTinyCorr pairCov (1 / 10 ^ 8) := by
  intro i j C ρ hij hi hj hρ
  have hC : C = ∅ := by
    ext x
    simp only [Set.mem_empty_iff_false, iff_false]
    intro hx
    have h1 : x ≠ i := by rintro rfl; exact hi hx
    have h2 : x ≠ j := by rintro rfl; exact hj hx
    omega
  subst hC
  right
  rw [partialCorr_unique pairCov_posDef (by simp) (by simp) hρ (partialCorr_empty pairCov_posDef i j)]
  have h3 : √(3 : ℝ) ≤ 2 := by
    rw [Real.sqrt_le_left (by norm_num)]
    norm_num
  have h4 : (0 : ℝ) < √3 := Real.sqrt_pos.2 (by norm_num)
  have h5 : (1 : ℝ) / 10 ^ 8 < 1 / √3 := by
    rw [div_lt_div_iff₀ (by norm_num) h4]
    norm_num
    linarith
  have h6 : |√(3 : ℝ)| = √3 := abs_of_pos h4
  fin_cases i <;> fin_cases j <;> simp [pairCov, h6] at hij ⊢ <;> simpa using h5

/-- The model of the witness. -/
theorem pair_model (on : SetOrder Unit ℕ) (oe : SetOrder Unit (Finset ℕ)) (ou : SetOrder Unit ℕ) (m : Option (Fin 2 → ℝ)) :
    ∃ G, GGM.fromCovariance on oe ou pairCov m = .ok G ∧ G.precision.PosDef ∧ G.Drawn ∧ G.Current ∧ G.precision⁻¹ = pairCov := by
  obtain ⟨G, h1, h2, h3, h4, h5, -⟩ := C142_from_covariance on oe ou pairCov_posDef m
  exact ⟨G, h1, h2, h4, h5, Matrix.inv_eq_right_inv h3⟩

/-- The hypotheses of the theorems above are met. -/
example (on : SetOrder Unit ℕ) (oe : SetOrder Unit (Finset ℕ)) (ou : SetOrder Unit ℕ) (o : SetOrder (Option ℕ) ℕ) (oc : SetOrder Unit ℕ)
    (op om : SetOrder ℕ ℕ) (oa : SetOrder Bool (ℕ × ℕ)) :
    ∃ G H H1, GGM.fromCovariance on oe ou pairCov (some ![5, 7]) = .ok G ∧ G.toGaussDag true o oc op oa Fin.val = some (.ok H) ∧
      H.readCovariance = .ok (pairCov, H1) ∧ H.means om = .ok G.means ∧
      G.toGaussDag false o oc op oa Fin.val = some (.error .type) := by
  obtain ⟨G, h1, h2, h3, h4, h5⟩ := pair_model on oe ou (some ![5, 7])
  have ht : NoTinyCorr G.precision⁻¹ (1 / 10 ^ 8) := h5 ▸ pairCov_noTiny
  obtain ⟨H, H1, k1, -, k2, k3, -⟩ := C218_natural_order_partial o oc op om oa h2 h4 h3 ht
  exact ⟨G, H, H1, h1, k1, h5 ▸ k2, k3, C218_violated_keyword o oc op oa h2 h4 h3 ht (Equiv.refl _)⟩

/-- C218 is violated, also if the class takes `means`: for the order 1, 0 the variances are exchanged, and the covariance of the graph
returned is not that of the model. -/
theorem C218_violated (on : SetOrder Unit ℕ) (oe : SetOrder Unit (Finset ℕ)) (ou : SetOrder Unit ℕ) (o : SetOrder (Option ℕ) ℕ)
    (oc : SetOrder Unit ℕ) (op : SetOrder ℕ ℕ) (oa : SetOrder Bool (ℕ × ℕ)) :
    ∃ (G : GGM 2) (H H1 : Gauss 2 ℝ) (S : Matrix (Fin 2) (Fin 2) ℝ), GGM.fromCovariance on oe ou pairCov none = .ok G ∧
      G.toGaussDag true o oc op oa ![1, 0] = some (.ok H) ∧ H.readCovariance = .ok (S, H1) ∧ S ≠ pairCov := by
  obtain ⟨G, h1, h2, h3, h4, h5⟩ := pair_model on oe ou none
  obtain ⟨H, b, v, k1, k2, k3, k4, k5, k6, k7, k8, k9, k10⟩ := C218_any_order_partial o oc op oa h2 h4 h3 (h5 ▸ pairCov_noTiny)
    (Equiv.swap 0 1)
  have hperm : (fun k => ((Equiv.swap (0 : Fin 2) 1) k).val) = ![1, 0] := by
    funext k
    fin_cases k <;> simp
  rw [hperm] at k1
  obtain ⟨H1, k11, -⟩ := k3.toCurrent.readCovariance k2.acyclic
  refine ⟨G, H, H1, _, h1, k1, k11, fun he => ?_⟩
  have hW : ∀ i j : Fin 2, (i, j) ≠ (1, 0) → H.weight i j = 0 := by
    intro i j hij
    by_contra hne
    have := k4 i j (by
      have h := k2.arcs_iff i j
      rw [k2.names, k2.names] at h
      exact h.2 hne)
    fin_cases i <;> fin_cases j <;> simp at this hij
  have e1 := semCov_variance k2.acyclic v 1
  have e2 := semCov_variance k2.acyclic H.variances 1
  rw [k7, h5] at e1
  rw [he] at e2
  rw [k10] at e2
  have e3 := semCov_variance k2.acyclic v 0
  rw [k7, h5] at e3
  have e4 := Gauss.semCov_structural k2.acyclic v (p := 1) (j := 0) (fun hp => by
    rcases Relation.ReflTransGen.cases_head hp with h | ⟨c, h, -⟩
    · simp at h
    · exact h (hW 0 c (by simp)))
  rw [k7, h5] at e4
  simp [Fin.sum_univ_two, pairCov, hW 0 1 (by simp), hW 1 1 (by simp), hW 0 0 (by simp)] at e1 e2 e3 e4
  linarith

end Props
