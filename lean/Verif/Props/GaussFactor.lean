import Verif.Props.GaussMoments

/-! # `GaussDAG.from_precision`, `from_covariance`, `from_amat` (properties C112–C114) -/

namespace Props

set_option linter.unusedSectionVars false

open Model Spec

variable {n : ℕ}

/-! ## C112 -/

/-- C112 (partial: only if no nonzero entry of the Cholesky factor is at most 1e-8 in absolute value, which is what the conditions on
`A` and `v` say). For every positive definite matrix and every order of the nodes there are weights following the order and
variances with this precision matrix, and `from_precision` returns the graph with these weights and variances, whose `precision` is
the given matrix. -/
theorem C112_from_precision_partial (oa : SetOrder Bool (ℕ × ℕ)) {P : Matrix (Fin n) (Fin n) ℝ} (hP : P.PosDef)
    (order : Fin n ≃ Fin n) (check : Bool) :
    ∃ (A : Matrix (Fin n) (Fin n) ℝ) (v : Fin n → ℝ), AcyclicWeights A ∧ (∀ i, 0 < v i) ∧
      (∀ i j, A i j ≠ 0 → order.symm i < order.symm j) ∧ (semCov A v)⁻¹ = P ∧
      ((∀ j, 1 / 10 ^ 8 < 1 / √(v j)) → (∀ i j, A i j ≠ 0 → 1 / 10 ^ 8 < |A i j| / √(v j)) →
        ∃ G, Gauss.fromPrecision oa P order check = some (.ok G) ∧ G.Plain ∧ G.weight = A ∧ G.variances = v ∧ G.biases = 0 ∧
          G.readPrecision.1 = P) := by
  obtain ⟨A, v, hA, hv, ho, rfl⟩ := Gauss.exists_sem hP order
  refine ⟨A, v, hA, hv, ho, rfl, fun h1 h2 => ?_⟩
  obtain ⟨G, g1, g2, g3, g4, g5, g6, g7, g8, g9⟩ := Gauss.fromPrecision_sem oa hA hv ho h1 h2 check
  have hp := Linked.plain g2 g3 (g4 ▸ hA)
  have hc := currentR_of_fresh g8 g7 g9
  refine ⟨G, g1, hp, g4, g6, g5, ?_⟩
  rw [hc.toCurrent.readPrecision hp.acyclic (by rw [g6]; exact fun i => (hv i).ne'), g4, g6]

/-- C112. A symmetric matrix that is not positive definite is rejected (`LinAlgError`, a `ValueError`). -/
theorem C112_rejects (oa : SetOrder Bool (ℕ × ℕ)) {P : Matrix (Fin n) (Fin n) ℝ} (hs : P.transpose = P) (hP : ¬ P.PosDef)
    (order : Fin n ≃ Fin n) (check : Bool) : Gauss.fromPrecision oa P order check = some (.error .value) :=
  Gauss.fromPrecision_error oa hs hP order check

/-- C112. A matrix with entries that differ from the transposed ones by more than 1e-8 is rejected. -/
theorem C112_asymmetric (oa : SetOrder Bool (ℕ × ℕ)) {P : Matrix (Fin n) (Fin n) ℝ} {a b : Fin n}
    (hab : 1 / 10 ^ 8 < |P a b - P b a|) (order : Fin n ≃ Fin n) (check : Bool) :
    Gauss.fromPrecision oa P order check = some (.error .value) := by
  unfold Gauss.fromPrecision
  rw [if_pos]
  intro h
  exact absurd (h a b) (not_le.2 hab)

/-! ## C113 -/

/-- C113 (partial: only if the weights are not tiny relative to the standard deviations). `from_covariance` applied to the covariance
of a graph and a topological order of it gives back the weights and variances. -/
theorem C113_from_covariance_partial (oa : SetOrder Bool (ℕ × ℕ)) {G : Gauss n ℝ} (h : G.Plain) (hv : ∀ i, 0 < G.variances i)
    (hc : G.Current) {order : Fin n ≃ Fin n} (ho : ∀ i j : Fin n, (i.val, j.val) ∈ G.dag.arcs → order.symm i < order.symm j)
    (h1 : ∀ j, 1 / 10 ^ 8 < 1 / √(G.variances j))
    (h2 : ∀ i j, G.weight i j ≠ 0 → 1 / 10 ^ 8 < |G.weight i j| / √(G.variances j)) (check : Bool) :
    ∃ S G1 G', G.readCovariance = .ok (S, G1) ∧ Gauss.fromCovariance oa S order check = some (.ok G') ∧ G'.Plain ∧
      G'.weight = G.weight ∧ G'.variances = G.variances ∧ G'.dag.arcs = G.dag.arcs := by
  obtain ⟨G1, k1, -⟩ := hc.readCovariance h.acyclic
  have ho' : ∀ i j, G.weight i j ≠ 0 → order.symm i < order.symm j := fun i j hij => ho i j (by
    have := (h.arcs_iff i j).2 hij
    rwa [h.names, h.names] at this)
  obtain ⟨G', g1, g2, g3, g4, g5, g6, g7, g8, g9⟩ := Gauss.fromPrecision_sem oa h.acyclic hv ho' h1 h2 check
  have hp := Linked.plain g2 g3 (g4 ▸ h.acyclic)
  refine ⟨_, G1, G', k1, ?_, hp, g4, g6, ?_⟩
  · rw [Gauss.fromCovariance_eq oa (semCov_posDef h.acyclic hv)]; exact g1
  · exact arcs_of_weight hp h g4

/-! ## C114 -/

/-- C114 (partial: only for the node list `0, …, n-1`). `from_amat(w)` raises nothing and `to_amat()` gives `w` back; for acyclic weights
the arcs are the nonzero entries and the graph is acyclic. -/
theorem C114_from_amat_partial (oa : SetOrder Bool (ℕ × ℕ)) (w : Matrix (Fin n) (Fin n) ℝ) (b v : Fin n → ℝ) :
    ∃ G : Gauss n ℝ, Gauss.fromAmat oa Fin.val w b v = (G, none) ∧ G.weight = w ∧ G.biases = b ∧ G.variances = v ∧
      (∀ i j : Fin n, (i.val, j.val) ∈ G.dag.arcs ↔ w i j ≠ 0) ∧ (AcyclicWeights w → G.Plain) := by
  obtain ⟨G, h1, h2, h3, h4, h5, h6, -⟩ := Gauss.fromAmat_spec oa w b v
  refine ⟨G, h1, h4, h5, h6, fun i j => ?_, fun hw => Linked.plain h2 h3 (h4 ▸ hw)⟩
  have := h2.arcs_iff i j
  rwa [h3, h4] at this

/-- C114 is violated: `from_amat([[0, 1], [0, 0]], nodes=[1, 0])` stores the transposed matrix, and with `nodes=[5, 6]` it raises a
`KeyError`. -/
theorem C114_violated (oa : SetOrder Bool (ℕ × ℕ)) :
    (∃ G : Gauss 2 ℝ, Gauss.fromAmat oa ![1, 0] !![0, 1; 0, 0] 0 1 = (G, none) ∧ G.weight = !![0, 0; 1, 0]) ∧
    (Gauss.fromAmat oa ![5, 6] (!![0, 1; 0, 0] : Matrix (Fin 2) (Fin 2) ℝ) 0 1).2 = some .key := by
  have harcs : (((List.finRange 2).flatMap fun i => (List.finRange 2).map fun j =>
      ((i.val, j.val), (!![0, 1; 0, 0] : Matrix (Fin 2) (Fin 2) ℝ) i j)).filter fun e => e.2 ≠ 0) = [((0, 1), 1)] := by
    simp [show List.finRange 2 = [0, 1] from rfl, List.filter]
  constructor
  · obtain ⟨G, h1, h2, h3, h4, h5, h6, h7, h8, -⟩ := C77_constructor_partial (K := ℝ) (n := 2) oa
      (names := ![1, 0]) (arcs := [((0, 1), 1)]) (by decide)
      (by
        intro e he
        simp only [List.mem_cons, List.not_mem_nil, or_false] at he
        subst he
        exact ⟨⟨1, rfl⟩, 0, rfl⟩) (by simp) 0 1
    refine ⟨G, ?_, ?_⟩
    · unfold Gauss.fromAmat; rw [harcs]; exact h1
    · ext a b
      fin_cases a <;> fin_cases b
      · rw [h8]; · simp
        simp
      · rw [h8]; · simp
        simp
      · rw [h7 _ _ 1]; · simp
        simp
      · rw [h8]; · simp
        simp
  · unfold Gauss.fromAmat; rw [harcs]
    rfl

/-! ## Violations of C112 and C113 -/

/-- The arc 0 → 1 of weight 1e-9. -/
noncomputable def tinyWeights : Matrix (Fin 2) (Fin 2) ℝ := !![0, 1 / 10 ^ 9; 0, 0]

theorem tinyWeights_acyclic : AcyclicWeights tinyWeights := acyclicWeights_of_rank ![0, 1] fun i j => by
  fin_cases i <;> fin_cases j <;> simp [tinyWeights]

theorem tiny_precision : (semCov tinyWeights 1)⁻¹ = !![1 + 1 / 10 ^ 18, -1 / 10 ^ 9; -1 / 10 ^ 9, 1] := by
  rw [Gauss.semCov_inv tinyWeights_acyclic fun i => by simp]
  ext a b
  fin_cases a <;> fin_cases b <;>
    simp [tinyWeights, Matrix.mul_apply, Fin.sum_univ_two, Matrix.one_apply] <;> norm_num

/-- The entry 1e-9 is set to zero. -/
theorem tiny_run (oa : SetOrder Bool (ℕ × ℕ)) (check : Bool) :
    ∃ G : Gauss 2 ℝ, Gauss.fromPrecision oa (semCov tinyWeights 1)⁻¹ (Equiv.refl _) check = some (.ok G) ∧ G.weight = 0 ∧
      G.variances = 1 ∧ G.CurrentR ∧ G.Plain := by
  have h0 : AcyclicWeights (0 : Matrix (Fin 2) (Fin 2) ℝ) := acyclicWeights_of_rank 0 fun i j => by simp
  obtain ⟨G, g1, g2, g3, -, g5, g6⟩ := plain_of_amat oa h0 0 1
  refine ⟨G, ?_, g3, g5, g6, g2⟩
  set P := (semCov tinyWeights 1)⁻¹ with hP
  have hPt : P.transpose = P := by rw [hP, Matrix.transpose_nonsing_inv, semCov_symm]
  have hch : Gauss.IsCholesky (P.submatrix (Fin.revPerm.trans (Equiv.refl (Fin 2))) (Fin.revPerm.trans (Equiv.refl (Fin 2))))
      !![1, 0; -1 / 10 ^ 9, 1] := by
    rw [hP, tiny_precision]
    refine ⟨?_, ?_, ?_⟩
    · intro a b hab
      fin_cases a <;> fin_cases b <;> simp at hab ⊢
    · intro a
      fin_cases a <;> simp
    · intro a b hab
      fin_cases a <;> fin_cases b <;> simp [Matrix.mul_apply, Fin.sum_univ_two] at hab ⊢
      all_goals norm_num
  have hcl : Gauss.clean (!![1, 0; -1 / 10 ^ 9, 1] : Matrix (Fin 2) (Fin 2) ℝ) = 1 := by
    ext a b
    have e1 : ¬ Gauss.IsClose (1 : ℝ) 0 := by unfold Gauss.IsClose Gauss.tol; norm_num
    have e2 : Gauss.IsClose (0 : ℝ) 0 := by unfold Gauss.IsClose Gauss.tol; norm_num
    have e3 : Gauss.IsClose (-1 / 10 ^ 9 : ℝ) 0 := by
      unfold Gauss.IsClose Gauss.tol; rw [abs_of_nonpos] <;> norm_num
    fin_cases a <;> fin_cases b <;> simp only [Gauss.clean, Matrix.of_apply] <;>
      simp [e1, e2]
    exact if_pos e3
  have hU : (Matrix.of fun a b => (1 : Matrix (Fin 2) (Fin 2) ℝ) a b / (1 : Matrix (Fin 2) (Fin 2) ℝ) b b).submatrix
      (Fin.revPerm.trans (Equiv.refl (Fin 2))).symm (Fin.revPerm.trans (Equiv.refl (Fin 2))).symm = 1 := by
    have : (Matrix.of fun a b => (1 : Matrix (Fin 2) (Fin 2) ℝ) a b / (1 : Matrix (Fin 2) (Fin 2) ℝ) b b) = 1 := by
      ext a b; simp
    rw [this, Matrix.submatrix_one_equiv]
  have hd : (fun a => ((1 : Matrix (Fin 2) (Fin 2) ℝ) ((Fin.revPerm.trans (Equiv.refl (Fin 2))).symm a)
      ((Fin.revPerm.trans (Equiv.refl (Fin 2))).symm a)) ^ 2) = 1 := by funext a; simp
  have hfin : Gauss.finish oa P check 1 1 = .ok G := by
    unfold Gauss.finish
    dsimp only
    rw [if_neg, if_neg, sub_self]
    · have : (fun a : Fin 2 => ((1 : Fin 2 → ℝ) a)⁻¹) = 1 := by funext a; simp
      rw [this, g1]
    · rintro ⟨-, h⟩
      apply h
      intro a b
      rw [hP, tiny_precision]
      unfold Gauss.IsClose Gauss.tol
      have e : (1 * Matrix.diagonal 1 * (1 : Matrix (Fin 2) (Fin 2) ℝ).transpose) = 1 := by
        rw [show (1 : Fin 2 → ℝ) = fun _ => 1 from rfl, Matrix.diagonal_one]; simp
      rw [e]
      fin_cases a <;> fin_cases b <;> simp [abs_le] <;> norm_num
    · rintro ⟨-, h⟩
      apply h
      intro a
      rw [sub_self]; rfl
  unfold Gauss.fromPrecision
  rw [if_neg (not_not.2 (Gauss.isSymmetric_of hPt))]
  simp only [Gauss.cholesky_eq hch, hcl]
  rw [if_neg (by simp), hU, hd, hfin]

/-- C112 is violated: for the precision matrix of 0 → 1 with weight 1e-9 and unit variances `from_precision` returns the graph without
arcs, with another precision matrix, and the check does not notice. -/
theorem C112_violated (oa : SetOrder Bool (ℕ × ℕ)) (check : Bool) :
    ∃ (P : Matrix (Fin 2) (Fin 2) ℝ) (G : Gauss 2 ℝ), P.PosDef ∧ Gauss.fromPrecision oa P (Equiv.refl _) check = some (.ok G) ∧
      G.readPrecision.1 ≠ P := by
  obtain ⟨G, h1, h2, h3, h4, h5⟩ := tiny_run oa check
  refine ⟨_, G, (semCov_posDef tinyWeights_acyclic fun i => by simp).inv, h1, ?_⟩
  rw [h4.toCurrent.readPrecision h5.acyclic (by rw [h3]; simp), Gauss.semCov_inv h5.acyclic (by rw [h3]; simp), tiny_precision, h2, h3]
  intro h
  have := congrFun (congrFun h 0) 1
  simp at this
  norm_num at this

/-- C113 is violated: the arc of weight 1e-9 is lost. -/
theorem C113_violated (oa : SetOrder Bool (ℕ × ℕ)) (check : Bool) :
    ∃ (G G1 G' : Gauss 2 ℝ) (S : Matrix (Fin 2) (Fin 2) ℝ), G.Plain ∧ (0, 1) ∈ G.dag.arcs ∧ G.readCovariance = .ok (S, G1) ∧
      Gauss.fromCovariance oa S (Equiv.refl _) check = some (.ok G') ∧ G'.weight 0 1 ≠ G.weight 0 1 ∧ (0, 1) ∉ G'.dag.arcs := by
  obtain ⟨G', h1, h2, h3, h4, h5⟩ := tiny_run oa check
  obtain ⟨G, g1, g2, g3, -, g5, g6⟩ := plain_of_amat oa tinyWeights_acyclic 0 1
  obtain ⟨G1, k1, -⟩ := g6.toCurrent.readCovariance g2.acyclic
  have hne : tinyWeights 0 1 ≠ 0 := by simp [tinyWeights]
  refine ⟨G, G1, G', _, g2, ?_, k1, ?_, ?_, ?_⟩
  · have := (g2.arcs_iff 0 1).2 (by rw [g3]; exact hne)
    rwa [g2.names, g2.names] at this
  · rw [g3, g5, Gauss.fromCovariance_eq oa (semCov_posDef tinyWeights_acyclic fun i => by simp)]; exact h1
  · rw [h2, g3]; exact hne.symm
  · intro h
    refine (h5.arcs_iff 0 1).1 ?_ (by rw [h2]; rfl)
    rw [h5.names, h5.names]; exact h

/-! ## Concrete cases -/

namespace GaussCase

/-- The chain 0 → 1 → 2 of weights 2, 3 and unit variances, from its covariance. -/
example (oa : SetOrder Bool (ℕ × ℕ)) (check : Bool) : ∃ (G G' : Gauss 3 ℝ) (S : Matrix (Fin 3) (Fin 3) ℝ) (G1 : Gauss 3 ℝ),
    G.weight = !![0, 2, 0; 0, 0, 3; 0, 0, 0] ∧ G.readCovariance = .ok (S, G1) ∧
    Gauss.fromCovariance oa S (Equiv.refl _) check = some (.ok G') ∧ G'.weight = G.weight := by
  have hA : AcyclicWeights (!![0, 2, 0; 0, 0, 3; 0, 0, 0] : Matrix (Fin 3) (Fin 3) ℝ) :=
    acyclicWeights_of_rank ![0, 1, 2] fun i j => by fin_cases i <;> fin_cases j <;> simp
  obtain ⟨G, h1, h2, h3, -, h5, h6⟩ := plain_of_amat oa hA 0 1
  obtain ⟨S, G1, G', k1, k2, -, k4, -⟩ := C113_from_covariance_partial oa h2 (by rw [h5]; simp) h6.toCurrent (order := Equiv.refl _)
    (fun i j hij => by
      have := (h2.arcs_iff i j).1 (by rw [h2.names, h2.names]; exact hij)
      rw [h3] at this
      revert this
      fin_cases i <;> fin_cases j <;> simp)
    (by rw [h5]; intro j; simp; norm_num)
    (by
      rw [h5, h3]
      intro i j
      fin_cases i <;> fin_cases j <;> simp <;> norm_num) check
  exact ⟨G, G', S, G1, h3, k1, k2, k4⟩

/-- The identity matrix satisfies the conditions of C112 with no weights and unit variances. -/
example (oa : SetOrder Bool (ℕ × ℕ)) (order : Fin 2 ≃ Fin 2) :
    ∃ G, Gauss.fromPrecision oa (1 : Matrix (Fin 2) (Fin 2) ℝ) order true = some (.ok G) ∧ G.weight = 0 := by
  have h0 : AcyclicWeights (0 : Matrix (Fin 2) (Fin 2) ℝ) := acyclicWeights_of_rank 0 fun i j => by simp
  have e : (semCov (0 : Matrix (Fin 2) (Fin 2) ℝ) 1)⁻¹ = 1 := by simp [semCov]
  obtain ⟨G, g1, -, -, g4, -⟩ := Gauss.fromPrecision_sem oa h0 (v := 1) (by simp) (order := order) (by simp) (by
    intro j; unfold Gauss.tol; simp; norm_num) (by simp) true
  rw [e] at g1
  exact ⟨G, g1, g4⟩

/-- A symmetric matrix that is not positive definite. -/
example (oa : SetOrder Bool (ℕ × ℕ)) (order : Fin 2 ≃ Fin 2) :
    Gauss.fromPrecision oa (!![1, 2; 2, 1] : Matrix (Fin 2) (Fin 2) ℝ) order true = some (.error .value) := by
  refine C112_rejects oa ?_ ?_ order true
  · ext a b; fin_cases a <;> fin_cases b <;> rfl
  · intro h
    have := h.det_pos
    simp [Matrix.det_fin_two] at this
    norm_num at this

end GaussCase

end Props
