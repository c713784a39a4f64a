import Verif.Proof.GGM
import Verif.Props.GaussMoments

/-! # `GGM` (properties C140 to C142) -/

namespace Props

open Model Spec Matrix

variable {n : ℕ}

theorem transpose_of_posDef {P : Matrix (Fin n) (Fin n) ℝ} (hP : P.PosDef) : P.transpose = P := by
  have := hP.isHermitian
  rwa [Matrix.IsHermitian, Matrix.conjTranspose_eq_transpose_of_trivial] at this

/-- C140. `GGM(P)` has an edge for each nonzero entry of `P` off the diagonal. -/
theorem C140_edges (on : SetOrder Unit ℕ) (oe : SetOrder Unit (Finset ℕ)) (ou : SetOrder Unit ℕ) {P : Matrix (Fin n) (Fin n) ℝ}
    (hP : P.PosDef) (m : Option (Fin n → ℝ)) :
    (GGM.new on oe ou P m).Drawn ∧ (GGM.new on oe ou P m).Current ∧ (GGM.new on oe ou P m).precision = P := by
  obtain ⟨h1, h2⟩ := GGM.new_drawn on oe ou (transpose_of_posDef hP) m
  exact ⟨h1, h2, rfl⟩

/-- C140. There is no edge between two nodes if and only if their partial correlation given all other nodes is zero. -/
theorem C140_pairwise_markov {G : GGM n} (hP : G.precision.PosDef) (hd : G.Drawn) (hc : G.Current) (oc : SetOrder Unit ℕ) {i j : Fin n}
    (hij : i ≠ j) :
    ∃ ρ G1, G.partialCorrelation oc i j ((Finset.univ \ {i, j}).image Fin.val) = .ok (ρ, G1) ∧
      (ρ = 0 ↔ G.graph.hasEdge i j = false) := by
  have hC : ((Finset.univ \ {i, j} : Finset (Fin n)) : Set (Fin n)) = {a | a ≠ i ∧ a ≠ j} := by ext; simp
  obtain ⟨ρ, G1, h1, h2, -⟩ := GGM.partialCorrelation_spec hP hc oc hij (C := Finset.univ \ {i, j}) (by simp) (by simp)
  rw [hC] at h2
  refine ⟨ρ, G1, h1, ?_⟩
  rw [← Bool.not_eq_true, hd.edges i j]
  constructor
  · rintro rfl ⟨-, h⟩
    exact h (partialCorr_rest hP hij h2)
  · intro h
    have hz : G.precision i j = 0 := by
      by_contra hne
      exact h ⟨hij, hne⟩
    refine partialCorr_usep hP hij (by simp) ?_ h2
    rw [usep_iff (by simp)]
    rintro _ rfl _ rfl hr
    rcases Relation.ReflTransGen.cases_head hr with h | ⟨c, ⟨⟨h3, h4⟩, h5⟩, -⟩
    · exact hij h
    · simp only [Set.mem_ofPred_eq, not_and, not_not] at h5
      have := h5 (Ne.symm h3)
      subst this
      exact h4 hz

/-- C140. If every path from `i` to `j` meets `C`, the partial correlation of `i` and `j` given `C` is zero. -/
theorem C140_global_markov {G : GGM n} (hP : G.precision.PosDef) (hd : G.Drawn) (hc : G.Current) (oc : SetOrder Unit ℕ) {i j : Fin n}
    {C : Finset (Fin n)} (hij : i ≠ j) (hi : i ∉ C) (hj : j ∉ C)
    (hs : USep (fun a b : Fin n => G.graph.hasEdge a b = true) {i} {j} C) :
    ∃ G1, G.partialCorrelation oc i j (C.image Fin.val) = .ok (0, G1) := by
  obtain ⟨ρ, G1, h1, h2, -⟩ := GGM.partialCorrelation_spec hP hc oc hij hi hj
  have e : (fun a b : Fin n => G.graph.hasEdge a b = true) = fun a b => a ≠ b ∧ G.precision a b ≠ 0 := by
    funext a b
    exact propext (hd.edges a b)
  rw [e] at hs
  rw [partialCorr_usep hP hij (by simpa using hi) hs h2] at h1
  exact ⟨G1, h1⟩

/-- C141. `covariance` is the inverse of the precision matrix, `partial_correlation(i, j, C)` is the correlation of the residuals of
`i` and `j` after regression on `C`, and neither changes the graph or spoils the cached matrices. -/
theorem C141_partial_correlation {G : GGM n} (hP : G.precision.PosDef) (hc : G.Current) (oc : SetOrder Unit ℕ) {i j : Fin n}
    {C : Finset (Fin n)} (hij : i ≠ j) (hi : i ∉ C) (hj : j ∉ C) :
    ∃ ρ G1 S G2, G.partialCorrelation oc i j (C.image Fin.val) = .ok (ρ, G1) ∧ G.readCovariance = .ok (S, G2) ∧
      S * G.precision = 1 ∧ (∀ ρ', PartialCorr S i j C ρ' ↔ ρ' = ρ) ∧ G1.Current ∧ G2.Current ∧ G1.graph = G.graph ∧
      G1.precision = G.precision ∧ G2.graph = G.graph ∧ G2.precision = G.precision := by
  obtain ⟨ρ, G1, h1, h2, h3, h4, h5, -⟩ := GGM.partialCorrelation_spec hP hc oc hij hi hj
  obtain ⟨G2, h6, rfl⟩ := hc.readCovariance hP
  refine ⟨ρ, G1, _, _, h1, h6, Matrix.nonsing_inv_mul _ ((Matrix.isUnit_iff_isUnit_det _).1 hP.isUnit),
    fun ρ' => ⟨fun h' => ?_, fun e => e ▸ h2⟩, h3, ⟨fun S hS => ?_, hc.correlation⟩, h4, h5, rfl, rfl⟩
  · exact partialCorr_unique hP.inv (by simpa using hi) (by simpa using hj) h' h2
  · simp only [Option.some.injEq] at hS
    exact hS.symm

/-- C142. `from_covariance(S)` raises nothing; its covariance is `S`. -/
theorem C142_from_covariance (on : SetOrder Unit ℕ) (oe : SetOrder Unit (Finset ℕ)) (ou : SetOrder Unit ℕ)
    {S : Matrix (Fin n) (Fin n) ℝ} (hS : S.PosDef) (m : Option (Fin n → ℝ)) :
    ∃ G, GGM.fromCovariance on oe ou S m = .ok G ∧ G.precision.PosDef ∧ G.precision * S = 1 ∧ G.Drawn ∧ G.Current ∧
      G.readCovariance = .ok (S, G) := by
  have hdet := (Matrix.isUnit_iff_isUnit_det _).1 hS.isUnit
  obtain ⟨h1, h2⟩ := GGM.new_drawn on oe ou (transpose_of_posDef hS.inv) m
  refine ⟨{ GGM.new on oe ou S⁻¹ m with covariance := some S }, by simp only [GGM.fromCovariance, Gauss.invOrRaise_posDef hS], hS.inv, Matrix.nonsing_inv_mul _ hdet, ⟨h1.nodes, h1.edges⟩,
    ⟨fun S' h => ?_, h2.correlation⟩, rfl⟩
  simp only [Option.some.injEq] at h
  rw [← h]
  exact (Matrix.nonsing_inv_nonsing_inv S hdet).symm

/-- C142. `from_adjacency(A, variances)` has the covariance matrix of the structural equations with weights `A`, and its graph has
edges only where the moral graph of `A` has. -/
theorem C142_from_adjacency (on : SetOrder Unit ℕ) (oe : SetOrder Unit (Finset ℕ)) (ou : SetOrder Unit ℕ)
    {A : Matrix (Fin n) (Fin n) ℝ} (hA : AcyclicWeights A) {v : Option (Fin n → ℝ)} (hv : ∀ i, 0 < v.getD (fun _ => 1) i)
    (m : Option (Fin n → ℝ)) :
    ∃ G1, (GGM.fromAdjacency on oe ou A v m).readCovariance = .ok (semCov A (v.getD fun _ => 1), G1) ∧
      (GGM.fromAdjacency on oe ou A v m).precision.PosDef ∧ (GGM.fromAdjacency on oe ou A v m).Drawn ∧
      (GGM.fromAdjacency on oe ou A v m).Current ∧
      (GGM.fromAdjacency on oe ou A v m).means = m.getD (fun _ => 0) ∧
      ∀ i j : Fin n, (GGM.fromAdjacency on oe ou A v m).graph.hasEdge i j = true →
        A i j ≠ 0 ∨ A j i ≠ 0 ∨ ∃ k, A i k ≠ 0 ∧ A j k ≠ 0 := by
  set w := v.getD fun _ => 1 with hw
  have hp := GGM.fromAdjacency_precision on oe ou A v m
  rw [← hw] at hp
  have hinv : (semCov A w)⁻¹ = (1 - A) * Matrix.diagonal (fun i => (w i)⁻¹) * (1 - A).transpose :=
    Gauss.semCov_inv hA fun i => (hv i).ne'
  have hS := semCov_posDef hA hv
  have hP : (GGM.fromAdjacency on oe ou A v m).precision.PosDef := by
    rw [hp, ← hinv]; exact hS.inv
  have hdc : (GGM.fromAdjacency on oe ou A v m).Drawn ∧ (GGM.fromAdjacency on oe ou A v m).Current :=
    GGM.new_drawn on oe ou (transpose_of_posDef hP) _
  obtain ⟨G1, h1, -⟩ := hdc.2.readCovariance hP
  refine ⟨G1, ?_, hP, hdc.1, hdc.2, rfl, fun i j h => ?_⟩
  · rw [h1, hp, ← hinv, Matrix.nonsing_inv_nonsing_inv _ ((Matrix.isUnit_iff_isUnit_det _).1 hS.isUnit)]
  · obtain ⟨hij, hne⟩ := (hdc.1.edges i j).1 h
    rw [hp, GGM.fromAdjacency_entry] at hne
    obtain ⟨k, -, hk⟩ := Finset.exists_ne_zero_of_sum_ne_zero hne
    have h1 : (1 - A) i k ≠ 0 := left_ne_zero_of_mul (left_ne_zero_of_mul hk)
    have h2 : (1 - A) j k ≠ 0 := right_ne_zero_of_mul hk
    simp only [Matrix.sub_apply, Matrix.one_apply] at h1 h2
    by_cases hki : i = k
    · subst hki
      rw [if_neg (Ne.symm hij), zero_sub, neg_ne_zero] at h2
      exact Or.inr (Or.inl h2)
    by_cases hkj : j = k
    · subst hkj
      rw [if_neg hij, zero_sub, neg_ne_zero] at h1
      exact Or.inl h1
    · rw [if_neg hki, zero_sub, neg_ne_zero] at h1
      rw [if_neg hkj, zero_sub, neg_ne_zero] at h2
      exact Or.inr (Or.inr ⟨k, h1, h2⟩)

/-- The chain 0 → 1 → 2 with weights 2, 3: the ends are uncorrelated given the middle, by C140 and C142. -/
example (on oc : SetOrder Unit ℕ) (oe : SetOrder Unit (Finset ℕ)) (ou : SetOrder Unit ℕ) : ∃ G1,
    (GGM.fromAdjacency on oe ou !![0, 2, 0; 0, 0, 3; 0, 0, 0] (some ![1, 2, 3]) none).partialCorrelation oc 0 2 {1} = .ok (0, G1) := by
  have hA : AcyclicWeights (!![0, 2, 0; 0, 0, 3; 0, 0, 0] : Matrix (Fin 3) (Fin 3) ℝ) :=
    acyclicWeights_of_rank ![0, 1, 2] fun i j => by fin_cases i <;> fin_cases j <;> simp
  obtain ⟨-, -, h1, h2, h3, -, h4⟩ := C142_from_adjacency on oe ou hA (v := some ![1, 2, 3])
    (fun i => by fin_cases i <;> simp) none
  refine C140_global_markov h1 h2 h3 oc (i := 0) (j := 2) (C := {1}) (by decide) (by decide) (by decide) ?_
  rw [usep_iff (by simp)]
  rintro _ rfl _ rfl hr
  rcases Relation.ReflTransGen.cases_head hr with h | ⟨c, ⟨h5, h6⟩, -⟩
  · simp at h
  · have hc := (h2.edges 0 c).1 h5
    have := h4 0 c h5
    fin_cases c
    · exact hc.1 rfl
    · simp at h6
    · rcases this with h | h | ⟨k, h, h'⟩
      · simp at h
      · simp at h
      · fin_cases k <;> simp at h h'

/-- The two parents of a common child are connected in the graph, since they are correlated given the child (C140). -/
example (on oc : SetOrder Unit ℕ) (oe : SetOrder Unit (Finset ℕ)) (ou : SetOrder Unit ℕ) : ∃ ρ G1, ρ ≠ 0 ∧
    (GGM.fromAdjacency on oe ou !![0, 0, 1; 0, 0, 1; 0, 0, 0] none none).partialCorrelation oc 0 1 {2} = .ok (ρ, G1) := by
  have hA : AcyclicWeights (!![0, 0, 1; 0, 0, 1; 0, 0, 0] : Matrix (Fin 3) (Fin 3) ℝ) :=
    acyclicWeights_of_rank ![0, 0, 1] fun i j => by fin_cases i <;> fin_cases j <;> simp
  obtain ⟨-, -, h1, h2, h3, -⟩ := C142_from_adjacency on oe ou hA (v := none) (fun i => by simp) none
  obtain ⟨ρ, G1, h4, h5⟩ := C140_pairwise_markov h1 h2 h3 oc (i := 0) (j := 1) (by decide)
  refine ⟨ρ, G1, fun h0 => ?_, h4⟩
  have h6 := h5.1 h0
  have h7 := (h2.edges 0 1).2 ⟨by decide, by
    rw [GGM.fromAdjacency_precision, GGM.fromAdjacency_entry]
    simp [Fin.sum_univ_three, Matrix.sub_apply]⟩
  rw [h6] at h7
  exact absurd h7 (by simp)

example (on oc : SetOrder Unit ℕ) (oe : SetOrder Unit (Finset ℕ)) (ou : SetOrder Unit ℕ) : ∃ G ρ G1,
    GGM.fromCovariance on oe ou (semCov !![0, 2, 0; 0, 0, 3; 0, 0, 0] ![1, 2, 3]) none = .ok G ∧
      G.partialCorrelation oc 0 2 {1} = .ok (ρ, G1) := by
  have hA : AcyclicWeights (!![0, 2, 0; 0, 0, 3; 0, 0, 0] : Matrix (Fin 3) (Fin 3) ℝ) :=
    acyclicWeights_of_rank ![0, 1, 2] fun i j => by fin_cases i <;> fin_cases j <;> simp
  obtain ⟨G, h1, h2, -, -, h3, -⟩ := C142_from_covariance on oe ou
    (semCov_posDef hA (v := ![1, 2, 3]) fun i => by fin_cases i <;> simp) none
  obtain ⟨ρ, G1, -, -, h4, -⟩ := C141_partial_correlation h2 h3 oc (i := 0) (j := 2) (C := {1}) (by decide) (by decide) (by decide)
  exact ⟨G, ρ, G1, h1, h4⟩

end Props
