import Verif.Model.GaussFactor
import Verif.Proof.GaussMoments
import Verif.Proof.GaussSet
import Mathlib.Analysis.Matrix.LDL
import Mathlib.LinearAlgebra.Matrix.Block

/-! # `GaussDAG`: Cholesky factors, `from_precision`, `from_covariance` -/

namespace Model.Gauss

set_option linter.unusedSectionVars false
open Matrix Spec

variable {n : ℕ}

/-! ### Cholesky factors -/

theorem IsCholesky.mul_eq {m l : Matrix (Fin n) (Fin n) ℝ} (h : IsCholesky m l) (hm : m.transpose = m) : l * l.transpose = m := by
  ext a b
  rcases le_total b a with hab | hab
  · exact h.mul a b hab
  · have h1 := h.mul b a hab
    have h2 : (l * l.transpose) a b = (l * l.transpose) b a := by
      simp only [Matrix.mul_apply, Matrix.transpose_apply, mul_comm]
    have h3 : m a b = m b a := congrFun (congrFun hm b) a
    rw [h2, h1, h3]

theorem IsCholesky.unique {m l l' : Matrix (Fin n) (Fin n) ℝ} (h : IsCholesky m l) (h' : IsCholesky m l') : l = l' := by
  suffices H : ∀ b a, l a b = l' a b by ext a b; exact H b a
  intro b
  induction b using WellFoundedLT.induction with
  | _ b ih =>
    have key : ∀ a, b ≤ a → l a b * l b b = l' a b * l' b b := by
      intro a hab
      have h1 := h.mul a b hab
      rw [← h'.mul a b hab] at h1
      simp only [Matrix.mul_apply, Matrix.transpose_apply] at h1
      have h2 : ∑ c, (l a c * l b c - l' a c * l' b c) = 0 := by rw [Finset.sum_sub_distrib, h1, sub_self]
      rw [Finset.sum_eq_single b] at h2
      · exact sub_eq_zero.1 h2
      · intro c _ hc
        rcases lt_or_gt_of_ne hc with hlt | hgt
        · rw [ih c hlt a, ih c hlt b, sub_self]
        · rw [h.lower b c hgt, h'.lower b c hgt]; ring
      · simp
    have hd : l b b = l' b b := by
      have := key b le_rfl
      exact (mul_self_inj (h.pos b).le (h'.pos b).le).1 this
    intro a
    rcases lt_or_ge a b with hab | hab
    · rw [h.lower a b hab, h'.lower a b hab]
    · have := key a hab
      rw [hd] at this
      exact mul_right_cancel₀ (h'.pos b).ne' this

theorem cholesky_eq {m l : Matrix (Fin n) (Fin n) ℝ} (h : IsCholesky m l) : cholesky m = .ok l := by
  have he : ∃ l, IsCholesky m l := ⟨l, h⟩
  unfold cholesky
  rw [dif_pos he]
  congr 1
  exact he.choose_spec.unique h

theorem exists_cholesky {m : Matrix (Fin n) (Fin n) ℝ} (hm : m.PosDef) : ∃ l, IsCholesky m l := by
  let T := LDL.lowerInv hm
  have hT : ∀ a b, a < b → T a b = 0 := fun a b hab => LDL.lowerInv_triangular hm hab
  have hinv : Invertible T := LDL.invertibleLowerInv hm
  have hTt : T.BlockTriangular OrderDual.toDual := fun a b hab => hT a b (by simpa using hab)
  have hLt : T⁻¹.BlockTriangular OrderDual.toDual := blockTriangular_inv_of_blockTriangular hTt
  let L0 := T⁻¹
  have hL0 : ∀ a b, a < b → L0 a b = 0 := fun a b hab => hLt (by simpa using hab)
  have hS : L0 * LDL.diag hm * L0.transpose = m := by
    have := LDL.lower_conj_diag hm
    rwa [Matrix.conjTranspose_eq_transpose_of_trivial] at this
  have hdet : L0.det ≠ 0 := by
    have : IsUnit T.det := by
      have := isUnit_of_invertible T
      exact (Matrix.isUnit_iff_isUnit_det _).1 this
    have := Matrix.isUnit_nonsing_inv_det _ this
    exact isUnit_iff_ne_zero.1 this
  have hdiag : ∀ a, L0 a a ≠ 0 := by
    rw [Matrix.det_of_isLowerTriangular _ hLt] at hdet
    intro a
    exact Finset.prod_ne_zero_iff.1 hdet a (Finset.mem_univ a)
  have hD : ∀ a, 0 < LDL.diagEntries hm a := by
    have h1 : (LDL.diag hm).PosDef := by
      rw [LDL.diag_eq_lowerInv_conj]
      exact hm.mul_mul_conjTranspose_same (Matrix.vecMul_injective_of_isUnit (isUnit_of_invertible T))
    intro a
    have := h1.diag_pos (i := a)
    rwa [LDL.diag, Matrix.diagonal_apply_eq] at this
  let D := LDL.diagEntries hm
  let s : Fin n → ℝ := fun b => (if 0 < L0 b b then 1 else -1) * √(D b)
  have hs : ∀ b, s b * s b = D b := by
    intro b
    have := Real.mul_self_sqrt (hD b).le
    simp only [s]
    split <;> linarith
  refine ⟨L0 * Matrix.diagonal s, ?_, ?_, ?_⟩
  · intro a b hab
    rw [Matrix.mul_diagonal, hL0 a b hab, zero_mul]
  · intro a
    rw [Matrix.mul_diagonal]
    have hp := Real.sqrt_pos.2 (hD a)
    simp only [s]
    split
    · rename_i h; rw [one_mul]; exact mul_pos h hp
    · rename_i h
      have : L0 a a < 0 := lt_of_le_of_ne (not_lt.1 h) (hdiag a)
      nlinarith
  · intro a b _
    have : L0 * Matrix.diagonal s * (L0 * Matrix.diagonal s).transpose = m := by
      rw [Matrix.transpose_mul, Matrix.diagonal_transpose, ← Matrix.mul_assoc, Matrix.mul_assoc L0, Matrix.diagonal_mul_diagonal]
      rw [show (fun i => s i * s i) = LDL.diagEntries hm from funext hs]
      exact hS
    rw [this]

theorem cholesky_error {m : Matrix (Fin n) (Fin n) ℝ} (hm : m.transpose = m) (hp : ¬ m.PosDef) : cholesky m = .error .value := by
  unfold cholesky
  rw [dif_neg]
  rintro ⟨l, hl⟩
  apply hp
  rw [← hl.mul_eq hm]
  have hu : IsUnit l := by
    rw [Matrix.isUnit_iff_isUnit_det, isUnit_iff_ne_zero, Matrix.det_of_isLowerTriangular _ (fun a b hab => hl.lower a b (by simpa using hab))]
    exact Finset.prod_ne_zero_iff.2 fun a _ => (hl.pos a).ne'
  have := Matrix.PosDef.mul_conjTranspose_self l (Matrix.vecMul_injective_of_isUnit hu)
  rwa [Matrix.conjTranspose_eq_transpose_of_trivial] at this

/-! ### `from_amat` -/

section

variable {K : Type} [Field K] [DecidableEq K]

theorem removeArc_correlation (G : Gauss n K) (i j : ℕ) : (G.removeArc i j).1.correlation = G.correlation := by
  unfold removeArc
  split
  · dsimp only
    split <;> rfl
  · rfl

theorem forEach_correlation (l : List ((ℕ × ℕ) × K)) (G : Gauss n K) :
    (forEach (fun G (e : (ℕ × ℕ) × K) => G.removeArc e.1.1 e.1.2) l G).1.correlation = G.correlation := by
  induction l generalizing G with
  | nil => rfl
  | cons e l ih =>
    have h := removeArc_correlation G e.1.1 e.1.2
    unfold forEach
    split
    · rename_i G' x hx
      rw [hx] at h; exact h
    · rename_i G' hx
      rw [hx] at h
      rw [ih, h]

theorem setArcWeights_correlation (oa : SetOrder Bool (ℕ × ℕ)) (G : Gauss n K) (arcs : List ((ℕ × ℕ) × K)) :
    (setArcWeights oa G arcs).1.correlation = G.correlation := by
  unfold setArcWeights
  split
  · rfl
  · split
    · rfl
    · rename_i W _
      have h := forEach_correlation (arcs.filter fun e => e.2 = 0) { G with weight := W }
      split
      · rename_i hx
        rw [hx] at h; exact h
      · rename_i hx
        rw [hx] at h
        dsimp only
        split <;> exact h

theorem new_correlation (oa : SetOrder Bool (ℕ × ℕ)) (names : Fin n → ℕ) (arcs : List ((ℕ × ℕ) × K)) (b v : Fin n → K) :
    (new oa names arcs b v).1.correlation = none := by
  have h := setArcWeights_correlation oa ({ dag := DAG.empty (Finset.univ.image names), names := names, weight := 0, variances := v, biases := b, precision := none, covariance := none, correlation := none } : Gauss n K) arcs
  unfold new
  dsimp only
  split
  · rename_i hx
    rw [hx] at h; exact h
  · rename_i hx
    rw [hx] at h
    split <;> exact h

theorem fromAmat_spec (oa : SetOrder Bool (ℕ × ℕ)) (w : Matrix (Fin n) (Fin n) K) (b v : Fin n → K) :
    ∃ G : Gauss n K, fromAmat oa Fin.val w b v = (G, none) ∧ G.Linked ∧ G.names = Fin.val ∧ G.weight = w ∧ G.biases = b ∧
      G.variances = v ∧ G.precision = none ∧ G.covariance = none ∧ G.correlation = none := by
  set arcs := ((List.finRange n).flatMap fun i => (List.finRange n).map fun j => ((i.val, j.val), w i j)).filter
    (fun e => decide (e.2 ≠ 0)) with harcs
  have hmem : ∀ e, e ∈ arcs ↔ ∃ i j, e = ((i.val, j.val), w i j) ∧ w i j ≠ 0 := by
    intro e
    rw [harcs, List.mem_filter]
    simp only [List.mem_flatMap, List.mem_finRange, List.mem_map, true_and, decide_eq_true_eq]
    constructor
    · rintro ⟨⟨i, j, rfl⟩, h⟩
      exact ⟨i, j, rfl, h⟩
    · rintro ⟨i, j, rfl, h⟩
      exact ⟨⟨i, j, rfl⟩, h⟩
  have hnd : (arcs.map Prod.fst).Nodup := by
    have h1 : (((List.finRange n).flatMap fun i => (List.finRange n).map fun j => ((i.val, j.val), w i j)).map Prod.fst).Nodup := by
      rw [List.map_flatMap, List.nodup_flatMap]
      constructor
      · intro i _
        rw [List.map_map]
        refine (List.nodup_finRange n).map ?_
        intro a b hab
        simp at hab
        exact Fin.ext hab
      · refine (List.nodup_finRange n).imp ?_
        intro a b hab
        simp only [Function.onFun, List.disjoint_left, List.mem_map]
        rintro x ⟨e, ⟨j, -, rfl⟩, rfl⟩ ⟨e', ⟨j', -, rfl⟩, h⟩
        simp at h
        exact hab (Fin.ext h.1.symm)
    exact (List.Sublist.map _ List.filter_sublist).nodup h1
  obtain ⟨G, h1, h2, h3, h4, h5, h6, h7, h8, h9⟩ := new_spec oa Fin.val_injective (arcs := arcs) (by
    intro e he
    obtain ⟨i, j, rfl, -⟩ := (hmem e).1 he
    exact ⟨⟨i, rfl⟩, j, rfl⟩) hnd b v
  have hc := new_correlation oa Fin.val arcs b v
  rw [h1] at hc
  refine ⟨G, h1, h2, h3, ?_, h4, h5, h6, h7, hc⟩
  ext x y
  by_cases h0 : w x y = 0
  · rw [h0]
    refine h9 x y fun v hv => ?_
    obtain ⟨i, j, he, hne⟩ := (hmem _).1 hv
    simp only [Prod.mk.injEq] at he
    have hx := Fin.ext he.1.1
    have hy := Fin.ext he.1.2
    subst hx; subst hy
    exact hne h0
  · exact h8 x y _ ((hmem _).2 ⟨x, y, rfl, h0⟩)

end

theorem tol_pos : 0 < tol := by unfold tol; positivity

theorem isSymmetric_of {m : Matrix (Fin n) (Fin n) ℝ} (hm : m.transpose = m) : IsSymmetric m := by
  intro a b
  have : m b a = m a b := congrFun (congrFun hm a) b
  rw [this, sub_self, abs_zero]
  exact tol_pos.le

/-- `from_precision` recovers the weights and variances from the precision matrix of a model whose arcs follow the order. -/
theorem fromPrecision_sem (oa : SetOrder Bool (ℕ × ℕ)) {A : Matrix (Fin n) (Fin n) ℝ} (hA : AcyclicWeights A) {v : Fin n → ℝ}
    (hv : ∀ i, 0 < v i) {order : Fin n ≃ Fin n} (ho : ∀ i j, A i j ≠ 0 → order.symm i < order.symm j)
    (h1 : ∀ j, tol < 1 / √(v j)) (h2 : ∀ i j, A i j ≠ 0 → tol < |A i j| / √(v j)) (check : Bool) :
    ∃ G, fromPrecision oa (semCov A v)⁻¹ order check = some (.ok G) ∧ G.Linked ∧ G.names = Fin.val ∧ G.weight = A ∧ G.biases = 0 ∧
      G.variances = v ∧ G.precision = none ∧ G.covariance = none ∧ G.correlation = none := by
  set P := (semCov A v)⁻¹ with hPdef
  have hP : P = (1 - A) * Matrix.diagonal (fun i => (v i)⁻¹) * (1 - A).transpose := semCov_inv hA fun i => (hv i).ne'
  have hPt : P.transpose = P := by rw [hPdef, Matrix.transpose_nonsing_inv, semCov_symm]
  let rev : Fin n ≃ Fin n := Fin.revPerm.trans order
  have hrev : ∀ a, order.symm (rev a) = Fin.rev a := fun a => by simp [rev]
  have hAd : ∀ a, A a a = 0 := fun a => by
    by_contra h
    exact lt_irrefl _ (ho a a h)
  have hsv : ∀ j, 0 < √(v j) := fun j => Real.sqrt_pos.2 (hv j)
  let L : Matrix (Fin n) (Fin n) ℝ := Matrix.of fun a b => (1 - A) (rev a) (rev b) / √(v (rev b))
  have hLd : ∀ a, L a a = 1 / √(v (rev a)) := fun a => by
    simp [L, hAd]
  have hLo : ∀ a b, a ≠ b → L a b = - A (rev a) (rev b) / √(v (rev b)) := fun a b hab => by
    simp only [L, Matrix.of_apply, Matrix.sub_apply, Matrix.one_apply, if_neg (fun h => hab (rev.injective h)), zero_sub]
  have hch : IsCholesky (P.submatrix rev rev) L := by
    refine ⟨?_, ?_, ?_⟩
    · intro a b hab
      rw [hLo a b hab.ne]
      have : A (rev a) (rev b) = 0 := by
        by_contra h
        have := ho _ _ h
        rw [hrev, hrev, Fin.rev_lt_rev] at this
        exact lt_asymm hab this
      rw [this, neg_zero, zero_div]
    · intro a
      rw [hLd]; exact one_div_pos.2 (hsv _)
    · intro a b _
      rw [Matrix.mul_apply, Matrix.submatrix_apply, hP, Matrix.mul_apply]
      conv_rhs => rw [← rev.sum_comp]
      refine Finset.sum_congr rfl fun c _ => ?_
      simp only [L, Matrix.of_apply, Matrix.transpose_apply, Matrix.mul_diagonal]
      rw [div_mul_div_comm, Real.mul_self_sqrt (hv _).le, div_eq_mul_inv]
      ring
  have hu : clean L = L := by
    ext a b
    unfold clean
    rw [Matrix.of_apply]
    split
    · rename_i hc
      unfold IsClose at hc
      rw [sub_zero, abs_zero, mul_zero, add_zero] at hc
      by_cases hab : a = b
      · subst hab
        rw [hLd, abs_of_pos (one_div_pos.2 (hsv _))] at hc
        exact absurd hc (not_le.2 (h1 _))
      · rw [hLo a b hab] at hc ⊢
        by_cases h0 : A (rev a) (rev b) = 0
        · rw [h0]; simp
        · rw [abs_div, abs_neg, abs_of_pos (hsv _)] at hc
          exact absurd hc (not_le.2 (h2 _ _ h0))
    · rfl
  have hLne : ∀ a, L a a ≠ 0 := fun a => (hch.pos a).ne'
  have hU : (Matrix.of fun a b => L a b / L b b).submatrix rev.symm rev.symm = 1 - A := by
    ext a b
    have := (hsv b).ne'
    simp only [Matrix.submatrix_apply, Matrix.of_apply, hLd, Equiv.apply_symm_apply]
    simp only [L, Matrix.of_apply, Equiv.apply_symm_apply]
    field_simp
  have hd : (fun a => L (rev.symm a) (rev.symm a) ^ 2) = fun a => (v a)⁻¹ := by
    funext a
    rw [hLd, Equiv.apply_symm_apply, div_pow, one_pow, Real.sq_sqrt (hv a).le, one_div]
  obtain ⟨G, g1, g2, g3, g4, g5, g6, g7⟩ := fromAmat_spec oa A (0 : Fin n → ℝ) v
  refine ⟨G, ?_, g2, g3, g4, g5, g6, g7⟩
  have hfin : finish oa P check (1 - A) (fun i => (v i)⁻¹) = .ok G := by
    unfold finish
    dsimp only
    rw [if_neg, if_neg, sub_sub_cancel]
    · simp only [inv_inv, g1]
    · rintro ⟨-, h⟩
      apply h
      intro a b
      rw [← hP]
      unfold IsClose
      rw [sub_self, abs_zero]
      have := tol_pos
      positivity
    · rintro ⟨-, h⟩
      apply h
      intro a
      rw [sub_sub_cancel]; exact hAd a
  unfold fromPrecision
  rw [if_neg (not_not.2 (isSymmetric_of hPt))]
  simp only [show Fin.revPerm.trans order = rev from rfl, cholesky_eq hch, hu]
  rw [if_neg (by push Not; exact hLne), hU, hd, hfin]

/-- Every positive definite matrix is the precision matrix of a model whose arcs follow the given order. -/
theorem exists_sem {P : Matrix (Fin n) (Fin n) ℝ} (hP : P.PosDef) (order : Fin n ≃ Fin n) :
    ∃ (A : Matrix (Fin n) (Fin n) ℝ) (v : Fin n → ℝ), AcyclicWeights A ∧ (∀ i, 0 < v i) ∧
      (∀ i j, A i j ≠ 0 → order.symm i < order.symm j) ∧ (semCov A v)⁻¹ = P := by
  let rev : Fin n ≃ Fin n := Fin.revPerm.trans order
  have hrev : ∀ a, rev.symm a = Fin.rev (order.symm a) := fun a => by simp [rev]
  obtain ⟨L, hL⟩ := exists_cholesky (hP.submatrix rev.injective)
  have hPt : P.transpose = P := by
    have := hP.isHermitian
    rwa [Matrix.IsHermitian, Matrix.conjTranspose_eq_transpose_of_trivial] at this
  have hm := hL.mul_eq (by rw [Matrix.transpose_submatrix, hPt])
  let A : Matrix (Fin n) (Fin n) ℝ := 1 - (Matrix.of fun a b => L a b / L b b).submatrix rev.symm rev.symm
  let v : Fin n → ℝ := fun a => (L (rev.symm a) (rev.symm a) ^ 2)⁻¹
  have ho : ∀ i j, A i j ≠ 0 → order.symm i < order.symm j := by
    intro i j hij
    by_contra hlt
    apply hij
    rcases eq_or_lt_of_le (not_lt.1 hlt) with h | h
    · have : j = i := order.symm.injective h
      subst this
      have hpos := (hL.pos (rev.symm j)).ne'
      simp [A, hpos]
    · have hne : i ≠ j := by rintro rfl; exact lt_irrefl _ h
      simp only [A, Matrix.sub_apply, Matrix.one_apply, if_neg hne, Matrix.submatrix_apply, Matrix.of_apply, zero_sub, neg_eq_zero]
      rw [hL.lower, zero_div]
      rw [hrev, hrev, Fin.rev_lt_rev]
      exact h
  have hv : ∀ i, 0 < v i := fun i => inv_pos.2 (pow_pos (hL.pos _) 2)
  have hA : AcyclicWeights A := by
    have : ∀ i j, Path (fun i j => A i j ≠ 0) i j → order.symm i < order.symm j := fun i j hij => by
      induction hij with
      | single h' => exact ho _ _ h'
      | tail _ h' ih => exact ih.trans (ho _ _ h')
    exact fun i hi => lt_irrefl _ (this i i hi)
  refine ⟨A, v, hA, hv, ho, ?_⟩
  rw [semCov_inv hA fun i => (hv i).ne']
  have h1A : 1 - A = (Matrix.of fun a b => L a b / L b b).submatrix rev.symm rev.symm := sub_sub_cancel _ _
  rw [h1A]
  ext a b
  have hmm := congrFun (congrFun hm (rev.symm a)) (rev.symm b)
  rw [Matrix.submatrix_apply, Equiv.apply_symm_apply, Equiv.apply_symm_apply, Matrix.mul_apply] at hmm
  rw [← hmm, Matrix.mul_apply]
  conv_lhs => rw [← rev.sum_comp]
  refine Finset.sum_congr rfl fun c _ => ?_
  have := (hL.pos c).ne'
  simp only [Matrix.mul_diagonal, Matrix.submatrix_apply, Matrix.of_apply, Matrix.transpose_apply, Equiv.symm_apply_apply, v]
  field_simp

theorem fromPrecision_error (oa : SetOrder Bool (ℕ × ℕ)) {P : Matrix (Fin n) (Fin n) ℝ} (hs : P.transpose = P) (hP : ¬ P.PosDef)
    (order : Fin n ≃ Fin n) (check : Bool) : fromPrecision oa P order check = some (.error .value) := by
  unfold fromPrecision
  rw [if_neg (not_not.2 (isSymmetric_of hs))]
  dsimp only
  rw [cholesky_error]
  · rw [Matrix.transpose_submatrix, hs]
  · intro h
    apply hP
    have := h.submatrix (Fin.revPerm.trans order).symm.injective
    rwa [Matrix.submatrix_submatrix, Equiv.self_comp_symm, Matrix.submatrix_id_id] at this

theorem fromCovariance_eq (oa : SetOrder Bool (ℕ × ℕ)) {S : Matrix (Fin n) (Fin n) ℝ} (hS : S.PosDef) (order : Fin n ≃ Fin n)
    (check : Bool) : fromCovariance oa S order check = fromPrecision oa S⁻¹ order check := by
  have hSt : S.transpose = S := by
    have := hS.isHermitian
    rwa [Matrix.IsHermitian, Matrix.conjTranspose_eq_transpose_of_trivial] at this
  unfold fromCovariance
  rw [if_neg (not_not.2 (isSymmetric_of hSt)), invOrRaise_posDef hS]

end Model.Gauss
