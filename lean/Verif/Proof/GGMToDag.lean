import Verif.Model.GGMToDag
import Verif.Proof.GGM
import Verif.Proof.GaussFactor
import Verif.Proof.Chickering

/-! # Supporting lemmas for `GGM.to_gauss_dag` -/

namespace Spec

open Matrix

section Sem

variable {ι : Type} [Fintype ι] [DecidableEq ι]

/-- The partial correlation of an earlier node `f` and the node `s` given earlier nodes among which are the parents, children and
co-parents of `f`: it vanishes iff there is no arc. -/
theorem partialCorr_blanket {A : Matrix ι ι ℝ} (hA : AcyclicWeights A) {v : ι → ℝ} (hv : ∀ i, 0 < v i) {r : ι → ℕ}
    (hr : ∀ i j, A i j ≠ 0 → r i < r j) {f s : ι} (hfs : r f < r s) {M : Set ι} (hM : ∀ g ∈ M, r g < r s ∧ g ≠ f)
    (hsup : ∀ g, g ≠ f → r g < r s → (A g f ≠ 0 ∨ A f g ≠ 0 ∨ ∃ c, r c < r s ∧ A f c ≠ 0 ∧ A g c ≠ 0) → g ∈ M) {ρ : ℝ}
    (hρ : PartialCorr (semCov A v) f s M ρ) : ρ = 0 ↔ A f s = 0 := by
  set S := semCov A v with hS
  have hdet : IsUnit (1 - A).det := isUnit_iff_ne_zero.2 (Model.det_ne_zero hA)
  have hAff : ∀ a, A a a = 0 := fun a => by
    by_contra h
    exact lt_irrefl _ (hr a a h)
  let z : ι → ℝ := fun k => if r k < r s then (1 - A) f k / v k else 0
  have hz0 : ∀ k, z k ≠ 0 → r k < r s ∧ (1 - A) f k ≠ 0 := by
    intro k hk
    by_cases h : r k < r s
    · refine ⟨h, fun h0 => hk ?_⟩
      simp only [z, h0, zero_div, ite_self]
    · exact absurd (by simp only [z, if_neg h]) hk
  let q : ℝ := ∑ k, (1 - A) f k * z k
  have hq : 0 < q := by
    refine Finset.sum_pos' (fun k _ => ?_) ⟨f, Finset.mem_univ _, ?_⟩
    · by_cases h : r k < r s
      · simp only [z, if_pos h]
        rw [← mul_div_assoc]
        exact div_nonneg (mul_self_nonneg _) (hv k).le
      · simp only [z, if_neg h, mul_zero, le_refl]
    · simp only [z, if_pos hfs, Matrix.sub_apply, Matrix.one_apply_eq, hAff, sub_zero, one_mul, one_div]
      exact inv_pos.2 (hv f)
  let u : ι → ℝ := q⁻¹ • ((1 - A) *ᵥ z)
  let y : ι → ℝ := S *ᵥ u
  have hy : ∀ b, y b = ∑ a, A a b * y a + q⁻¹ * (v b * z b) := by
    intro b
    have : (1 - A).transpose *ᵥ y = q⁻¹ • (Matrix.diagonal v *ᵥ z) := by
      simp only [y, u, hS, semCov, Matrix.mulVec_smul, Matrix.mulVec_mulVec]
      congr 2
      rw [Matrix.mul_assoc _ _ (1 - A), Matrix.nonsing_inv_mul _ hdet, Matrix.mul_one, ← Matrix.mul_assoc, ← Matrix.transpose_mul,
        Matrix.nonsing_inv_mul _ hdet, Matrix.transpose_one, Matrix.one_mul]
    have h := congrFun this b
    rw [Pi.smul_apply, Matrix.mulVec_diagonal, Matrix.transpose_sub, Matrix.transpose_one, Matrix.sub_mulVec, Matrix.one_mulVec,
      Pi.sub_apply, smul_eq_mul] at h
    have e : (A.transpose *ᵥ y) b = ∑ a, A a b * y a := rfl
    rw [e] at h
    linarith
  have hone : ∀ b, (1 - A) f b = (if b = f then 1 else 0) - A f b := by
    intro b
    rw [Matrix.sub_apply, Matrix.one_apply]
    simp only [eq_comm]
  have hyT : ∀ m b, r b = m → r b < r s → y b = if b = f then q⁻¹ else 0 := by
    intro m
    induction m using Nat.strong_induction_on with
    | _ m ih =>
      intro b hb hbs
      have hsum : ∑ a, A a b * y a = A f b * q⁻¹ := by
        rw [Finset.sum_eq_single f]
        · by_cases h : A f b = 0
          · rw [h, zero_mul, zero_mul]
          · rw [ih (r f) (hb ▸ hr _ _ h) f rfl hfs, if_pos rfl]
        · intro a _ haf
          by_cases h : A a b = 0
          · rw [h, zero_mul]
          · rw [ih (r a) (hb ▸ hr _ _ h) a rfl ((hr _ _ h).trans hbs), if_neg haf, mul_zero]
        · simp
      rw [hy b, hsum]
      simp only [z, if_pos hbs]
      rw [mul_div_cancel₀ _ (hv b).ne', hone]
      split <;> ring
  have hys : y s = A f s * q⁻¹ := by
    rw [hy s]
    simp only [z, lt_irrefl, if_false, mul_zero, add_zero]
    rw [Finset.sum_eq_single f]
    · rw [hyT _ f rfl hfs, if_pos rfl]
    · intro a _ haf
      by_cases h : A a s = 0
      · rw [h, zero_mul]
      · rw [hyT _ a rfl (hr _ _ h), if_neg haf, mul_zero]
    · simp
  have hyM : ∀ c ∈ M, y c = 0 := fun c hc => by rw [hyT _ c rfl (hM c hc).1, if_neg (hM c hc).2]
  have hfM : f ∉ M := fun h => (hM f h).2 rfl
  have hu : Residual S f M u := by
    refine ⟨?_, fun a haf haM => ?_, fun c hc => ?_⟩
    · change q⁻¹ * q = 1
      exact inv_mul_cancel₀ hq.ne'
    · have : ((1 - A) *ᵥ z) a = 0 := by
        refine Finset.sum_eq_zero fun k _ => ?_
        by_contra hne
        obtain ⟨hk, hfk⟩ := hz0 k (right_ne_zero_of_mul hne)
        have hak : (1 - A) a k ≠ 0 := left_ne_zero_of_mul hne
        rw [Matrix.sub_apply, Matrix.one_apply] at hak hfk
        by_cases has : r a < r s
        · by_cases hkf : k = f
          · subst hkf
            rw [if_neg haf, zero_sub, neg_ne_zero] at hak
            exact haM (hsup a haf has (Or.inl hak))
          · rw [if_neg (Ne.symm hkf), zero_sub, neg_ne_zero] at hfk
            by_cases hka : a = k
            · subst hka
              exact haM (hsup a haf has (Or.inr (Or.inl hfk)))
            · rw [if_neg hka, zero_sub, neg_ne_zero] at hak
              exact haM (hsup a haf has (Or.inr (Or.inr ⟨k, hk, hfk, hak⟩)))
        · have hka : a ≠ k := by
            rintro rfl
            exact has hk
          rw [if_neg hka, zero_sub, neg_ne_zero] at hak
          exact has ((hr _ _ hak).trans hk)
      change q⁻¹ * ((1 - A) *ᵥ z) a = 0
      rw [this, mul_zero]
    · rw [lcov_single]
      exact hyM c hc
  obtain ⟨u', w, hu', hw, h1, h2, rfl⟩ := hρ
  have := residual_unique (semCov_posDef hA hv) hfM hu' hu
  subst this
  have hl : lcov S u w = A f s * q⁻¹ := by
    rw [lcov_comm (semCov_symm A v), ← hys]
    exact residual_dot hw hyM
  rw [hl, div_eq_zero_iff, mul_eq_zero]
  have h3 : q⁻¹ ≠ 0 := inv_ne_zero hq.ne'
  have h4 : √(lcov S u u) * √(lcov S w w) ≠ 0 := (mul_pos (Real.sqrt_pos.2 h1) (Real.sqrt_pos.2 h2)).ne'
  simp only [h3, h4, or_false]

/-- The entry of `(I - A)⁻¹` is zero where there is no directed path. -/
theorem inv_apply_zero {A : Matrix ι ι ℝ} (hA : AcyclicWeights A) {p j : ι} (hp : ¬ Path0 (fun a b => A a b ≠ 0) j p) :
    (1 - A)⁻¹ j p = 0 := by
  have hdet : IsUnit (1 - A).det := isUnit_iff_ne_zero.2 (Model.det_ne_zero hA)
  have hz : ∀ a, (Pi.single p 1 : ι → ℝ) a = ((1 - A)⁻¹ *ᵥ Pi.single p 1) a - ∑ b, A a b * ((1 - A)⁻¹ *ᵥ Pi.single p 1) b := by
    intro a
    have : (1 - A) *ᵥ ((1 - A)⁻¹ *ᵥ Pi.single p 1) = (Pi.single p 1 : ι → ℝ) := by
      rw [Matrix.mulVec_mulVec, Matrix.mul_nonsing_inv _ hdet, Matrix.one_mulVec]
    have h := congrFun this a
    rw [Matrix.sub_mulVec, Matrix.one_mulVec] at h
    rw [← h]
    rfl
  have := support_up hA hz (T := {a | Path0 (fun a b => A a b ≠ 0) a p}) (fun a b hab hb => .head hab hb)
    (fun a ha => by
      have : a = p := by
        by_contra hne
        exact ha (by simp [hne])
      subst this; exact .refl) j hp
  rwa [Matrix.mulVec_single_one] at this

theorem inv_apply_self {A : Matrix ι ι ℝ} (hA : AcyclicWeights A) (t : ι) : (1 - A)⁻¹ t t = 1 := by
  have hdet : IsUnit (1 - A).det := isUnit_iff_ne_zero.2 (Model.det_ne_zero hA)
  have h := congrFun (congrFun (Matrix.mul_nonsing_inv _ hdet) t) t
  rw [Matrix.sub_mul, Matrix.one_mul, Matrix.sub_apply, Matrix.one_apply_eq, Matrix.mul_apply, Finset.sum_eq_zero, sub_zero] at h
  · exact h
  · intro b _
    by_cases hb : A t b = 0
    · rw [hb, zero_mul]
    · rw [inv_apply_zero hA, mul_zero]
      intro hp
      exact hA t (Relation.TransGen.head' hb hp)

/-- The variance of the noise is the variance left after the regression on the parents. -/
theorem semCov_variance {A : Matrix ι ι ℝ} (hA : AcyclicWeights A) (v : ι → ℝ) (t : ι) :
    semCov A v t t - ∑ x, semCov A v t x * A x t = v t := by
  have h := congrFun (congrFun (semCov_mul hA v) t) t
  rw [Matrix.mul_sub, Matrix.mul_one, Matrix.sub_apply, Matrix.mul_diagonal, Matrix.mul_apply, Matrix.transpose_apply,
    inv_apply_self hA, one_mul] at h
  exact h

end Sem

end Spec

namespace Model.GGM

open Matrix Spec

variable {n : ℕ}

/-- The lexicographic order of the pairs of positions, by the second one first. -/
def Before (a b : Fin n × Fin n) : Prop := a.2 < b.2 ∨ a.2 = b.2 ∧ a.1 < b.1

theorem mem_positionPairs (f s : Fin n) : (f, s) ∈ positionPairs n ↔ f < s := by
  simp [positionPairs]

theorem finRange_pairwise (n : ℕ) : (List.finRange n).Pairwise (· < ·) := by
  rw [List.pairwise_iff_getElem]
  intro i j hi hj hij
  simpa using hij

theorem positionPairs_pairwise (n : ℕ) : (positionPairs n).Pairwise Before := by
  unfold positionPairs
  rw [List.pairwise_flatMap]
  constructor
  · intro s _
    rw [List.pairwise_map]
    exact ((finRange_pairwise n).filter _).imp fun h => Or.inr ⟨rfl, h⟩
  · refine (finRange_pairwise n).imp ?_
    intro a b hab x hx y hy
    simp only [List.mem_map, List.mem_filter] at hx hy
    obtain ⟨_, _, rfl⟩ := hx
    obtain ⟨_, _, rfl⟩ := hy
    exact Or.inl hab

theorem mem_prefix {pre post : List (Fin n × Fin n)} {i j : Fin n} (h : pre ++ (i, j) :: post = positionPairs n) (f s : Fin n) :
    (f, s) ∈ pre ↔ f < s ∧ (s < j ∨ s = j ∧ f < i) := by
  have hp := positionPairs_pairwise n
  rw [← h, List.pairwise_append, List.pairwise_cons] at hp
  constructor
  · intro hm
    refine ⟨(mem_positionPairs f s).1 (h ▸ List.mem_append_left _ hm), ?_⟩
    exact hp.2.2 _ hm (i, j) (by simp)
  · rintro ⟨hfs, hb⟩
    have hm := (mem_positionPairs f s).2 hfs
    rw [← h, List.mem_append, List.mem_cons] at hm
    rcases hm with hm | hm | hm
    · exact hm
    · rw [Prod.mk.injEq] at hm
      obtain ⟨rfl, rfl⟩ := hm
      exfalso
      rcases hb with hb | ⟨-, hb⟩ <;> exact lt_irrefl _ hb
    · exfalso
      rcases hp.2.1.1 _ hm with h1 | ⟨h1, h2⟩ <;> rcases hb with h3 | ⟨h3, h4⟩ <;> simp only at h1 h3
      · exact lt_asymm h1 h3
      · exact h1.ne' h3
      · exact h3.ne' h1
      · exact lt_asymm h2 h4

theorem acyclic_rank {E : ℕ → ℕ → Prop} (r : ℕ → ℕ) (h : ∀ i j, E i j → r i < r j) : Acyclic E := by
  intro a ha
  have : ∀ x y, Path E x y → r x < r y := by
    intro x y hxy
    induction hxy with
    | single h1 => exact h _ _ h1
    | tail _ h1 ih => exact ih.trans (h _ _ h1)
  exact lt_irrefl _ (this a a ha)

/-- What holds after the pairs `pre` have been treated. -/
structure Stage (A : Matrix (Fin n) (Fin n) ℝ) (order : Fin n ≃ Fin n) (P : Matrix (Fin n) (Fin n) ℝ) (μ : Fin n → ℝ)
    (pre : List (Fin n × Fin n)) (G : GGM n) (d : DAG ℕ) : Prop where
  current : G.Current
  precision : G.precision = P
  means : G.means = μ
  consistent : d.Consistent
  nodes : ∀ x, x ∈ d.nodes ↔ x < n
  arcs : ∀ a b, (a, b) ∈ d.arcs ↔ ∃ x ∈ pre, A (order x.1) (order x.2) ≠ 0 ∧ a = (order x.1).val ∧ b = (order x.2).val

theorem arcLoop_spec (o : SetOrder (Option ℕ) ℕ) (oc : SetOrder Unit ℕ) {A : Matrix (Fin n) (Fin n) ℝ} (hA : AcyclicWeights A)
    {v : Fin n → ℝ} (hv : ∀ i, 0 < v i) {order : Fin n ≃ Fin n} (ho : ∀ i j, A i j ≠ 0 → order.symm i < order.symm j)
    {P : Matrix (Fin n) (Fin n) ℝ} (hP : P.PosDef) (hS : semCov A v = P⁻¹) (μ : Fin n → ℝ)
    (htol : ∀ i j C ρ, i ≠ j → i ∉ C → j ∉ C → PartialCorr P⁻¹ i j C ρ → ρ = 0 ∨ Gauss.tol < |ρ|)
    (l : List (Fin n × Fin n)) : ∀ (pre : List (Fin n × Fin n)) (G : GGM n) (d : DAG ℕ), pre ++ l = positionPairs n →
      Stage A order P μ pre G d →
      ∃ G' d', arcLoop o oc (fun k => (order k).val) l G d = some (.ok (G', d')) ∧ Stage A order P μ (positionPairs n) G' d' := by
  induction l with
  | nil =>
    intro pre G d h hst
    rw [List.append_nil] at h
    exact ⟨G, d, rfl, h ▸ hst⟩
  | cons e l ih =>
    obtain ⟨i, j⟩ := e
    intro pre G d h hst
    have hpre := mem_prefix h
    have hij : i < j := (mem_positionPairs i j).1 (h ▸ by simp)
    have hE : ∀ a b : Fin n, d.E a.val b.val ↔ A a b ≠ 0 ∧ (order.symm b < j ∨ order.symm b = j ∧ order.symm a < i) := by
      intro a b
      rw [DAG.E, hst.arcs]
      constructor
      · rintro ⟨⟨f, s⟩, hx, h1, h2, h3⟩
        have h2 := Fin.ext h2
        have h3 := Fin.ext h3
        subst h2 h3
        refine ⟨h1, ?_⟩
        simp only [Equiv.symm_apply_apply]
        exact ((hpre f s).1 hx).2
      · rintro ⟨h1, h2⟩
        exact ⟨(order.symm a, order.symm b), (hpre _ _).2 ⟨ho _ _ h1, h2⟩, by simpa using h1, by simp, by simp⟩
    have hEn : ∀ a b, d.E a b → a < n ∧ b < n := fun a b hab =>
      ⟨(hst.nodes a).1 (hst.consistent.fst_mem _ _ hab), (hst.nodes b).1 (hst.consistent.snd_mem _ _ hab)⟩
    set B := DAG.markovBlanketOf d (order i).val with hB
    let C : Finset (Fin n) := Finset.univ.filter fun g => g.val ∈ B
    have hmB := DAG.mem_markovBlanketOf hst.consistent (order i).val
    have hCB : C.image Fin.val = B := by
      ext x
      simp only [C, Finset.mem_image, Finset.mem_filter, Finset.mem_univ, true_and]
      constructor
      · rintro ⟨a, ha, rfl⟩; exact ha
      · intro hx
        have hlt : x < n := by
          rcases (hmB x).1 hx with h1 | h1 | ⟨-, c, -, h1⟩
          · exact (hEn _ _ h1).1
          · exact (hEn _ _ h1).2
          · exact (hEn _ _ h1).1
        exact ⟨⟨x, hlt⟩, hx, rfl⟩
    have hAself : ∀ a, A a a = 0 := fun a => by
      by_contra hne
      exact lt_irrefl _ (ho a a hne)
    have hmem : ∀ g : Fin n, g ∈ C → order.symm g < j ∧ g ≠ order i := by
      intro g hg
      simp only [C, Finset.mem_filter, Finset.mem_univ, true_and] at hg
      rcases (hmB g.val).1 hg with h1 | h1 | ⟨h0, c, h1, h2⟩
      · have h2 := ((hE _ _).1 h1).1
        refine ⟨?_, ?_⟩
        · have := ho _ _ h2
          rw [Equiv.symm_apply_apply] at this
          exact this.trans hij
        · rintro rfl
          exact h2 (hAself _)
      · obtain ⟨h2, h3⟩ := (hE _ _).1 h1
        rw [Equiv.symm_apply_apply] at h3
        refine ⟨?_, ?_⟩
        · rcases h3 with h3 | ⟨-, h3⟩
          · exact h3
          · exact absurd h3 (lt_irrefl _)
        · rintro rfl
          exact h2 (hAself _)
      · refine ⟨?_, fun e => h0 (by rw [e])⟩
        obtain ⟨c, rfl⟩ : ∃ c' : Fin n, c = c'.val := ⟨⟨c, (hEn _ _ h1).2⟩, rfl⟩
        obtain ⟨h3, h4⟩ := (hE _ _).1 h1
        obtain ⟨h5, h6⟩ := (hE _ _).1 h2
        rw [Equiv.symm_apply_apply] at h4
        rcases h4 with h4 | ⟨-, h4⟩
        · exact (ho _ _ h5).trans h4
        · exact absurd h4 (lt_irrefl _)
    have hiC : order i ∉ C := fun hc => (hmem _ hc).2 rfl
    have hjC : order j ∉ C := fun hc => by
      have := (hmem _ hc).1
      rw [Equiv.symm_apply_apply] at this
      exact lt_irrefl _ this
    have hne : order i ≠ order j := fun e => hij.ne (order.injective e)
    obtain ⟨ρ, G1, k1, k2, k3, k4, k5, k6⟩ := partialCorrelation_spec (G := G) (by rw [hst.precision]; exact hP) hst.current oc hne hiC hjC
    rw [hCB] at k1
    rw [hst.precision] at k2
    have hzero : ρ = 0 ↔ A (order i) (order j) = 0 := by
      refine partialCorr_blanket hA hv (r := fun a => (order.symm a).val) (fun a b hab => ho a b hab) (f := order i) (s := order j)
        (M := C) ?_ ?_ ?_ (hS ▸ k2)
      · simpa using hij
      · intro g hg
        refine ⟨?_, (hmem g hg).2⟩
        simpa using (hmem g hg).1
      · intro g hgi hgj hg
        simp only [Equiv.symm_apply_apply, Fin.val_fin_lt] at hgj hg
        have : g ∈ C := by
          simp only [C, Finset.mem_filter, Finset.mem_univ, true_and, hB]
          rw [hmB]
          rcases hg with hg | hg | ⟨c, hc, hg1, hg2⟩
          · exact Or.inl ((hE _ _).2 ⟨hg, Or.inl (by simpa using hij)⟩)
          · exact Or.inr (Or.inl ((hE _ _).2 ⟨hg, Or.inl hgj⟩))
          · exact Or.inr (Or.inr ⟨fun e => hgi (Fin.ext e), c.val, (hE _ _).2 ⟨hg1, Or.inl hc⟩, (hE _ _).2 ⟨hg2, Or.inl hc⟩⟩)
        exact this
    have hclose : Gauss.IsClose ρ 0 ↔ A (order i) (order j) = 0 := by
      rw [← hzero, Gauss.IsClose, sub_zero, abs_zero, mul_zero, add_zero]
      constructor
      · intro hle
        rcases htol _ _ _ _ hne (by simpa using hiC) (by simpa using hjC) k2 with h0 | h0
        · exact h0
        · exact absurd hle (not_le.2 h0)
      · rintro rfl
        rw [abs_zero]
        exact Gauss.tol_pos.le
    have hpre' : (pre ++ [(i, j)]) ++ l = positionPairs n := by simpa using h
    unfold arcLoop
    simp only [← hB, k1]
    by_cases hz : A (order i) (order j) = 0
    · rw [if_neg (not_not.2 (hclose.2 hz))]
      refine ih _ G1 d hpre' ⟨k3, k5.trans hst.precision, k6.trans hst.means, hst.consistent, hst.nodes, fun a b => ?_⟩
      rw [hst.arcs]
      constructor
      · rintro ⟨x, hx, h1⟩
        exact ⟨x, List.mem_append_left _ hx, h1⟩
      · rintro ⟨x, hx, h1, h2⟩
        rw [List.mem_append, List.mem_singleton] at hx
        rcases hx with hx | rfl
        · exact ⟨x, hx, h1, h2⟩
        · exact absurd hz h1
    · rw [if_pos (fun hc => hz (hclose.1 hc))]
      let r : ℕ → ℕ := fun a => if ha : a < n then (order.symm ⟨a, ha⟩).val else 0
      have hr : ∀ a : Fin n, r a.val = (order.symm a).val := fun a => by simp [r]
      have hrank : ∀ a b, d.E a b → r a < r b := by
        intro a b hab
        obtain ⟨a, rfl⟩ : ∃ a' : Fin n, a = a'.val := ⟨⟨a, (hEn _ _ hab).1⟩, rfl⟩
        obtain ⟨b, rfl⟩ : ∃ b' : Fin n, b = b'.val := ⟨⟨b, (hEn _ _ hab).2⟩, rfl⟩
        rw [hr, hr]
        exact ho _ _ ((hE _ _).1 hab).1
      have hval : d.Valid := ⟨hst.consistent, acyclic_rank r hrank⟩
      obtain ⟨d1, g1, g2, g3, g4, g5⟩ := DAG.addArc_withArc hval o (x := (order i).val) (t := (order j).val)
        ((hst.nodes _).2 (order i).isLt) ((hst.nodes _).2 (order j).isLt) (acyclic_rank r fun a b hab => by
          rcases hab with hab | ⟨rfl, rfl⟩
          · exact hrank a b hab
          · rw [hr, hr, Equiv.symm_apply_apply, Equiv.symm_apply_apply]
            exact hij)
      rw [g1]
      refine ih _ G1 d1 hpre' ⟨k3, k5.trans hst.precision, k6.trans hst.means, g2.toConsistent, fun x => by rw [g3]; exact hst.nodes x,
        fun a b => ?_⟩
      rw [g4, Finset.mem_insert, hst.arcs, Prod.mk.injEq]
      constructor
      · rintro (⟨rfl, rfl⟩ | ⟨x, hx, h1⟩)
        · exact ⟨(i, j), by simp, hz, rfl, rfl⟩
        · exact ⟨x, List.mem_append_left _ hx, h1⟩
      · rintro ⟨x, hx, h1, h2⟩
        rw [List.mem_append, List.mem_singleton] at hx
        rcases hx with hx | rfl
        · exact Or.inr ⟨x, hx, h1, h2⟩
        · exact Or.inl h2

/-- Regression of a node on all its parents. -/
theorem regress_spec {A : Matrix (Fin n) (Fin n) ℝ} (hA : AcyclicWeights A) {v : Fin n → ℝ} (hv : ∀ i, 0 < v i) (μ : Fin n → ℝ)
    {ps : List ℕ} (hnd : ps.Nodup) {t : Fin n} (hps : ∀ x, x ∈ ps ↔ ∃ g : Fin n, A g t ≠ 0 ∧ x = g.val) :
    ∃ c, regress (semCov A v) μ ps t.val = .ok (c, μ t - ∑ x, A x t * μ x, v t) ∧ ∀ a, c a = entry A (ps.get a) t.val := by
  have hlt : ∀ a, ps.get a < n := fun a => by
    obtain ⟨g, -, hg⟩ := (hps _).1 (List.get_mem ps a)
    rw [hg]; exact g.isLt
  let p : Fin ps.length → Fin n := fun a => ⟨ps.get a, hlt a⟩
  have hp : Function.Injective p := fun a b hab => by
    have : ps.get a = ps.get b := congrArg Fin.val hab
    exact List.nodup_iff_injective_get.1 hnd this
  have hpos : Gauss.positions n ps.get = some p := by
    unfold Gauss.positions
    rw [dif_pos hlt]
  have hat : Gauss.at? n t.val = some t := by simp [Gauss.at?]
  set S := semCov A v with hS
  have hpd : (S.submatrix p p).PosDef := (semCov_posDef hA hv).submatrix hp
  have hpar : ∀ x, A x t ≠ 0 → ∃ a, p a = x := by
    intro x hx
    obtain ⟨a, ha⟩ := List.mem_iff_get.1 ((hps x.val).2 ⟨x, hx, rfl⟩)
    exact ⟨a, Fin.ext ha⟩
  have hpt : ∀ a, A (p a) t ≠ 0 := fun a => by
    obtain ⟨g, hg, he⟩ := (hps _).1 (List.get_mem ps a)
    have : p a = g := Fin.ext he
    rwa [this]
  have hsum : ∀ f : Fin n → ℝ, ∑ a, f (p a) * A (p a) t = ∑ x, f x * A x t := by
    intro f
    refine Finset.sum_of_injOn p hp.injOn (fun _ _ => Finset.mem_univ _) ?_ (fun _ _ => rfl)
    intro x _ hx
    by_contra hne
    obtain ⟨a, ha⟩ := hpar x (right_ne_zero_of_mul hne)
    exact hx ⟨a, by simp, ha⟩
  have hcoef : (S.submatrix p p)⁻¹ *ᵥ (fun a => S (p a) t) = fun a => A (p a) t := by
    have h1 : (fun a => S (p a) t) = (S.submatrix p p) *ᵥ fun a => A (p a) t := by
      funext c
      rw [show S (p c) t = _ from Gauss.semCov_structural hA v (p := p c) (j := t) fun hpath => hA t (Relation.TransGen.tail' hpath (hpt c)),
        ← hsum]
      rfl
    rw [h1, Matrix.mulVec_mulVec, Matrix.nonsing_inv_mul _ ((Matrix.isUnit_iff_isUnit_det _).1 hpd.isUnit), Matrix.one_mulVec]
  refine ⟨fun a => A (p a) t, ?_, fun a => ?_⟩
  · unfold regress
    simp only [hpos, hat, Gauss.invOrRaise_posDef hpd, hcoef, hsum]
    rw [semCov_variance hA]
    simp only [mul_comm]
  · have : Gauss.at? n (ps.get a) = some (p a) := by
      unfold Gauss.at?
      rw [dif_pos (hlt a)]
    unfold entry
    rw [this, hat]

theorem regressLoop_spec (op : SetOrder ℕ ℕ) {A : Matrix (Fin n) (Fin n) ℝ} (hA : AcyclicWeights A) {v : Fin n → ℝ} (hv : ∀ i, 0 < v i)
    (μ : Fin n → ℝ) {d : DAG ℕ} (hd : ∀ (t : Fin n) x, x ∈ d.parents t.val ↔ ∃ g : Fin n, A g t ≠ 0 ∧ x = g.val) (l : List (Fin n)) :
    regressLoop op (semCov A v) μ d (l.map Fin.val) =
      .ok (l.flatMap fun t => (op.ord t.val (d.parents t.val)).map fun g => ((g, t.val), entry A g t.val),
        l.map fun t => μ t - ∑ x, A x t * μ x, l.map v) := by
  induction l with
  | nil => rfl
  | cons t l ih =>
    obtain ⟨c, h1, h2⟩ := regress_spec hA hv μ (op.nodup t.val (d.parents t.val)) (t := t) fun x => by rw [op.mem_iff, hd]
    rw [List.map_cons, regressLoop, h1]
    dsimp only
    rw [ih]
    dsimp only
    rw [List.flatMap_cons, List.map_cons, List.map_cons]
    have : (fun a => (((op.ord t.val (d.parents t.val)).get a, t.val), c a)) =
        (fun g => ((g, t.val), entry A g t.val)) ∘ (op.ord t.val (d.parents t.val)).get := by
      funext a
      rw [h2]
      rfl
    rw [this, ← List.map_map, ← List.ofFn_eq_map, List.ofFn_get]

theorem entry_val (A : Matrix (Fin n) (Fin n) ℝ) (a b : Fin n) : entry A a.val b.val = A a b := by simp [entry, Gauss.at?]

/-- What `to_gauss_dag` computes, for any permutation. -/
theorem toGaussDag_spec (o : SetOrder (Option ℕ) ℕ) (oc : SetOrder Unit ℕ) (op : SetOrder ℕ ℕ) (oa : SetOrder Bool (ℕ × ℕ))
    {A : Matrix (Fin n) (Fin n) ℝ} (hA : AcyclicWeights A) {v : Fin n → ℝ} (hv : ∀ i, 0 < v i) {order : Fin n ≃ Fin n}
    (ho : ∀ i j, A i j ≠ 0 → order.symm i < order.symm j) {G : GGM n} (hP : G.precision.PosDef) (hc : G.Current) (hd : G.Drawn)
    (hS : semCov A v = G.precision⁻¹)
    (htol : ∀ i j C ρ, i ≠ j → i ∉ C → j ∉ C → PartialCorr G.precision⁻¹ i j C ρ → ρ = 0 ∨ Gauss.tol < |ρ|) :
    (∃ H : Gauss n ℝ, G.toGaussDag true o oc op oa (fun k => (order k).val) = some (.ok H) ∧ H.Linked ∧ H.names = Fin.val ∧
      H.weight = A ∧ H.biases = (fun k => G.means (order k) - ∑ x, A x (order k) * G.means x) ∧ H.variances = (fun k => v (order k)) ∧
      H.precision = none ∧ H.covariance = none ∧ H.correlation = none) ∧
    G.toGaussDag false o oc op oa (fun k => (order k).val) = some (.error .type) := by
  obtain ⟨G', d, h1, h2⟩ := arcLoop_spec o oc hA hv ho hP hS G.means htol (positionPairs n) [] G (DAG.empty G.graph.nodes) rfl
    ⟨hc, rfl, rfl, DAG.empty_consistent _, fun x => hd.nodes x, fun a b => by simp [DAG.empty]⟩
  obtain ⟨G2, h3, rfl⟩ := h2.current.readCovariance (h2.precision ▸ hP)
  rw [h2.precision, ← hS] at h3
  have hpar : ∀ (t : Fin n) x, x ∈ d.parents t.val ↔ ∃ g : Fin n, A g t ≠ 0 ∧ x = g.val := by
    intro t x
    rw [h2.consistent.parents_iff, h2.arcs]
    constructor
    · rintro ⟨⟨f, s⟩, -, g1, g2, g3⟩
      rw [Fin.ext g3]
      exact ⟨_, g1, g2⟩
    · rintro ⟨g, g1, rfl⟩
      exact ⟨(order.symm g, order.symm t), (mem_positionPairs _ _).2 (ho _ _ g1), by simpa using g1, by simp, by simp⟩
  have hlist : List.ofFn (fun k => (order k).val) = (List.ofFn order).map Fin.val := by
    rw [List.map_ofFn]; rfl
  have h4 := regressLoop_spec op hA hv G.means hpar (List.ofFn order)
  rw [← hlist] at h4
  set arcs := (List.ofFn order).flatMap fun t => (op.ord t.val (d.parents t.val)).map fun g => ((g, t.val), entry A g t.val) with harcs
  have hget : ∀ (f : Fin n → ℝ) (k : Fin n), ((List.ofFn order).map f).getD k.val 0 = f (order k) := by
    intro f k
    simp [List.getD_eq_getElem?_getD]
  have hmem : ∀ e, e ∈ arcs ↔ ∃ g t : Fin n, A g t ≠ 0 ∧ e = ((g.val, t.val), A g t) := by
    intro e
    rw [harcs, List.mem_flatMap]
    constructor
    · rintro ⟨t, -, he⟩
      obtain ⟨x, hx, rfl⟩ := List.mem_map.1 he
      rw [op.mem_iff, hpar] at hx
      obtain ⟨g, hg, rfl⟩ := hx
      exact ⟨g, t, hg, by rw [entry_val]⟩
    · rintro ⟨g, t, hg, rfl⟩
      refine ⟨t, ?_, List.mem_map.2 ⟨g.val, ?_, by rw [entry_val]⟩⟩
      · rw [List.mem_ofFn]
        exact ⟨order.symm t, by simp⟩
      · rw [op.mem_iff, hpar]
        exact ⟨g, hg, rfl⟩
  have hnd : (arcs.map Prod.fst).Nodup := by
    rw [harcs, List.map_flatMap, List.nodup_flatMap]
    constructor
    · intro t _
      rw [List.map_map]
      refine (op.nodup _ _).map ?_
      intro a b hab
      simpa using hab
    · refine (List.nodup_ofFn.2 order.injective).imp ?_
      intro a b hab
      simp only [Function.onFun, List.disjoint_left, List.mem_map]
      rintro x ⟨e, ⟨j, -, rfl⟩, rfl⟩ ⟨e', ⟨j', -, rfl⟩, h⟩
      simp at h
      exact hab (Fin.ext h.2.symm)
  obtain ⟨H, k1, k2, k3, k4, k5, k6, k7, k8, k9⟩ := Gauss.new_spec oa Fin.val_injective (arcs := arcs) (by
    intro e he
    obtain ⟨i, j, -, rfl⟩ := (hmem e).1 he
    exact ⟨⟨i, rfl⟩, j, rfl⟩) hnd (fun k => G.means (order k) - ∑ x, A x (order k) * G.means x) (fun k => v (order k))
  have hcorr := Gauss.new_correlation oa Fin.val arcs (fun k => G.means (order k) - ∑ x, A x (order k) * G.means x)
    (fun k => v (order k))
  rw [k1] at hcorr
  constructor
  · refine ⟨H, ?_, k2, k3, ?_, k4, k5, k6, k7, hcorr⟩
    · unfold toGaussDag
      simp only [h1, h3, h2.means, h4, if_true, hget, k1]
    · ext x y
      by_cases h0 : A x y = 0
      · rw [h0]
        refine k9 x y fun w hw => ?_
        obtain ⟨i, j, hne, he⟩ := (hmem _).1 hw
        simp only [Prod.mk.injEq] at he
        have hx := Fin.ext he.1.1
        have hy := Fin.ext he.1.2
        subst hx; subst hy
        exact hne h0
      · exact k8 x y _ ((hmem _).2 ⟨x, y, h0, rfl⟩)
  · unfold toGaussDag
    simp only [h1, h3, h2.means, h4]
    rfl

end Model.GGM
