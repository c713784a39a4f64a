import Verif.Proof.Adjust
import Verif.Proof.PerfectExperiments

/-! # Linear equations before and after an intervention

The residual of a variable that the targets do not influence given the predictors is a combination of the errors of the other
variables, so the intervention does not change it. -/

namespace Spec

open Relation Matrix

set_option linter.unusedSectionVars false

variable {ι : Type} [Fintype ι] [DecidableEq ι]

/-- The image of a residual under `(1 - A)⁻¹` vanishes on a target that is separated from the variable. -/
theorem residual_target {E : ι → ι → Prop} (hE : Acyclic E) {A : Matrix ι ι ℝ} (hA : ∀ i j, A i j ≠ 0 → E i j) {v : ι → ℝ} (hv : ∀ a, 0 < v a)
    {I P : Set ι} {i j : ι} (hi : i ∈ I) (hj : j ∉ P) (hd : DSep (Augment E I) {some j} {none} (some '' P)) {u : ι → ℝ}
    (hu : Residual (semCov A v) j P u) : ((1 - A)⁻¹ *ᵥ u) i = 0 := by
  have hAa : AcyclicWeights A := acyclic_mono hA hE
  let v1 : Option ι → ℝ
    | none => v i / 2
    | some a => if a = i then v i / 2 else v a
  have hv1 : ∀ a, 0 < v1 a := by
    rintro (_ | a)
    · exact half_pos (hv i)
    · simp only [v1]
      split_ifs
      · exact half_pos (hv i)
      · exact hv a
  have hvv : ∀ a, v a = v1 (some a) + if a = i then (1 : ℝ) ^ 2 * v1 none else 0 := by
    intro a
    simp only [v1]
    split_ifs with h
    · rw [h]; ring
    · ring
  obtain ⟨h1, h2⟩ := withSource_cov hAa i 1 v1 hvv
  have hA1 := withSource_acyclic hAa i 1
  set S := semCov (withSource A i 1) v1
  have hpd : S.PosDef := semCov_posDef hA1 hv1
  let u1 : Option ι → ℝ := fun a => a.elim 0 u
  have hrow : ∀ x, (S *ᵥ u1) x = ∑ a, S x (some a) * u a := by
    intro x
    rw [Matrix.mulVec, dotProduct, Fintype.sum_option]
    simp [u1]
  have hu1 : Residual S (some j) (some '' P) u1 := by
    refine ⟨hu.self, ?_, ?_⟩
    · rintro (_ | a) hne hC
      · rfl
      · exact hu.support a (fun h => hne (by rw [h])) fun h => hC ⟨a, h, rfl⟩
    · rintro _ ⟨c, hc, rfl⟩
      have := hu.uncorrelated c hc
      rw [lcov_single] at this ⊢
      rw [hrow, ← this, Matrix.mulVec, dotProduct]
      exact Finset.sum_congr rfl fun a _ => by rw [h1]
  have hC : some j ∉ some '' P := by
    rintro ⟨a, ha, h⟩
    rw [Option.some.inj h] at ha
    exact hj ha
  have hN : (none : Option ι) ∉ some '' P := by rintro ⟨_, _, h⟩; cases h
  obtain ⟨w, hw⟩ := rest_exists hpd (some '' P) (Pi.single none 1)
  have hw' : Residual S none (some '' P) w := ⟨by rw [hw.off _ hN, Pi.single_eq_same],
    fun a ha haC => by rw [hw.off _ haC, Pi.single_eq_of_ne ha], fun c hc => by rw [lcov_single]; exact hw.on c hc⟩
  have hpos : ∀ {x : Option ι} {y : Option ι → ℝ}, y x = 1 → 0 < lcov S y y := by
    intro x y hy
    have := hpd.dotProduct_mulVec_pos (x := y) (fun h => by rw [h] at hy; exact zero_ne_one hy)
    rwa [star_trivial] at this
  have h0 := partialCorr_dsep hA1 hv1 (by simp) hC hN (dsep_sub (augment_acyclic hE) (fun x y hxy => by
    rcases x with _ | x <;> rcases y with _ | y
    · exact absurd rfl hxy
    · have hy : y = i := by
        by_contra hb
        exact hxy (if_neg hb)
      exact .target (hy ▸ hi)
    · exact absurd rfl hxy
    · exact .old (hA _ _ hxy)) hd) ⟨u1, w, hu1, hw', hpos hu1.self, hpos hw'.self, rfl⟩
  rw [div_eq_zero_iff] at h0
  have h3 : lcov S u1 w = 0 := h0.resolve_right (mul_pos (Real.sqrt_pos.2 (hpos hu1.self)) (Real.sqrt_pos.2 (hpos hw'.self))).ne'
  have h4 : (S *ᵥ u1) none = 0 := by
    have e1 : lcov S w u1 = (Pi.single none 1 : Option ι → ℝ) ⬝ᵥ S *ᵥ u1 := rest_dot hw (rest_of_residual hu1).on
    rw [lcov_comm (semCov_symm _ _), e1] at h3
    simpa using h3
  have h5 : v1 none * 1 * ((1 - A)⁻¹ *ᵥ u) i = 0 := by
    rw [← h4, hrow, Matrix.mulVec, dotProduct, Finset.mul_sum]
    exact Finset.sum_congr rfl fun a _ => by rw [h2]; ring
  exact (mul_eq_zero.1 h5).resolve_left (by rw [mul_one]; exact (hv1 none).ne')

/-- The variance of a combination in terms of the errors. -/
theorem lcov_errors (A : Matrix ι ι ℝ) (v u : ι → ℝ) : lcov (semCov A v) u u = ∑ k, v k * ((1 - A)⁻¹ *ᵥ u) k ^ 2 := by
  rw [lcov, semCov, ← Matrix.mulVec_mulVec, ← Matrix.mulVec_mulVec, Matrix.dotProduct_mulVec, Matrix.vecMul_transpose, dotProduct]
  refine Finset.sum_congr rfl fun k _ => ?_
  rw [Matrix.mulVec_diagonal]
  ring

/-- Combinations of errors of variables that are not targets. -/
theorem errors_same {A A' : Matrix ι ι ℝ} (hA : AcyclicWeights A) (hA' : AcyclicWeights A') {I : Set ι}
    (hs : ∀ j, j ∉ I → ∀ i, A' i j = A i j) {u : ι → ℝ} (hu : ∀ i ∈ I, ((1 - A)⁻¹ *ᵥ u) i = 0) : (1 - A')⁻¹ *ᵥ u = (1 - A)⁻¹ *ᵥ u := by
  have h1 : IsUnit (1 - A).det := isUnit_iff_ne_zero.2 (Model.det_ne_zero hA)
  have h2 : IsUnit (1 - A').det := isUnit_iff_ne_zero.2 (Model.det_ne_zero hA')
  set z := (1 - A)⁻¹ *ᵥ u with hz
  have e1 : (1 - A) *ᵥ z = u := by rw [hz, Matrix.mulVec_mulVec, Matrix.mul_nonsing_inv _ h1, Matrix.one_mulVec]
  have e2 : (1 - A') *ᵥ z = u := by
    rw [← e1]
    ext a
    rw [Matrix.mulVec, Matrix.mulVec, dotProduct, dotProduct]
    refine Finset.sum_congr rfl fun b _ => ?_
    by_cases hb : b ∈ I
    · rw [hu b hb, mul_zero, mul_zero]
    · rw [Matrix.sub_apply, Matrix.sub_apply, hs b hb]
  rw [← e2, Matrix.mulVec_mulVec, Matrix.nonsing_inv_mul _ h2, Matrix.one_mulVec]

theorem mean_errors {A : Matrix ι ι ℝ} (hA : AcyclicWeights A) {b m : ι → ℝ} (hm : LinearSEM A b m) (u : ι → ℝ) :
    u ⬝ᵥ m = ∑ k, ((1 - A)⁻¹ *ᵥ u) k * b k := by
  have h1 : IsUnit (1 - A).det := isUnit_iff_ne_zero.2 (Model.det_ne_zero hA)
  have hb : b = Matrix.vecMul m (1 - A) := by
    ext j
    have h : m j = ∑ i, A i j * m i + b j := by simpa using hm j
    rw [Matrix.vecMul_sub, Matrix.vecMul_one, Pi.sub_apply, Matrix.vecMul, dotProduct, Finset.sum_congr rfl fun i _ => mul_comm (m i) _]
    linarith
  have hbm : m = Matrix.vecMul b (1 - A)⁻¹ := by rw [hb, Matrix.vecMul_vecMul, Matrix.mul_nonsing_inv _ h1, Matrix.vecMul_one]
  conv_lhs => rw [hbm, dotProduct_comm, ← Matrix.dotProduct_mulVec, dotProduct_comm]
  rfl

/-- A residual with the smaller variance is the only one. -/
theorem residual_add {S : Matrix ι ι ℝ} (hS : S.transpose = S) {j : ι} {P : Set ι} {u u' : ι → ℝ} (h : Residual S j P u) (h1 : u' j = 1)
    (h2 : ∀ a, a ≠ j → a ∉ P → u' a = 0) : lcov S u' u' = lcov S u u + lcov S (u' - u) (u' - u) := by
  have h0 : lcov S (u' - u) u = 0 := by
    refine Finset.sum_eq_zero fun a _ => ?_
    by_cases haP : a ∈ P
    · have := h.uncorrelated a haP
      rw [lcov_single] at this
      rw [this, mul_zero]
    · by_cases haj : a = j
      · rw [haj, Pi.sub_apply, h1, h.self, sub_self, zero_mul]
      · rw [Pi.sub_apply, h2 a haj haP, h.support a haj haP, sub_self, zero_mul]
  have h0' : lcov S u (u' - u) = 0 := by rw [lcov_comm hS, h0]
  have e : u' = u + (u' - u) := by simp
  conv_lhs => rw [e]
  unfold lcov at h0 h0' ⊢
  rw [Matrix.mulVec_add, dotProduct_add, add_dotProduct, add_dotProduct, h0, h0']
  ring

/-- What is left of a variable after regression on predictors that separate it from the targets is the same before and after the
intervention. -/
theorem residual_invariant {E : ι → ι → Prop} (hE : Acyclic E) {A A' : Matrix ι ι ℝ} (hA : ∀ i j, A i j ≠ 0 → E i j)
    (hA' : ∀ i j, A' i j ≠ 0 → E i j) {v v' : ι → ℝ} (hv : ∀ a, 0 < v a) (hv' : ∀ a, 0 < v' a) {I P : Set ι}
    (hs : ∀ j, j ∉ I → (∀ i, A' i j = A i j) ∧ v' j = v j) {j : ι} (hj : j ∉ P) (hd : DSep (Augment E I) {some j} {none} (some '' P))
    {u : ι → ℝ} (hu : Residual (semCov A v) j P u) :
    Residual (semCov A' v') j P u ∧ lcov (semCov A' v') u u = lcov (semCov A v) u u ∧
      ∀ {b b' m m'}, LinearSEM A b m → LinearSEM A' b' m' → (∀ j, j ∉ I → b' j = b j) → u ⬝ᵥ m' = u ⬝ᵥ m := by
  have hAa : AcyclicWeights A := acyclic_mono hA hE
  have hAa' : AcyclicWeights A' := acyclic_mono hA' hE
  have hpd := semCov_posDef hAa hv
  have hpd' := semCov_posDef hAa' hv'
  obtain ⟨u', hw⟩ := rest_exists hpd' P (Pi.single j 1)
  have hu' : Residual (semCov A' v') j P u' := ⟨by rw [hw.off _ hj, Pi.single_eq_same],
    fun a ha haC => by rw [hw.off _ haC, Pi.single_eq_of_ne ha], fun c hc => by rw [lcov_single]; exact hw.on c hc⟩
  have z1 : ∀ i ∈ I, ((1 - A)⁻¹ *ᵥ u) i = 0 := fun i hi => residual_target hE hA hv hi hj hd hu
  have z2 : ∀ i ∈ I, ((1 - A')⁻¹ *ᵥ u') i = 0 := fun i hi => residual_target hE hA' hv' hi hj hd hu'
  have e1 := errors_same hAa hAa' (fun j hj => (hs j hj).1) z1
  have e2 := errors_same hAa' hAa (fun j hj i => ((hs j hj).1 i).symm) z2
  have l1 : lcov (semCov A' v') u u = lcov (semCov A v) u u := by
    rw [lcov_errors, lcov_errors, e1]
    refine Finset.sum_congr rfl fun k _ => ?_
    by_cases hk : k ∈ I
    · rw [z1 k hk]; ring
    · rw [(hs k hk).2]
  have l2 : lcov (semCov A v) u' u' = lcov (semCov A' v') u' u' := by
    rw [lcov_errors, lcov_errors, e2]
    refine Finset.sum_congr rfl fun k _ => ?_
    by_cases hk : k ∈ I
    · rw [z2 k hk]; ring
    · rw [(hs k hk).2]
  have m1 := residual_add (semCov_symm A v) hu hu'.self hu'.support
  have m2 := residual_add (semCov_symm A' v') hu' hu.self hu.support
  have hsq : ∀ {S : Matrix ι ι ℝ}, S.PosDef → ∀ d, 0 ≤ lcov S d d := by
    intro S hS d
    have := hS.posSemidef.dotProduct_mulVec_nonneg d
    rwa [star_trivial] at this
  have n1 := hsq hpd (u' - u)
  have n2 := hsq hpd' (u - u')
  have heq : u = u' := by
    by_contra hne
    have := hpd'.dotProduct_mulVec_pos (x := u - u') (sub_ne_zero.2 hne)
    rw [star_trivial] at this
    have : 0 < lcov (semCov A' v') (u - u') (u - u') := this
    linarith
  refine ⟨heq ▸ hu', l1, fun {b b' m m'} hm hm' hb => ?_⟩
  rw [mean_errors hAa hm, mean_errors hAa' hm', e1]
  refine Finset.sum_congr rfl fun k _ => ?_
  by_cases hk : k ∈ I
  · rw [z1 k hk]; ring
  · rw [hb k hk]

/-- A variable minus its equation. -/
def equation (A : Matrix ι ι ℝ) (j : ι) : ι → ℝ := fun i => (1 - A) i j

theorem equation_residual {E : ι → ι → Prop} (hE : Acyclic E) {A : Matrix ι ι ℝ} (hA : ∀ i j, A i j ≠ 0 → E i j) (v : ι → ℝ) (j : ι) :
    Residual (semCov A v) j {p | E p j} (equation A j) ∧ lcov (semCov A v) (equation A j) (equation A j) = v j := by
  have hAa : AcyclicWeights A := acyclic_mono hA hE
  have h1 : IsUnit (1 - A).det := isUnit_iff_ne_zero.2 (Model.det_ne_zero hAa)
  have hz : (1 - A)⁻¹ *ᵥ equation A j = Pi.single j 1 := by
    have : equation A j = (1 - A) *ᵥ Pi.single j 1 := by
      ext a
      rw [Matrix.mulVec_single_one]
      rfl
    rw [this, Matrix.mulVec_mulVec, Matrix.nonsing_inv_mul _ h1, Matrix.one_mulVec]
  have hself : A j j = 0 := by
    by_contra h
    exact hE.irrefl (hA j j h)
  refine ⟨⟨by simp [equation, hself], fun a ha haP => ?_, fun c hc => ?_⟩, ?_⟩
  · rw [equation, Matrix.sub_apply, Matrix.one_apply_ne ha, zero_sub, neg_eq_zero]
    by_contra h
    exact haP (hA a j h)
  · rw [lcov_single, semCov, ← Matrix.mulVec_mulVec, hz, ← Matrix.mulVec_mulVec, Matrix.mulVec, dotProduct]
    have h0 : (1 - A)⁻¹ j c = 0 := by
      refine support_up hAa (x := Pi.single c 1) (z := fun a => (1 - A)⁻¹ a c) (fun a => ?_) (T := {a | Path0 E a c})
        (fun a b hab hb => ReflTransGen.head (hA a b hab) hb) (fun a ha => ?_) j fun h => ?_
      · have := congrFun (congrFun (Matrix.mul_nonsing_inv _ h1) a) c
        rw [Matrix.sub_mul, Matrix.one_mul, Matrix.sub_apply, Matrix.mul_apply] at this
        rw [this, Matrix.one_apply, Pi.single_apply]
      · by_cases hac : a = c
        · rw [hac]; exact .refl
        · exact absurd (Pi.single_eq_of_ne hac 1) ha
      · exact hE j (TransGen.tail' h hc)
    refine Finset.sum_eq_zero fun a _ => ?_
    rw [Matrix.mulVec_diagonal, Matrix.transpose_apply]
    by_cases ha : a = j
    · rw [ha, h0, zero_mul]
    · rw [Pi.single_eq_of_ne ha, mul_zero, mul_zero]
  · rw [lcov_errors, hz, Finset.sum_eq_single j]
    · simp
    · intro b _ hb
      rw [Pi.single_eq_of_ne hb]; ring
    · simp

theorem equation_mean {A : Matrix ι ι ℝ} {b m : ι → ℝ} (hm : LinearSEM A b m) (j : ι) : equation A j ⬝ᵥ m = b j := by
  have h : m j = ∑ i, A i j * m i + b j := by simpa using hm j
  have e : equation A j ⬝ᵥ m = m j - ∑ i, A i j * m i := by
    rw [dotProduct]
    simp only [equation, Matrix.sub_apply, sub_mul, Finset.sum_sub_distrib]
    congr 1
    simp [Matrix.one_apply]
  rw [e]
  linarith

/-- Equivalent graphs with the same arcs between targets and other variables: equations on the second graph with the same covariances
and means as the equations on the first graph differ only for the targets. -/
theorem equations_transfer {E F : ι → ι → Prop} (hE : Acyclic E) (hF : Acyclic F) {I : Set ι} (hs : SameSkelV (Augment F I) (Augment E I))
    {A A' B B' : Matrix ι ι ℝ} {v v' w w' b b' c c' m m' : ι → ℝ} (hA : ∀ i j, A i j ≠ 0 → E i j) (hA' : ∀ i j, A' i j ≠ 0 → E i j)
    (hB : ∀ i j, B i j ≠ 0 → F i j) (hB' : ∀ i j, B' i j ≠ 0 → F i j) (hv : ∀ a, 0 < v a) (hv' : ∀ a, 0 < v' a)
    (h : ∀ j, j ∉ I → (∀ i, A' i j = A i j) ∧ v' j = v j ∧ b' j = b j) (hc : semCov B w = semCov A v) (hc' : semCov B' w' = semCov A' v')
    (hm : LinearSEM A b m) (hm' : LinearSEM A' b' m') (hn : LinearSEM B c m) (hn' : LinearSEM B' c' m') {j : ι} (hj : j ∉ I) :
    (∀ i, B' i j = B i j) ∧ w' j = w j ∧ c' j = c j := by
  have hsm := ((sameSkelV_iff (augment_acyclic (I := I) hF) (augment_acyclic (I := I) hE) Finset.univ (fun _ _ _ => by simp)
    (fun _ _ _ => by simp)).1 hs).1
  have hjP : j ∉ {p | F p j} := fun h => hF.irrefl h
  have hd : DSep (Augment E I) {some j} {none} (some '' {p | F p j}) := by
    refine hsm _ _ _ (by simp) (by simp) (by simp) (by simp) ?_ ?_ (parents_shield hF hj)
    · rw [Set.disjoint_singleton_left]
      rintro ⟨a, ha, e⟩
      rw [Option.some.inj e] at ha
      exact hjP ha
    · rw [Set.disjoint_singleton_left]
      rintro ⟨a, ha, e⟩
      cases e
  obtain ⟨r1, r2⟩ := equation_residual hF hB w j
  obtain ⟨s1, s2⟩ := equation_residual hF hB' w' j
  rw [hc] at r1 r2
  rw [hc'] at s1 s2
  obtain ⟨t1, t2, t3⟩ := residual_invariant hE hA hA' hv hv' (fun j hj => ⟨(h j hj).1, (h j hj).2.1⟩) hjP hd r1
  have he : equation B' j = equation B j := residual_unique (semCov_posDef (acyclic_mono hA' hE) hv') hjP s1 t1
  refine ⟨fun i => ?_, ?_, ?_⟩
  · have := congrFun he i
    simp only [equation, Matrix.sub_apply] at this
    linarith
  · rw [← s2, he, t2, r2]
  · rw [← equation_mean hn' j, he, t3 hm hm' fun j hj => (h j hj).2.2, equation_mean hn j]

end Spec
