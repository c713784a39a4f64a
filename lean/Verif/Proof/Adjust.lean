import Verif.Proof.Faithful
import Verif.Proof.Invariant
import Verif.Proof.Rename
import Verif.Spec.Augment

/-! # Adjustment for a set of variables and total effects

The intervention node becomes part of the noise of its target: with weight `c` and variance `s` it leaves the covariances of the
other variables those of the equations with noise variance `v i + c² s`. -/

namespace Spec

open Relation Matrix

set_option linter.unusedSectionVars false

/-- Separation is inherited by subgraphs. -/
theorem dsep_sub {α : Type} {E R : α → α → Prop} (hE : Acyclic E) (hR : ∀ x y, R x y → E x y) {A B C : Set α} (hd : DSep E A B C) :
    DSep R A B C := by
  have h2 : ∀ x y, R x y → ¬ E y x := fun x y h h' => hE _ ((TransGen.single (hR x y h)).tail h')
  intro a ha b hb l hl
  refine hd a ha b hb l ⟨hl.head, hl.last, hl.nodup, fun u v huv => ?_, fun u v w huv => ?_⟩
  · exact (hl.adj u v huv).imp (hR _ _) (hR _ _)
  · obtain ⟨k1, k2⟩ := hl.opn _ _ _ huv
    constructor
    · rintro ⟨g1, g2⟩
      have e1 : R u v := (hl.adj u v (List.IsInfix.trans ⟨[], [w], rfl⟩ huv)).resolve_right fun h => h2 _ _ h g1
      have e2 : R w v := (hl.adj v w (List.IsInfix.trans ⟨[u], [], rfl⟩ huv)).resolve_left fun h => h2 _ _ h g2
      obtain ⟨c, hc, hp⟩ := k1 ⟨e1, e2⟩
      exact ⟨c, hc, ReflTransGen.mono (fun x y h => hR x y h) _ _ hp⟩
    · exact fun hn => k2 fun g => hn ⟨hR _ _ g.1, hR _ _ g.2⟩

variable {ι : Type} [Fintype ι] [DecidableEq ι]

/-- The equations with an additional variable that only enters the equation of `i`. -/
def withSource (A : Matrix ι ι ℝ) (i : ι) (c : ℝ) : Matrix (Option ι) (Option ι) ℝ
  | none, none => 0
  | none, some b => if b = i then c else 0
  | some _, none => 0
  | some a, some b => A a b

theorem withSource_acyclic {A : Matrix ι ι ℝ} (hA : AcyclicWeights A) (i : ι) (c : ℝ) : AcyclicWeights (withSource A i c) := by
  have hAug : Acyclic (Augment (fun a b => A a b ≠ 0) {i}) := augment_acyclic hA
  refine acyclic_mono ?_ hAug
  rintro (_ | a) (_ | b) h
  · exact absurd rfl h
  · refine .target (Set.mem_singleton_iff.2 ?_)
    by_contra hb
    exact h (if_neg hb)
  · exact absurd rfl h
  · exact .old h

theorem withSource_inv {A : Matrix ι ι ℝ} (hA : AcyclicWeights A) (i : ι) (c : ℝ) :
    (∀ a b, (1 - withSource A i c)⁻¹ (some a) (some b) = (1 - A)⁻¹ a b) ∧
    (∀ b, (1 - withSource A i c)⁻¹ none (some b) = c * (1 - A)⁻¹ i b) ∧
    (∀ a, (1 - withSource A i c)⁻¹ (some a) none = 0) ∧ (1 - withSource A i c)⁻¹ none none = 1 := by
  have hu : IsUnit (1 - A).det := isUnit_iff_ne_zero.2 (Model.det_ne_zero hA)
  let T : Matrix (Option ι) (Option ι) ℝ
    | none, none => 1
    | none, some b => c * (1 - A)⁻¹ i b
    | some _, none => 0
    | some a, some b => (1 - A)⁻¹ a b
  have hm : (1 - withSource A i c) * T = 1 := by
    ext a b
    have hA' : ∀ x y, (1 - A)⁻¹ x y - ∑ k, A x k * (1 - A)⁻¹ k y = (1 : Matrix ι ι ℝ) x y := by
      intro x y
      have := congrFun (congrFun (Matrix.mul_nonsing_inv _ hu) x) y
      rwa [Matrix.sub_mul, Matrix.one_mul, Matrix.sub_apply, Matrix.mul_apply] at this
    rw [Matrix.sub_mul, Matrix.one_mul, Matrix.sub_apply, Matrix.mul_apply, Fintype.sum_option]
    rcases a with _ | a <;> rcases b with _ | b
    · simp [T, withSource]
    · simp [T, withSource]
    · simp [T, withSource]
    · have := hA' a b
      simp only [T, withSource, zero_mul, zero_add, this, Matrix.one_apply, Option.some.injEq]
  have hinv : (1 - withSource A i c)⁻¹ = T := Matrix.inv_eq_right_inv hm
  rw [hinv]
  exact ⟨fun _ _ => rfl, fun _ => rfl, fun _ => rfl, rfl⟩

theorem semCov_apply (A : Matrix ι ι ℝ) (v : ι → ℝ) (a b : ι) :
    semCov A v a b = ∑ k, (1 - A)⁻¹ k a * v k * (1 - A)⁻¹ k b := by
  rw [semCov, Matrix.mul_apply]
  refine Finset.sum_congr rfl fun k _ => ?_
  rw [Matrix.mul_diagonal, Matrix.transpose_apply]

theorem withSource_cov {A : Matrix ι ι ℝ} (hA : AcyclicWeights A) (i : ι) (c : ℝ) (v : Option ι → ℝ) {v' : ι → ℝ}
    (hv : ∀ a, v' a = v (some a) + if a = i then c ^ 2 * v none else 0) :
    (∀ a b, semCov (withSource A i c) v (some a) (some b) = semCov A v' a b) ∧
    ∀ b, semCov (withSource A i c) v none (some b) = v none * c * (1 - A)⁻¹ i b := by
  obtain ⟨h1, h2, h3, h4⟩ := withSource_inv hA i c
  constructor
  · intro a b
    rw [semCov_apply, semCov_apply, Fintype.sum_option, h2, h2]
    simp only [h1, hv, mul_add, add_mul, Finset.sum_add_distrib, mul_ite, ite_mul, mul_zero, zero_mul, Finset.sum_ite_eq',
      Finset.mem_univ, if_true]
    ring
  · intro b
    rw [semCov_apply, Fintype.sum_option, h2, h4]
    simp only [h3, zero_mul, Finset.sum_const_zero]
    ring

variable {κ : Type} [Fintype κ] [DecidableEq κ]

/-- Adjusting for `p` (which contains `i`, and otherwise only variables that `i` has no effect on): the coefficient of `i` differs from the
total effect of `i` on `j` by the covariance of the residual of `j` with the additional variable. -/
theorem adjust_core {A : Matrix ι ι ℝ} (hA : AcyclicWeights A) {i j : ι} {c : ℝ} {v : Option ι → ℝ} {v' : ι → ℝ}
    (hv : ∀ a, v' a = v (some a) + if a = i then c ^ 2 * v none else 0) {p : κ → ι} (hj : ∀ a, p a ≠ j)
    {a0 : κ} (ha0 : p a0 = i) (hself : (1 - A)⁻¹ i i = 1) (hno : ∀ a, a ≠ a0 → (1 - A)⁻¹ i (p a) = 0)
    {β : κ → ℝ} (hβ : ∀ a, ((semCov A v').submatrix p p *ᵥ β) a = semCov A v' (p a) j) :
    ∃ u, Residual (semCov (withSource A i c) v) (some j) (some '' Set.range p) u ∧
      (semCov (withSource A i c) v *ᵥ u) none = v none * c * ((1 - A)⁻¹ i j - β a0) := by
  obtain ⟨h1, h2⟩ := withSource_cov hA i c v hv
  set S := semCov (withSource A i c) v
  let u : Option ι → ℝ
    | none => 0
    | some a => (Pi.single j 1 : ι → ℝ) a - push p β a
  have hrow : ∀ x, (S *ᵥ u) x = S x (some j) - ∑ a, β a * S x (some (p a)) := by
    intro x
    rw [Matrix.mulVec, dotProduct, Fintype.sum_option]
    simp only [u, mul_zero, zero_add, mul_sub, Finset.sum_sub_distrib]
    congr 1
    · rw [Finset.sum_eq_single j]
      · simp
      · intro b _ hb; simp [hb]
      · simp
    · have := push_dot p β fun a => S x (some a)
      rw [dotProduct, dotProduct] at this
      rw [← this]
      exact Finset.sum_congr rfl fun a _ => mul_comm _ _
  refine ⟨u, ⟨?_, ?_, ?_⟩, ?_⟩
  · simp [u, push_outside β hj]
  · rintro (_ | a) hne hC
    · rfl
    · have : ∀ k, p k ≠ a := fun k hk => hC ⟨a, ⟨k, hk⟩, rfl⟩
      simp only [u]
      rw [push_outside β this, sub_zero, Pi.single_eq_of_ne fun h => hne (by rw [h])]
  · rintro _ ⟨_, ⟨a, rfl⟩, rfl⟩
    rw [lcov_single, hrow, h1, sub_eq_zero, ← hβ a, Matrix.mulVec, dotProduct]
    refine Finset.sum_congr rfl fun b _ => ?_
    rw [h1, Matrix.submatrix_apply, mul_comm]
  · rw [hrow, h2, Finset.sum_eq_single a0, h2, ha0, hself]
    · ring
    · intro b _ hb
      rw [h2, hno b hb, mul_zero, mul_zero]
    · simp

theorem range_not_mem {p : κ → ι} {j : ι} (hj : ∀ a, p a ≠ j) : some j ∉ some '' Set.range p := by
  rintro ⟨_, ⟨a, rfl⟩, h⟩
  exact hj a (Option.some.inj h)

/-- If the additional variable is separated from `j` given the predictors, the coefficient of `i` is the total effect. -/
theorem adjust_of_dsep {A : Matrix ι ι ℝ} (hA : AcyclicWeights A) {v : ι → ℝ} (hv : ∀ a, 0 < v a) {i j : ι} {p : κ → ι}
    (hj : ∀ a, p a ≠ j) {a0 : κ} (ha0 : p a0 = i) (hself : (1 - A)⁻¹ i i = 1)
    (hno : ∀ a, a ≠ a0 → (1 - A)⁻¹ i (p a) = 0) {β : κ → ℝ} (hβ : ∀ a, ((semCov A v).submatrix p p *ᵥ β) a = semCov A v (p a) j)
    (hd : DSep (Augment (fun a b => A a b ≠ 0) {i}) {some j} {none} (some '' Set.range p)) : β a0 = (1 - A)⁻¹ i j := by
  let v1 : Option ι → ℝ
    | none => v i / 2
    | some a => if a = i then v i / 2 else v a
  have hv1 : ∀ a, 0 < v1 a := by
    rintro (_ | a)
    · exact half_pos (hv i)
    · simp only [v1]
      split_ifs
      · exact half_pos (hv i)
      · exact hv a
  have hvv : ∀ a, v a = v1 (some a) + if a = i then (1 : ℝ) ^ 2 * v1 none else 0 := by
    intro a
    simp only [v1]
    split_ifs with h
    · rw [h]; ring
    · ring
  obtain ⟨u, hu, hk⟩ := adjust_core hA hvv hj ha0 hself hno hβ
  have hA1 := withSource_acyclic hA i 1
  set S := semCov (withSource A i 1) v1
  have hpd : S.PosDef := semCov_posDef hA1 hv1
  have hC := range_not_mem hj
  have hN : (none : Option ι) ∉ some '' Set.range p := by rintro ⟨_, _, h⟩; cases h
  obtain ⟨w, hw⟩ := rest_exists hpd (some '' Set.range p) (Pi.single none 1)
  have hw' : Residual S none (some '' Set.range p) w := ⟨by rw [hw.off _ hN, Pi.single_eq_same],
    fun a ha haC => by rw [hw.off _ haC, Pi.single_eq_of_ne ha], fun c hc => by rw [lcov_single]; exact hw.on c hc⟩
  have hpos : ∀ {x : Option ι} {y : Option ι → ℝ}, y x = 1 → 0 < lcov S y y := by
    intro x y hy
    have := hpd.dotProduct_mulVec_pos (x := y) (fun h => by rw [h] at hy; exact zero_ne_one hy)
    rwa [star_trivial] at this
  have h0 := partialCorr_dsep hA1 hv1 (by simp) hC hN (dsep_sub (augment_acyclic hA) (fun x y hxy => by
    rcases x with _ | x <;> rcases y with _ | y
    · exact absurd rfl hxy
    · refine .target (Set.mem_singleton_iff.2 ?_)
      by_contra hb
      exact hxy (if_neg hb)
    · exact absurd rfl hxy
    · exact .old hxy) hd) ⟨u, w, hu, hw', hpos hu.self, hpos hw'.self, rfl⟩
  rw [div_eq_zero_iff] at h0
  have h3 : lcov S u w = 0 := h0.resolve_right (mul_pos (Real.sqrt_pos.2 (hpos hu.self)) (Real.sqrt_pos.2 (hpos hw'.self))).ne'
  have h4 : (S *ᵥ u) none = 0 := by
    have e1 : lcov S w u = (Pi.single none 1 : Option ι → ℝ) ⬝ᵥ S *ᵥ u := rest_dot hw (rest_of_residual hu).on
    rw [lcov_comm (semCov_symm _ _), e1] at h3
    simpa using h3
  rw [hk] at h4
  have h5 : v1 none * 1 ≠ 0 := by rw [mul_one]; exact (hv1 none).ne'
  linarith [(mul_eq_zero.1 h4).resolve_left h5]

/-- Otherwise there are weights for which it is not. -/
theorem adjust_faithful {E : ι → ι → Prop} (hE : Acyclic E) {r : ι → ℕ} (hr : Function.Injective r)
    (hrE : ∀ a b, E a b → r a < r b) {i j : ι} {p : κ → ι} (hj : ∀ a, p a ≠ j)
    {a0 : κ} (ha0 : p a0 = i) (hd : ¬ DSep (Augment E {i}) {some j} {none} (some '' Set.range p)) :
    ∃ (A : Matrix ι ι ℝ) (v : ι → ℝ), (∀ a b, A a b ≠ 0 → E a b) ∧ (∀ a, 0 < v a) ∧
      ((1 - A)⁻¹ i i = 1 → (∀ a, a ≠ a0 → (1 - A)⁻¹ i (p a) = 0) →
        ∀ β : κ → ℝ, (∀ a, ((semCov A v).submatrix p p *ᵥ β) a = semCov A v (p a) j) → β a0 ≠ (1 - A)⁻¹ i j) := by
  have hE' : Acyclic (Augment E {i}) := augment_acyclic hE
  obtain ⟨A1, hA1, hf⟩ := exists_faithful hE' (r := fun x => x.elim 0 fun a => r a + 1) (by
    rintro (_ | a) (_ | b) h <;> simp only [Option.elim] at h
    · rfl
    · omega
    · omega
    · rw [hr (Nat.succ_injective h)]) (by
    rintro _ _ (h | _)
    · simpa using hrE _ _ h
    · simp)
  set c := A1 none (some i)
  let A : Matrix ι ι ℝ := fun a b => A1 (some a) (some b)
  have hAE : ∀ a b, A a b ≠ 0 → E a b := fun a b h => by
    have := hA1 _ _ h
    cases this; assumption
  have hAa : AcyclicWeights A := acyclic_mono hAE hE
  have heq : withSource A i c = A1 := by
    ext x y
    rcases x with _ | x <;> rcases y with _ | y
    · by_contra h
      exact hE'.irrefl (hA1 none none fun e => h (by rw [e]; rfl))
    · by_cases hy : y = i
      · subst hy; simp [withSource, c]
      · by_contra h
        have := hA1 none (some y) fun e => h (by rw [e]; simp [withSource, hy])
        cases this with
        | target h' => exact hy h'
    · by_contra h
      have := hA1 (some x) none fun e => h (by rw [e]; rfl)
      cases this
    · rfl
  refine ⟨A, fun a => 1 + if a = i then c ^ 2 * 1 else 0, hAE, fun a => ?_, fun hself hno β hβ he => ?_⟩
  · beta_reduce
    split_ifs
    · nlinarith [sq_nonneg c]
    · norm_num
  · obtain ⟨u, hu, hk⟩ := adjust_core hAa (v := 1) (c := c) (i := i) (fun a => rfl) hj ha0 hself hno hβ
    rw [heq] at hu hk
    refine hf (some j) none _ trivial trivial (Set.subset_univ _) (by simp) (range_not_mem hj)
      (by rintro ⟨_, _, h⟩; cases h) hd u (rest_of_residual hu) ?_
    rw [hk, he, sub_self, mul_zero]

end Spec
