import Mathlib.Algebra.MvPolynomial.Funext
import Verif.Proof.GaussImap

/-! # A Gaussian distribution with no other vanishing partial correlations than those forced by d-separation

The weights are chosen node by node along a topological order; at each node finitely many nonzero polynomials in the weights of its
arcs have to be avoided. -/

namespace Spec

open Relation Matrix

set_option linter.unusedSectionVars false

variable {ι : Type} [Fintype ι] [DecidableEq ι]

/-- `u` is what is left of the linear combination `x` after regression on the variables in `C`. -/
structure Rest (S : Matrix ι ι ℝ) (C : Set ι) (x u : ι → ℝ) : Prop where
  off : ∀ a, a ∉ C → u a = x a
  on : ∀ c ∈ C, (S *ᵥ u) c = 0

theorem rest_of_residual {S : Matrix ι ι ℝ} {C : Set ι} {i : ι} {u : ι → ℝ} (h : Residual S i C u) : Rest S C (Pi.single i 1) u where
  off a ha := by
    by_cases hai : a = i
    · subst hai; rw [h.self, Pi.single_eq_same]
    · rw [h.support a hai ha, Pi.single_eq_of_ne hai]
  on c hc := by rw [← lcov_single]; exact h.uncorrelated c hc

variable {S : Matrix ι ι ℝ}

theorem rest_dot {C : Set ι} {x u y : ι → ℝ} (h : Rest S C x u) (hy : ∀ c ∈ C, y c = 0) : u ⬝ᵥ y = x ⬝ᵥ y := by
  refine Finset.sum_congr rfl fun a _ => ?_
  by_cases ha : a ∈ C
  · rw [hy a ha, mul_zero, mul_zero]
  · rw [h.off a ha]

theorem rest_exists (hS : S.PosDef) (C : Set ι) (x : ι → ℝ) : ∃ u, Rest S C x u := by
  classical
  let f : (ι → ℝ) →ₗ[ℝ] (ι → ℝ) :=
    { toFun := fun y a => if a ∈ C then (S *ᵥ y) a else y a
      map_add' := fun y z => by
        ext a
        simp only [Matrix.mulVec_add, Pi.add_apply]
        split_ifs <;> rfl
      map_smul' := fun r y => by
        ext a
        simp only [Matrix.mulVec_smul, Pi.smul_apply, RingHom.id_apply]
        split_ifs <;> rfl }
  have hf : Function.Injective f := by
    rw [injective_iff_map_eq_zero]
    intro y hy
    by_contra hne
    have h := hS.dotProduct_mulVec_pos hne
    refine h.ne' (Finset.sum_eq_zero fun a _ => ?_)
    have ha : (if a ∈ C then (S *ᵥ y) a else y a) = 0 := congrFun hy a
    split_ifs at ha with hc
    · rw [ha, mul_zero]
    · simp [ha]
  obtain ⟨u, hu⟩ := LinearMap.injective_iff_surjective.1 hf fun a => if a ∈ C then 0 else x a
  refine ⟨u, fun a ha => ?_, fun c hc => ?_⟩
  · have : (if a ∈ C then (S *ᵥ u) a else u a) = if a ∈ C then 0 else x a := congrFun hu a
    rwa [if_neg ha, if_neg ha] at this
  · have : (if c ∈ C then (S *ᵥ u) c else u c) = if c ∈ C then 0 else x c := congrFun hu c
    rwa [if_pos hc, if_pos hc] at this

theorem rest_unique (hS : S.PosDef) {C : Set ι} {x u u' : ι → ℝ} (h : Rest S C x u) (h' : Rest S C x u') : u = u' := by
  by_contra hne
  have hp := hS.dotProduct_mulVec_pos (x := u - u') (sub_ne_zero.2 hne)
  refine hp.ne' (Finset.sum_eq_zero fun a _ => ?_)
  by_cases ha : a ∈ C
  · simp [Matrix.mulVec_sub, h.on a ha, h'.on a ha]
  · simp [h.off a ha, h'.off a ha]

/-- The covariance of what is left does not depend on which of the two combinations is reduced. -/
theorem rest_comm (hS : S.transpose = S) {C : Set ι} {x y u w : ι → ℝ} (hu : Rest S C x u) (hw : Rest S C y w) :
    x ⬝ᵥ S *ᵥ w = y ⬝ᵥ S *ᵥ u := by
  rw [← rest_dot hu hw.on, ← rest_dot hw hu.on]
  exact lcov_comm hS u w

theorem rest_pos (hS : S.PosDef) {C : Set ι} {i : ι} (hi : i ∉ C) {u : ι → ℝ} (hu : Rest S C (Pi.single i 1) u) : 0 < (S *ᵥ u) i := by
  have h1 : (S *ᵥ u) i = u ⬝ᵥ S *ᵥ u := by
    rw [rest_dot hu hu.on]; simp
  rw [h1]
  have hne : u ≠ 0 := fun h => by
    have := hu.off i hi
    rw [h, Pi.single_eq_same] at this
    exact zero_ne_one this
  simpa using hS.dotProduct_mulVec_pos hne

/-! ## A new variable -/

/-- `S'` is `S` with the isolated variable `t` replaced by itself plus the combination `w` of the others. -/
structure Grown (S S' : Matrix ι ι ℝ) (t : ι) (w : ι → ℝ) : Prop where
  lcov_eq : ∀ x y, lcov S' x y = lcov S (x + x t • w) (y + y t • w)
  wt : w t = 0
  self : S t t = 1
  other : ∀ a, a ≠ t → S t a = 0

variable {S' : Matrix ι ι ℝ} {t : ι} {w : ι → ℝ}

theorem Grown.row (h : Grown S S' t w) (u : ι → ℝ) : (S *ᵥ u) t = u t := by
  rw [Matrix.mulVec, dotProduct, Finset.sum_eq_single t, h.self, one_mul]
  · intro b _ hb; rw [h.other b hb, zero_mul]
  · intro hn; exact absurd (Finset.mem_univ _) hn

theorem Grown.at_ne (h : Grown S S' t w) {c : ι} (hc : c ≠ t) (u : ι → ℝ) : (S' *ᵥ u) c = (S *ᵥ (u + u t • w)) c := by
  rw [← lcov_single, h.lcov_eq, ← lcov_single, Pi.single_eq_of_ne hc.symm, zero_smul, add_zero]

theorem Grown.at_self (h : Grown S S' t w) (u : ι → ℝ) : (S' *ᵥ u) t = (S *ᵥ (u + u t • w)) t + w ⬝ᵥ S *ᵥ (u + u t • w) := by
  rw [← lcov_single, h.lcov_eq, Pi.single_eq_same, one_smul]
  simp [lcov, add_dotProduct]

/-- Residuals without the new variable stay the same. -/
theorem Grown.old (h : Grown S S' t w) {C : Set ι} (hC : t ∉ C) {x u : ι → ℝ} (hx : x t = 0) (hu : Rest S C x u) :
    u t = 0 ∧ Rest S' C x u ∧ (∀ j, j ≠ t → (S' *ᵥ u) j = (S *ᵥ u) j) ∧ (S' *ᵥ u) t = w ⬝ᵥ S *ᵥ u := by
  have h0 : u t = 0 := by rw [hu.off t hC, hx]
  have h1 : u + u t • w = u := by rw [h0, zero_smul, add_zero]
  have h2 : ∀ j, j ≠ t → (S' *ᵥ u) j = (S *ᵥ u) j := fun j hj => by rw [h.at_ne hj, h1]
  refine ⟨h0, ⟨hu.off, fun c hc => ?_⟩, h2, ?_⟩
  · rw [h2 c (by rintro rfl; exact hC hc), hu.on c hc]
  · rw [h.at_self, h1, h.row, h0, zero_add]

/-- Conditioning on the new variable. -/
theorem Grown.new (h : Grown S S' t w) (hS : S.PosDef) (hsym : S.transpose = S) {C : Set ι} (hC : t ∉ C) {i j : ι} (hi : i ≠ t) (hj : j ≠ t)
    {u uj ω : ι → ℝ} (hu : Rest S C (Pi.single i 1) u) (huj : Rest S C (Pi.single j 1) uj) (hω : Rest S C w ω) :
    0 < 1 + w ⬝ᵥ S *ᵥ ω ∧ ∃ u', Rest S' (insert t C) (Pi.single i 1) u' ∧
      (1 + w ⬝ᵥ S *ᵥ ω) * (S' *ᵥ u') j = (S *ᵥ u) j * (1 + w ⬝ᵥ S *ᵥ ω) - (w ⬝ᵥ S *ᵥ u) * (w ⬝ᵥ S *ᵥ uj) := by
  have hV : 0 < 1 + w ⬝ᵥ S *ᵥ ω := by
    rw [← rest_dot hω hω.on]
    have := hS.posSemidef.dotProduct_mulVec_nonneg ω
    simp only [star_trivial] at this
    linarith
  refine ⟨hV, ?_⟩
  set V := 1 + w ⬝ᵥ S *ᵥ ω with hVdef
  obtain ⟨h0, h1, h2, h3⟩ := h.old hC (Pi.single_eq_of_ne hi.symm 1) hu
  set z : ι → ℝ := Pi.single t 1 + ω - w with hz
  have hωt : ω t = 0 := by rw [hω.off t hC, h.wt]
  have hzt : z t = 1 := by simp [hz, hωt, h.wt]
  have hLz : z + z t • w = Pi.single t 1 + ω := by rw [hzt, one_smul, hz, sub_add_cancel]
  have hSt : ∀ c, c ≠ t → (S *ᵥ Pi.single t 1) c = 0 := fun c hc => by
    rw [Matrix.mulVec_single_one]
    have := congrFun (congrFun hsym t) c
    rw [Matrix.transpose_apply, h.other c hc] at this
    exact this
  have hz1 : ∀ c, c ≠ t → (S' *ᵥ z) c = (S *ᵥ ω) c := fun c hc => by
    rw [h.at_ne hc, hLz, Matrix.mulVec_add, Pi.add_apply, hSt c hc, zero_add]
  have hz2 : (S' *ᵥ z) t = V := by
    rw [h.at_self, hLz, h.row, Pi.add_apply, Pi.single_eq_same, hωt, add_zero, Matrix.mulVec_add, dotProduct_add]
    have : w ⬝ᵥ S *ᵥ Pi.single t 1 = 0 := Finset.sum_eq_zero fun a _ => by
      by_cases ha : a = t
      · subst ha; rw [h.wt, zero_mul]
      · rw [hSt a ha, mul_zero]
    rw [this, zero_add]
  refine ⟨u - ((w ⬝ᵥ S *ᵥ u) / V) • z, ⟨fun a ha => ?_, fun c hc => ?_⟩, ?_⟩
  · have hat : a ≠ t := fun e => ha (Or.inl e)
    have haC : a ∉ C := fun e => ha (Or.inr e)
    have hza : z a = 0 := by simp [hz, hat, hω.off a haC]
    simp [hza, hu.off a haC]
  · rw [Matrix.mulVec_sub, Matrix.mulVec_smul, Pi.sub_apply, Pi.smul_apply, smul_eq_mul]
    rcases hc with rfl | hc
    · rw [h3, hz2]
      field_simp
      ring
    · have hct : c ≠ t := by rintro rfl; exact hC hc
      rw [h2 c hct, hz1 c hct, hu.on c hc, hω.on c hc, mul_zero, sub_zero]
  · rw [Matrix.mulVec_sub, Matrix.mulVec_smul, Pi.sub_apply, Pi.smul_apply, smul_eq_mul, h2 j hj, hz1 j hj]
    have h5 : (S *ᵥ ω) j = w ⬝ᵥ S *ᵥ uj := by
      have := rest_comm hsym hω huj
      rw [this]; simp
    rw [h5]
    field_simp

omit [Fintype ι] [DecidableEq ι] in
/-- Finitely many nonzero polynomials do not vanish at a common point. -/
theorem generic {κ : Type} [Finite κ] {s : ι → Set ℝ} (hs : ∀ i, (s i).Infinite) (good : κ → (ι → ℝ) → Prop)
    (h : ∀ k, ∃ Q : MvPolynomial ι ℝ, Q ≠ 0 ∧ ∀ x, (∀ i, x i ∈ s i) → MvPolynomial.eval x Q ≠ 0 → good k x) :
    ∃ x, (∀ i, x i ∈ s i) ∧ ∀ k, good k x := by
  have := Fintype.ofFinite κ
  choose Q h1 h2 using h
  have hne : ∏ k, Q k ≠ 0 := Finset.prod_ne_zero_iff.2 fun k _ => h1 k
  obtain ⟨x, hxs, hx⟩ : ∃ x, (∀ i, x i ∈ s i) ∧ MvPolynomial.eval x (∏ k, Q k) ≠ 0 := by
    by_contra hn
    push Not at hn
    exact hne (MvPolynomial.funext_set s hs fun x hx => by rw [hn x fun i => hx i trivial, map_zero])
  rw [map_prod, Finset.prod_ne_zero_iff] at hx
  exact ⟨x, hxs, fun k => h2 k x hxs (hx k (Finset.mem_univ _))⟩

/-! ## The graph -/

variable {E : ι → ι → Prop} {V : Set ι}

omit [Fintype ι] [DecidableEq ι] in
theorem anc_path (hV : ∀ a b, E a b → b ∈ V → a ∈ V) {a b : ι} (h : Path E a b) (hb : b ∈ V) : a ∈ V := by
  induction h using TransGen.head_induction_on with
  | single h => exact hV _ _ h hb
  | head h _ ih => exact hV _ _ h ih

omit [Fintype ι] [DecidableEq ι] in
/-- If a new node `t` is not separated from `i`, some parent of `t` outside `C` is not separated from `i`. -/
theorem dsep_new (hE : Acyclic E) (hV : ∀ a b, E a b → b ∈ V → a ∈ V) (ht : t ∉ V) {i : ι} {B C : Set ι} (hi : i ∈ V) (hB : B ⊆ V)
    (hC : C ⊆ V) (hiB : i ∉ B) (hiC : i ∉ C) (hd : DSep E {i} B C) (hp : ∀ p, E p t → p ∉ C → p ≠ i ∧ DSep E {i} {p} C) :
    DSep E {i} {t} C ∧ DSep E {i} B (insert t C) := by
  have hdesc : ∀ b ∈ V, ¬ Path E t b := fun b hb h => ht (anc_path hV h hb)
  have hne : ∀ b ∈ V, b ≠ t := by rintro b hb rfl; exact ht hb
  have hiP : ¬ E i t := fun h => (hp i h hiC).1 rfl
  set D : Set ι := {p | E p t ∧ p ∉ C} with hD
  set X : Set ι := {x | (x ∈ C ∨ x ∈ B) ∧ ¬ E x t} with hX
  have h1 : DSep E {t} ({i} ∪ X) {p | E p t} := by
    refine dsep_mono subset_rfl ?_ (local_markov hE t)
    rintro k (rfl | ⟨h1, h2⟩)
    · exact ⟨hne _ hi, hdesc _ hi, hiP⟩
    · have hk : k ∈ V := h1.elim (fun h => hC h) fun h => hB h
      exact ⟨hne _ hk, hdesc _ hk, h2⟩
  have h2 := dsep_symm (dsep_weak_union hE (by
    rw [Set.disjoint_singleton_left]; exact fun h => hE.irrefl h) (by
    rw [Set.disjoint_singleton_left]; rintro ⟨h | h, -⟩
    · exact hne _ (hC h) rfl
    · exact hne _ (hB h) rfl) h1)
  have hCBD : {p | E p t} ∪ X = C ∪ (B ∪ D) := by
    ext x
    simp only [hX, hD, Set.mem_union, Set.mem_ofPred_eq]
    tauto
  rw [hCBD] at h2
  have h3 : DSep E {i} (B ∪ D) C := dsep_union_right hd fun a ha b hb => (hp b hb.1 hb.2).2 a ha b rfl
  have h4 := dsep_contraction (by rwa [Set.disjoint_singleton_left]) (by
    rw [Set.disjoint_singleton_left]; rintro (h | h)
    · exact hiB h
    · exact hiP h.1) h2 h3
  refine ⟨dsep_mono subset_rfl Set.subset_union_left h4, ?_⟩
  have h5 := dsep_weak_union hE (B := B) (D := {t}) (C := C) (A := {i}) (by rwa [Set.disjoint_singleton_left]) (by
    rw [Set.disjoint_singleton]; exact hne _ hi) (dsep_mono subset_rfl (by
      rintro x (h | h)
      · exact Or.inr (Or.inl h)
      · exact Or.inl h) h4)
  rwa [Set.union_singleton] at h5

/-! ## One step -/

/-- Every pair that is not separated has nonzero partial covariance, as far as the nodes in `V` are concerned. -/
def FaithfulOn (E : ι → ι → Prop) (V : Set ι) (S : Matrix ι ι ℝ) : Prop :=
  ∀ i j C, i ∈ V → j ∈ V → C ⊆ V → i ≠ j → i ∉ C → j ∉ C → ¬ DSep E {i} {j} C → ∀ u, Rest S C (Pi.single i 1) u → (S *ᵥ u) j ≠ 0

/-- The weights of the arcs into `t`. -/
noncomputable def arcsInto (E : ι → ι → Prop) (t : ι) (x : ι → ℝ) : ι → ℝ := by
  classical exact fun p => if E p t then x p else 0

theorem arcsInto_of {x : ι → ℝ} {p : ι} (h : E p t) : arcsInto E t x p = x p := by
  unfold arcsInto; rw [if_pos h]

theorem arcsInto_not {x : ι → ℝ} {p : ι} (h : ¬ E p t) : arcsInto E t x p = 0 := by
  unfold arcsInto; rw [if_neg h]

/-- A linear form in the weights. -/
noncomputable def linForm (E : ι → ι → Prop) (t : ι) (κ : ι → ℝ) : MvPolynomial ι ℝ :=
  ∑ p, MvPolynomial.C (arcsInto E t κ p) * MvPolynomial.X p

theorem eval_linForm (κ x : ι → ℝ) : MvPolynomial.eval x (linForm E t κ) = arcsInto E t x ⬝ᵥ κ := by
  simp only [linForm, map_sum, map_mul, MvPolynomial.eval_C, MvPolynomial.eval_X, dotProduct]
  refine Finset.sum_congr rfl fun p _ => ?_
  by_cases h : E p t
  · rw [arcsInto_of h, arcsInto_of h, mul_comm]
  · rw [arcsInto_not h, arcsInto_not h, zero_mul, zero_mul]

theorem linForm_ne {κ : ι → ℝ} {p : ι} (hp : E p t) (hκ : κ p ≠ 0) : linForm E t κ ≠ 0 := by
  intro h
  have h1 := eval_linForm (E := E) (t := t) κ (Pi.single p 1)
  rw [h, map_zero, dotProduct, Finset.sum_eq_single p, arcsInto_of hp, Pi.single_eq_same, one_mul] at h1
  · exact hκ h1.symm
  · intro b _ hb
    by_cases hbt : E b t
    · rw [arcsInto_of hbt, Pi.single_eq_of_ne hb, zero_mul]
    · rw [arcsInto_not hbt, zero_mul]
  · intro hn; exact absurd (Finset.mem_univ _) hn

/-- What is left of the combination with coefficients `w`. -/
theorem rest_sum {C : Set ι} {r : ι → ι → ℝ} (hr : ∀ p, Rest S C (Pi.single p 1) (r p)) (w : ι → ℝ) : Rest S C w (∑ p, w p • r p) where
  off a ha := by
    rw [Finset.sum_apply]
    simp only [Pi.smul_apply, smul_eq_mul, fun p => (hr p).off a ha]
    rw [Finset.sum_eq_single a, Pi.single_eq_same, mul_one]
    · intro b _ hb; rw [Pi.single_eq_of_ne hb.symm, mul_zero]
    · intro hn; exact absurd (Finset.mem_univ _) hn
  on c hc := by
    rw [Matrix.mulVec_sum, Finset.sum_apply]
    refine Finset.sum_eq_zero fun p _ => ?_
    rw [Matrix.mulVec_smul, Pi.smul_apply, (hr p).on c hc, smul_zero]

/-- The weights of the arcs into a new node can be chosen such that all pairs that are not separated have nonzero partial covariance. -/
theorem faithful_step (hE : Acyclic E) (hV : ∀ a b, E a b → b ∈ V → a ∈ V) (ht : t ∉ V) (htp : ∀ p, E p t → p ∈ V) (hS : S.PosDef)
    (hf : FaithfulOn E V S) {S' : (ι → ℝ) → Matrix ι ι ℝ} (hS' : ∀ x, (S' x).PosDef) (hg : ∀ x, Grown S (S' x) t (arcsInto E t x)) :
    ∃ x, FaithfulOn E (insert t V) (S' x) := by
  classical
  have hsym : S.transpose = S := by simpa using hS.isHermitian.eq
  have hsym' : ∀ x, (S' x).transpose = S' x := fun x => by simpa using (hS' x).isHermitian.eq
  have hne : ∀ b ∈ V, b ≠ t := by rintro b hb rfl; exact ht hb
  -- the conditions, one for each triple
  let good : ι × ι × Set ι → (ι → ℝ) → Prop := fun k x =>
    k.1 ∈ V → k.2.1 ∈ insert t V → k.2.2 ⊆ insert t V → k.1 ≠ k.2.1 → k.1 ∉ k.2.2 → k.2.1 ∉ k.2.2 → ¬ DSep E {k.1} {k.2.1} k.2.2 →
      ∀ u, Rest (S' x) k.2.2 (Pi.single k.1 1) u → (S' x *ᵥ u) k.2.1 ≠ 0
  have hparent : ∀ i C, i ∈ V → C ⊆ V → i ∉ C → (∃ p, E p t ∧ p ∉ C ∧ (p = i ∨ ¬ DSep E {i} {p} C)) →
      ∀ u, Rest S C (Pi.single i 1) u → linForm E t (S *ᵥ u) ≠ 0 := by
    rintro i C hi hC hiC ⟨p, h1, h2, h3⟩ u hu
    refine linForm_ne h1 ?_
    by_cases hpi : p = i
    · subst hpi; exact (rest_pos hS hiC hu).ne'
    · exact hf i p C hi (htp p h1) hC (Ne.symm hpi) hiC h2 (h3.resolve_left hpi) u hu
  have key : ∀ k, ∃ Q : MvPolynomial ι ℝ, Q ≠ 0 ∧ ∀ x, MvPolynomial.eval x Q ≠ 0 → good k x := by
    rintro ⟨i, j, C⟩
    by_cases hyp : i ∈ V ∧ j ∈ insert t V ∧ C ⊆ insert t V ∧ i ≠ j ∧ i ∉ C ∧ j ∉ C ∧ ¬ DSep E {i} {j} C
    swap
    · refine ⟨1, one_ne_zero, fun x _ a1 a2 a3 a4 a5 a6 a7 => absurd ⟨a1, a2, a3, a4, a5, a6, a7⟩ hyp⟩
    obtain ⟨hi, hj, hC, hij, hiC, hjC, hd⟩ := hyp
    obtain ⟨u, hu⟩ := rest_exists hS (C \ {t}) (Pi.single i 1)
    by_cases htC : t ∈ C
    · -- the new node is conditioned on
      have hjt : j ≠ t := by rintro rfl; exact hjC htC
      have hjV : j ∈ V := hj.resolve_left hjt
      set C' := C \ {t} with hC'
      have hCC : insert t C' = C := by rw [hC', Set.insert_sdiff_singleton, Set.insert_eq_of_mem htC]
      have hC'V : C' ⊆ V := fun c hc => (hC hc.1).resolve_left hc.2
      have htC' : t ∉ C' := fun h => h.2 rfl
      have hiC' : i ∉ C' := fun h => hiC h.1
      have hjC' : j ∉ C' := fun h => hjC h.1
      obtain ⟨uj, huj⟩ := rest_exists hS C' (Pi.single j 1)
      choose r hr using fun p => rest_exists hS C' (Pi.single p 1)
      let quad : MvPolynomial ι ℝ := ∑ q, linForm E t (S *ᵥ r q) * (MvPolynomial.C (arcsInto E t (fun _ => 1) q) * MvPolynomial.X q)
      have hquad : ∀ x, MvPolynomial.eval x quad = arcsInto E t x ⬝ᵥ S *ᵥ ∑ q, arcsInto E t x q • r q := by
        intro x
        rw [Matrix.mulVec_sum, dotProduct_sum]
        simp only [quad, map_sum, map_mul, eval_linForm, MvPolynomial.eval_C, MvPolynomial.eval_X, Matrix.mulVec_smul, dotProduct_smul,
          smul_eq_mul]
        refine Finset.sum_congr rfl fun q _ => ?_
        by_cases h : E q t
        · rw [arcsInto_of h, arcsInto_of h]; ring
        · rw [arcsInto_not h, arcsInto_not h]; ring
      let Q : MvPolynomial ι ℝ := MvPolynomial.C ((S *ᵥ u) j) * (1 + quad) - linForm E t (S *ᵥ u) * linForm E t (S *ᵥ uj)
      have hQ : ∀ x, MvPolynomial.eval x Q = (S *ᵥ u) j * (1 + arcsInto E t x ⬝ᵥ S *ᵥ ∑ q, arcsInto E t x q • r q) -
          (arcsInto E t x ⬝ᵥ S *ᵥ u) * (arcsInto E t x ⬝ᵥ S *ᵥ uj) := by
        intro x
        simp only [Q, map_sub, map_mul, map_add, map_one, MvPolynomial.eval_C, eval_linForm, hquad]
      refine ⟨Q, ?_, fun x hx _ _ _ _ _ _ _ u0 hu0 => ?_⟩
      · by_cases hκ : (S *ᵥ u) j = 0
        · have hdj : DSep E {i} {j} C' := by
            by_contra hn
            exact hf i j C' hi hjV hC'V hij hiC' hjC' hn u hu hκ
          have hQ' : Q = -(linForm E t (S *ᵥ u) * linForm E t (S *ᵥ uj)) := by simp [Q, hκ]
          rw [hQ', neg_ne_zero]
          refine mul_ne_zero (hparent i C' hi hC'V hiC' ?_ u hu) (hparent j C' hjV hC'V hjC' ?_ uj huj)
          · by_contra hn
            push Not at hn
            refine hd ?_
            rw [← hCC]
            exact (dsep_new hE hV ht hi (by rintro x rfl; exact hjV) hC'V (by simpa using hij) hiC' hdj hn).2
          · by_contra hn
            push Not at hn
            refine hd ?_
            rw [← hCC]
            exact dsep_symm (dsep_new hE hV ht hjV (by rintro x rfl; exact hi) hC'V (by simpa using hij.symm) hjC' (dsep_symm hdj) hn).2
        · intro h0
          have := hQ 0
          rw [h0, map_zero] at this
          have hz : arcsInto E t (0 : ι → ℝ) = 0 := by
            funext p
            by_cases h : E p t
            · rw [arcsInto_of h]
            · rw [arcsInto_not h]; rfl
          rw [hz, zero_dotProduct, zero_dotProduct, zero_mul, add_zero, mul_one, sub_zero] at this
          exact hκ this.symm
      · obtain ⟨hpos, u', h1, h2⟩ := (hg x).new hS hsym htC' (hne i hi) hjt hu huj (rest_sum hr _)
        dsimp only at hu0 ⊢
        rw [← hCC] at hu0
        rw [rest_unique (hS' x) hu0 h1]
        intro h0
        rw [h0, mul_zero, ← hQ x] at h2
        exact hx h2.symm
    · have hCt : C \ {t} = C := Set.sdiff_singleton_eq_self htC
      rw [hCt] at hu
      have hCV : C ⊆ V := fun c hc => (hC hc).resolve_left (by rintro rfl; exact htC hc)
      by_cases hjt : j = t
      · subst hjt
        refine ⟨linForm E j (S *ᵥ u), hparent i C hi hCV hiC ?_ u hu, fun x hx _ _ _ _ _ _ _ u0 hu0 => ?_⟩
        · by_contra hn
          push Not at hn
          exact hd (dsep_new (B := ∅) hE hV ht hi (Set.empty_subset _) hCV (by simp) hiC (fun _ _ b hb => absurd hb (by simp)) hn).1
        · obtain ⟨-, h1, -, h2⟩ := (hg x).old htC (Pi.single_eq_of_ne (hne i hi).symm 1) hu
          dsimp only at hu0 ⊢
          rw [rest_unique (hS' x) hu0 h1, h2, ← eval_linForm]
          exact hx
      · refine ⟨1, one_ne_zero, fun x _ _ _ _ _ _ _ _ u0 hu0 => ?_⟩
        obtain ⟨-, h1, h2, -⟩ := (hg x).old htC (Pi.single_eq_of_ne (hne i hi).symm 1) hu
        dsimp only at hu0 ⊢
        rw [rest_unique (hS' x) hu0 h1, h2 j hjt]
        exact hf i j C hi (hj.resolve_left hjt) hCV hij hiC hjC hd u hu
  obtain ⟨x, -, hx⟩ := generic (fun _ => Set.infinite_univ) good fun k => (key k).imp fun Q h => ⟨h.1, fun x _ => h.2 x⟩
  refine ⟨x, fun i j C hi hj hC hij hiC hjC hd u hu => ?_⟩
  rcases hi with rfl | hi
  · have hjV : j ∈ V := hj.resolve_left hij.symm
    obtain ⟨uj, huj⟩ := rest_exists (hS' x) C (Pi.single j 1)
    have h1 := hx ⟨j, i, C⟩ hjV (Or.inl rfl) hC hij.symm hjC hiC (fun h => hd (dsep_symm h)) uj huj
    have h2 := rest_comm (hsym' x) huj hu
    simp only [single_one_dotProduct] at h2
    rwa [h2]
  · exact hx ⟨i, j, C⟩ hi hj hC hij hiC hjC hd u hu

/-! ## All nodes -/

/-- The weight matrix with the additional weights `w` of arcs into `t`. -/
def addInto (A : Matrix ι ι ℝ) (t : ι) (w : ι → ℝ) : Matrix ι ι ℝ := A + Matrix.of fun i j => if j = t then w i else 0

theorem grown_addInto {A : Matrix ι ι ℝ} (hA : AcyclicWeights A) (hrow : ∀ b, A t b = 0) (hcol : ∀ a, A a t = 0) (hw : w t = 0) :
    Grown (semCov A 1) (semCov (addInto A t w) 1) t w := by
  set W : Matrix ι ι ℝ := Matrix.of fun i j => if j = t then w i else 0 with hW
  have hu : IsUnit (1 - A).det := isUnit_iff_ne_zero.2 (Model.det_ne_zero hA)
  have hWA : W * A = 0 := by
    ext a b
    rw [Matrix.mul_apply]
    refine Finset.sum_eq_zero fun x _ => ?_
    by_cases hx : x = t
    · subst hx; rw [hrow, mul_zero]
    · simp [hW, hx]
  have hWW : W * W = 0 := by
    ext a b
    rw [Matrix.mul_apply]
    refine Finset.sum_eq_zero fun x _ => ?_
    by_cases hx : x = t
    · subst hx; simp [hW, hw]
    · simp [hW, hx]
  have hfac : 1 - addInto A t w = (1 - W) * (1 - A) := by
    rw [Matrix.mul_sub, Matrix.mul_one, Matrix.sub_mul, Matrix.one_mul, hWA, sub_zero]
    change 1 - (A + W) = _
    abel
  have hinv : (1 - addInto A t w)⁻¹ = (1 - A)⁻¹ * (1 + W) := by
    refine Matrix.inv_eq_right_inv ?_
    rw [hfac, Matrix.mul_assoc, ← Matrix.mul_assoc (1 - A), Matrix.mul_nonsing_inv _ hu, Matrix.one_mul, Matrix.sub_mul, Matrix.one_mul,
      Matrix.mul_add, Matrix.mul_one, hWW]
    simp
  have hcov : semCov (addInto A t w) 1 = (1 + W).transpose * semCov A 1 * (1 + W) := by
    simp only [semCov, hinv, Matrix.transpose_mul, Matrix.mul_assoc]
  have hmul : ∀ y : ι → ℝ, (1 + W) *ᵥ y = y + y t • w := by
    intro y
    rw [Matrix.add_mulVec, Matrix.one_mulVec]
    congr 1
    ext a
    rw [Matrix.mulVec, dotProduct, Finset.sum_eq_single t]
    · simp [hW, mul_comm]
    · intro b _ hb; simp [hW, hb]
    · intro hn; exact absurd (Finset.mem_univ _) hn
  have hcolS : ∀ a, semCov A 1 a t = (1 - A)⁻¹ t a := by
    intro a
    have h := congrFun (congrFun (semCov_mul hA (1 : ι → ℝ)) a) t
    rw [Matrix.mul_sub, Matrix.mul_one, Matrix.sub_apply, Matrix.mul_apply, Finset.sum_eq_zero (fun x _ => by rw [hcol, mul_zero]), sub_zero] at h
    rw [h, Matrix.mul_diagonal, Matrix.transpose_apply, Pi.one_apply, mul_one]
  have hrowS : ∀ a, (1 - A)⁻¹ t a = (1 : Matrix ι ι ℝ) t a := by
    intro a
    have h := congrFun (congrFun (Matrix.mul_nonsing_inv _ hu) t) a
    rw [Matrix.sub_mul, Matrix.one_mul, Matrix.sub_apply, Matrix.mul_apply, Finset.sum_eq_zero (fun x _ => by rw [hrow, zero_mul]), sub_zero] at h
    exact h
  refine ⟨fun x y => ?_, hw, ?_, fun a ha => ?_⟩
  · rw [← hmul, ← hmul]
    simp only [lcov, hcov]
    rw [← Matrix.mulVec_mulVec, ← Matrix.mulVec_mulVec, Matrix.dotProduct_mulVec, Matrix.vecMul_transpose]
  · rw [hcolS, hrowS, Matrix.one_apply_eq]
  · have h := congrFun (congrFun (semCov_symm A (1 : ι → ℝ)) t) a
    rw [Matrix.transpose_apply] at h
    rw [← h, hcolS, hrowS, Matrix.one_apply_ne ha.symm]

/-- Every acyclic graph has weights such that all pairs that are not separated have nonzero partial covariance. -/
theorem exists_faithful (hE : Acyclic E) {r : ι → ℕ} (hr : Function.Injective r) (hrE : ∀ i j, E i j → r i < r j) :
    ∃ A : Matrix ι ι ℝ, (∀ i j, A i j ≠ 0 → E i j) ∧ FaithfulOn E Set.univ (semCov A 1) := by
  have main : ∀ m : ℕ, ∃ A : Matrix ι ι ℝ, (∀ i j, A i j ≠ 0 → E i j ∧ r j < m) ∧ FaithfulOn E {k | r k < m} (semCov A 1) := by
    intro m
    induction m with
    | zero =>
      refine ⟨0, fun i j h => absurd rfl h, fun i j C hi => ?_⟩
      exact absurd hi (by simp)
    | succ m ih =>
      obtain ⟨A, h1, h2⟩ := ih
      have hA : AcyclicWeights A := acyclic_mono (fun i j h => (h1 i j h).1) hE
      by_cases hm : ∃ t, r t = m
      · obtain ⟨t, rfl⟩ := hm
        have hrow : ∀ b, A t b = 0 := fun b => by
          by_contra h
          obtain ⟨g1, g2⟩ := h1 t b h
          exact lt_asymm g2 (hrE _ _ g1)
        have hcol : ∀ a, A a t = 0 := fun a => by
          by_contra h
          exact lt_irrefl _ (h1 a t h).2
        have hsupp : ∀ x i j, addInto A t (arcsInto E t x) i j ≠ 0 → E i j ∧ r j < r t + 1 := by
          intro x i j h
          by_cases hA0 : A i j = 0
          · by_cases hj : j = t
            · subst hj
              refine ⟨?_, Nat.lt_succ_self _⟩
              by_contra hn
              exact h (by simp [addInto, hA0, arcsInto_not hn])
            · exact absurd (by simp [addInto, hA0, hj]) h
          · exact ⟨(h1 i j hA0).1, (h1 i j hA0).2.trans (Nat.lt_succ_self _)⟩
        obtain ⟨x, hx⟩ := faithful_step (t := t) (S' := fun x => semCov (addInto A t (arcsInto E t x)) 1) hE
          (V := {k | r k < r t}) (fun a b hab hb => (hrE _ _ hab).trans hb) (by simp) (fun p hp => hrE _ _ hp)
          (semCov_posDef hA fun _ => one_pos) h2
          (fun x => semCov_posDef (acyclic_mono (fun i j h => (hsupp x i j h).1) hE) fun _ => one_pos)
          fun x => grown_addInto hA hrow hcol (arcsInto_not fun h => hE.irrefl h)
        refine ⟨_, hsupp x, ?_⟩
        have hset : {k | r k < r t + 1} = insert t {k | r k < r t} := by
          ext k
          simp only [Set.mem_insert_iff, Set.mem_ofPred_eq, Nat.lt_succ_iff_lt_or_eq]
          constructor
          · rintro (h | h)
            · exact Or.inr h
            · exact Or.inl (hr h)
          · rintro (rfl | h)
            · exact Or.inr rfl
            · exact Or.inl h
        rw [hset]
        exact hx
      · refine ⟨A, fun i j h => ⟨(h1 i j h).1, (h1 i j h).2.trans (Nat.lt_succ_self _)⟩, ?_⟩
        have hset : {k | r k < m + 1} = {k | r k < m} := by
          ext k
          simp only [Set.mem_ofPred_eq, Nat.lt_succ_iff_lt_or_eq]
          exact ⟨fun h => h.resolve_right fun e => hm ⟨k, e⟩, Or.inl⟩
        rw [hset]
        exact h2
  obtain ⟨A, h1, h2⟩ := main (Finset.univ.sup r + 1)
  refine ⟨A, fun i j h => (h1 i j h).1, ?_⟩
  have hset : {k | r k < Finset.univ.sup r + 1} = Set.univ := by
    ext k
    simp only [Set.mem_ofPred_eq, Set.mem_univ, iff_true]
    exact Nat.lt_succ_of_le (Finset.le_sup (f := r) (Finset.mem_univ k))
  rwa [hset] at h2

/-- In these distributions the partial correlation of two variables is zero exactly if they are separated. -/
theorem FaithfulOn.partialCorr {A : Matrix ι ι ℝ} (hE : Acyclic E) (hAE : ∀ i j, A i j ≠ 0 → E i j) (h : FaithfulOn E Set.univ (semCov A 1))
    {i j : ι} {C : Set ι} (hij : i ≠ j) (hi : i ∉ C) (hj : j ∉ C) {ρ : ℝ} (hρ : PartialCorr (semCov A 1) i j C ρ) (h0 : ρ = 0) :
    DSep E {i} {j} C := by
  by_contra hd
  obtain ⟨u, w, hu, hw, h1, h2, rfl⟩ := hρ
  have hne := h i j C trivial trivial (Set.subset_univ _) hij hi hj hd u (rest_of_residual hu)
  rw [div_eq_zero_iff] at h0
  rcases h0 with h0 | h0
  · refine hne ?_
    have hA : AcyclicWeights A := acyclic_mono hAE hE
    have := rest_dot (rest_of_residual hw) (rest_of_residual hu).on
    rw [single_one_dotProduct] at this
    rw [← this, ← h0]
    exact lcov_comm (semCov_symm A _) w u
  · have g1 := Real.sqrt_pos.2 h1
    have g2 := Real.sqrt_pos.2 h2
    exact (mul_pos g1 g2).ne' h0

end Spec
