import Verif.Spec.Influence
import Verif.Proof.DiscreteCond
import Mathlib.Analysis.Calculus.Deriv.Mul
import Mathlib.Analysis.Calculus.Deriv.Add
import Mathlib.Algebra.BigOperators.Field

/-! # The tangent space of a Bayesian network -/

set_option linter.unusedSectionVars false

namespace Model.DiscreteDAG

open Spec Relation
open scoped NNReal

variable {α : Type} [DecidableEq α] {D : DiscreteDAG α}

theorem coe_law (D : DiscreteDAG α) (y : α → ℕ) : (D.law y : ℝ) = ∏ v ∈ D.dag.nodes, (D.kern v y : ℝ) := by
  rw [law_eq, NNReal.coe_prod]

theorem kern_looks (D : DiscreteDAG α) (v : α) : LooksAt (fun y => (D.kern v y : ℝ)) (insert v {u | u ∈ D.pars v}) :=
  fun x y h => by simp only [D.kern_depends v x y h]

/-- The expectation of a function of the first nodes of an order. -/
theorem expect_pre (hD : D.Proper) {t pre post : List α} (ht : LinearExtension (D.dag.nodes : Set α) D.dag.E t)
    (e : t = pre ++ post) {k : (α → ℕ) → ℝ} (hk : LooksAt k {u | u ∈ pre}) :
    D.expect k = sumL D.dims pre (fun y => (pre.map fun v => (D.kern v y : ℝ)).prod * k y) fun _ => 0 := by
  have hp : D.dag.nodes.toList.Perm (pre ++ post) := by
    rw [← e]
    refine (List.perm_ext_iff_of_nodup (Finset.nodup_toList _) ht.nodup).2 fun v => ?_
    rw [Finset.mem_toList, ht.mem_iff]; rfl
  have hnd : (pre ++ post).Nodup := e ▸ ht.nodup
  have hprod : ∀ y, ∏ v ∈ D.dag.nodes, (D.kern v y : ℝ) = ((pre ++ post).map fun v => (D.kern v y : ℝ)).prod := fun y => by
    rw [← Finset.prod_map_toList]
    exact (hp.map _).prod_eq
  rw [expect, sum_assignments, sumL_perm hp, sumL_append]
  refine sumL_congr (R := ℝ) fun y hy1 hy2 => ?_
  rw [sumL_congr (R := ℝ) (g := fun y => ((pre ++ post).map fun v => (D.kern v y : ℝ)).prod * k y)
    (fun y _ _ => by rw [coe_law, hprod])]
  rw [sumL_mul hk fun v hv hv' => List.disjoint_of_nodup_append hnd hv' hv]
  congr 1
  have hsplit : ∀ r v s, post = r ++ v :: s → t = (pre ++ r) ++ v :: s := fun r v s h => by rw [e, h, List.append_assoc]
  refine sumL_kernels (pars := fun v => {u | u ∈ D.pars v}) (kern_looks D) post hnd ?_ ?_ ?_ y hy1
  · intro r v s h u hu hv
    have hv' : v ∈ D.pars u := hv
    have hun : u ∈ D.dag.nodes := (ht.mem_iff u).1 (by rw [hsplit r v s h]; exact List.mem_append_left _ hu)
    exact lin_kids ht (hsplit r v s h) ((hD.pars_iff u hun v).1 hv') hu
  · intro r v s h u hu
    obtain ⟨hvn, -, hpar⟩ := lin_pars ht (hsplit r v s h)
    exact hpar u ((hD.pars_iff v hvn u).1 hu)
  · intro v hv y hy
    have hvn : v ∈ D.dag.nodes := (ht.mem_iff v).1 (by rw [e]; exact List.mem_append_right _ hv)
    have := hD.sum_kern hvn y hy
    rw [← NNReal.coe_inj, NNReal.coe_sum] at this
    simpa using this

/-- Averaging over one node first. -/
theorem expect_step (hD : D.Proper) {t pre post : List α} {w : α} (ht : LinearExtension (D.dag.nodes : Set α) D.dag.E t)
    (e : t = pre ++ w :: post) {k : (α → ℕ) → ℝ} (hk : LooksAt k {u | u ∈ pre ++ [w]}) :
    D.expect k = D.expect fun y =>
      ∑ i ∈ Finset.range (D.dims w), (D.kern w (Function.update y w i) : ℝ) * k (Function.update y w i) := by
  obtain ⟨hwn, hwp, hpar⟩ := lin_pars ht e
  have hup : ∀ x y : α → ℕ, (∀ u ∈ pre, x u = y u) → ∀ i, ∀ u ∈ pre ++ [w], Function.update x w i u = Function.update y w i u := by
    intro x y h i u hu
    by_cases huw : u = w
    · subst huw; simp
    · rw [Function.update_of_ne huw, Function.update_of_ne huw]
      exact h u (by simpa [huw] using hu)
  rw [expect_pre hD ht (pre := pre ++ [w]) (post := post) (by rw [e]; simp) hk, expect_pre hD ht e, sumL_append]
  · refine sumL_congr (R := ℝ) fun y hy1 hy2 => ?_
    change ∑ i ∈ Finset.range (D.dims w), (((pre ++ [w]).map fun v => (D.kern v (Function.update y w i) : ℝ)).prod *
      k (Function.update y w i)) = _
    rw [Finset.mul_sum]
    refine Finset.sum_congr rfl fun i _ => ?_
    rw [List.map_append, List.prod_append, ← mul_assoc]
    congr 1
    rw [List.map_singleton, List.prod_singleton]
    congr 2
    refine List.map_congr_left fun u hu => (kern_looks D u).update ?_ y i
    rintro (rfl | h)
    · exact hwp hu
    · have hun : u ∈ D.dag.nodes := (ht.mem_iff u).1 (by rw [e]; simp [hu])
      exact lin_kids ht e ((hD.pars_iff u hun w).1 h) hu
  · intro x y h
    refine Finset.sum_congr rfl fun i _ => ?_
    rw [hk _ _ (hup x y h i)]
    congr 1
    refine kern_looks D w _ _ fun u hu => hup x y h i u ?_
    rcases hu with rfl | hu
    · simp
    · exact List.mem_append_left _ (hpar u ((hD.pars_iff w hwn u).1 hu))

/-- A function of the earlier nodes is orthogonal to a function of a node and its parents whose conditional mean vanishes. -/
theorem expect_zero (hD : D.Proper) {t pre post : List α} {w : α} (ht : LinearExtension (D.dag.nodes : Set α) D.dag.E t)
    (e : t = pre ++ w :: post) {k h : (α → ℕ) → ℝ} (hk : LooksAt k {u | u ∈ pre})
    (hh : ∀ x y : α → ℕ, (∀ u ∈ D.pars w ++ [w], x u = y u) → h x = h y)
    (h0 : ∀ x : α → ℕ, (∀ u ∈ D.pars w, x u < D.dims u) →
      ∑ i ∈ Finset.range (D.dims w), ((D.cond w).val ((D.pars w).map x ++ [i]) : ℝ) * h (Function.update x w i) = 0) :
    D.expect (fun y => k y * h y) = 0 := by
  obtain ⟨hwn, hwp, hpar⟩ := lin_pars ht e
  have hpar' : ∀ u ∈ D.pars w, u ∈ pre := fun u hu => hpar u ((hD.pars_iff w hwn u).1 hu)
  rw [expect_step hD ht e]
  · rw [expect]
    refine Finset.sum_eq_zero fun y hy => ?_
    have hy' := (mem_assignments.1 hy).1
    have hsum := h0 y fun u hu => hy' u ((ht.mem_iff u).1 (by rw [e]; simp [hpar' u hu]))
    have e2 : ∑ i ∈ Finset.range (D.dims w), (D.kern w (Function.update y w i) : ℝ) *
        (k (Function.update y w i) * h (Function.update y w i)) =
        k y * ∑ i ∈ Finset.range (D.dims w), ((D.cond w).val ((D.pars w).map y ++ [i]) : ℝ) * h (Function.update y w i) := by
      rw [Finset.mul_sum]
      refine Finset.sum_congr rfl fun i _ => ?_
      rw [hk.update hwp]
      have : D.kern w (Function.update y w i) = (D.cond w).val ((D.pars w).map y ++ [i]) := by
        rw [kern, List.map_append, List.map_singleton, Function.update_self]
        congr 2
        refine List.map_congr_left fun u hu => Function.update_of_ne ?_ _ _
        rintro rfl
        exact hwp (hpar' u hu)
      rw [this]; ring
    rw [e2, hsum]; simp
  · intro x y hxy
    dsimp only
    rw [hk x y fun u hu => hxy u (List.mem_append_left _ hu), hh x y fun u hu => hxy u ?_]
    rcases List.mem_append.1 hu with hu | hu
    · exact List.mem_append_left _ (hpar' u hu)
    · exact List.mem_append_right _ hu

open scoped Classical in
/-- The part of the expectation of `f` where the nodes in `s` have the values given by `x`. -/
noncomputable def part (D : DiscreteDAG α) (f : (α → ℕ) → ℝ) (s : Finset α) (x : α → ℕ) : ℝ :=
  ∑ y ∈ assignments D.dag.nodes D.dims with ∀ v ∈ s, y v = x v, (D.law y : ℝ) * f y

/-- The conditional expectation of `f` given the values of the nodes in `s`. -/
noncomputable def mean (D : DiscreteDAG α) (f : (α → ℕ) → ℝ) (s : Finset α) (x : α → ℕ) : ℝ :=
  D.part f s x / D.part (fun _ => 1) s x

theorem part_congr (D : DiscreteDAG α) (f : (α → ℕ) → ℝ) {s : Finset α} {x y : α → ℕ} (h : ∀ v ∈ s, x v = y v) :
    D.part f s x = D.part f s y := by
  classical
  refine Finset.sum_congr (Finset.filter_congr fun z _ => ⟨fun hz v hv => ?_, fun hz v hv => ?_⟩) fun _ _ => rfl
  · rw [hz v hv, h v hv]
  · rw [hz v hv, h v hv]

theorem mean_congr (D : DiscreteDAG α) (f : (α → ℕ) → ℝ) {s : Finset α} {x y : α → ℕ} (h : ∀ v ∈ s, x v = y v) :
    D.mean f s x = D.mean f s y := by
  rw [mean, mean, part_congr D f h, part_congr D _ h]

theorem part_eq_expect (D : DiscreteDAG α) (f : (α → ℕ) → ℝ) (s : Finset α) (x : α → ℕ) [DecidablePred fun y : α → ℕ => ∀ v ∈ s, y v = x v] :
    D.part f s x = D.expect fun y => (if ∀ v ∈ s, y v = x v then 1 else 0) * f y := by
  classical
  rw [part, expect, Finset.sum_filter]
  refine Finset.sum_congr rfl fun y _ => ?_
  split_ifs <;> simp

theorem part_one (D : DiscreteDAG α) {L : List α} {s : Finset α} (h : ∀ v, v ∈ L ↔ v ∈ s) (x : α → ℕ) :
    D.part (fun _ => 1) s x = (D.pr L x : ℝ) := by
  rw [part, pr, prob, NNReal.coe_sum]
  simp only [mul_one]
  refine Finset.sum_congr (Finset.ext fun y => ?_) fun y _ => rfl
  simp only [Finset.mem_filter, h]

theorem part_zero (D : DiscreteDAG α) (f : (α → ℕ) → ℝ) {s : Finset α} {x : α → ℕ} (h : D.part (fun _ => 1) s x = 0) :
    D.part f s x = 0 := by
  classical
  refine Finset.sum_eq_zero fun y hy => ?_
  rw [part, Finset.sum_eq_zero_iff_of_nonneg fun y _ => by positivity] at h
  have := h y hy
  rw [mul_one] at this
  rw [this, zero_mul]

theorem mean_mul (D : DiscreteDAG α) (f : (α → ℕ) → ℝ) (s : Finset α) (x : α → ℕ) :
    D.mean f s x * D.part (fun _ => 1) s x = D.part f s x := by
  rw [mean]
  by_cases h : D.part (fun _ => 1) s x = 0
  · rw [h, mul_zero, part_zero D f h]
  · rw [div_mul_cancel₀ _ h]

/-- The conditional expectation has the same inner products with functions of the conditioning nodes. -/
theorem expect_mean (D : DiscreteDAG α) (f : (α → ℕ) → ℝ) {s : Finset α} {k : (α → ℕ) → ℝ}
    (hk : ∀ x y : α → ℕ, (∀ v ∈ s, x v = y v) → k x = k y) :
    D.expect (fun y => D.mean f s y * k y) = D.expect fun y => f y * k y := by
  classical
  let r : (α → ℕ) → (α → ℕ) := fun y v => if v ∈ s then y v else 0
  have hr : ∀ y v, v ∈ s → r y v = y v := fun y v hv => if_pos hv
  have hfib : ∀ y z, r y = r z ↔ ∀ v ∈ s, y v = z v := by
    intro y z
    constructor
    · intro h v hv
      have := congrFun h v
      rwa [hr y v hv, hr z v hv] at this
    · intro h
      funext v
      by_cases hv : v ∈ s
      · rw [hr y v hv, hr z v hv, h v hv]
      · simp [r, hv]
  rw [expect, expect, ← Finset.sum_fiberwise_of_maps_to (g := r) (t := (assignments D.dag.nodes D.dims).image r)
    fun y hy => Finset.mem_image_of_mem r hy, ← Finset.sum_fiberwise_of_maps_to (g := r) (t := (assignments D.dag.nodes D.dims).image r)
    fun y hy => Finset.mem_image_of_mem r hy]
  refine Finset.sum_congr rfl fun b hb => ?_
  obtain ⟨z, hz, rfl⟩ := Finset.mem_image.1 hb
  have h1 : ∀ g : (α → ℕ) → ℝ, D.part g s z = ∑ y ∈ assignments D.dag.nodes D.dims with r y = r z, (D.law y : ℝ) * g y := by
    intro g
    refine Finset.sum_congr (Finset.filter_congr fun y _ => ?_) fun _ _ => rfl
    rw [hfib]
  have h2 := mean_mul D f s z
  have e1 : ∑ y ∈ assignments D.dag.nodes D.dims with r y = r z, (D.law y : ℝ) * (D.mean f s y * k y) =
      (D.mean f s z * D.part (fun _ => 1) s z) * k z := by
    rw [h1, Finset.mul_sum, Finset.sum_mul]
    refine Finset.sum_congr rfl fun y hy => ?_
    have hy' := (hfib y z).1 (Finset.mem_filter.1 hy).2
    rw [mean_congr D f hy', hk y z hy']; ring
  have e2 : ∑ y ∈ assignments D.dag.nodes D.dims with r y = r z, (D.law y : ℝ) * (f y * k y) = D.part f s z * k z := by
    rw [h1, Finset.sum_mul]
    refine Finset.sum_congr rfl fun y hy => ?_
    have hy' := (hfib y z).1 (Finset.mem_filter.1 hy).2
    rw [hk y z hy']; ring
  rw [e1, e2, h2]

/-- The probability of a row. -/
theorem part_kern (hD : D.Proper) (ot : SetOrder (Option α) α) {v : α} (hv : v ∈ D.dag.nodes) {x : α → ℕ}
    (hx : x v < D.dims v) :
    D.part (fun _ => 1) (insert v (D.dag.parents v)) x = D.kern v x * D.part (fun _ => 1) (D.dag.parents v) x := by
  classical
  obtain ⟨t, -, ht⟩ := DAG.topologicalSort_ok D.dag ot hD.valid
  obtain ⟨pre, post, e⟩ := List.append_of_mem ((ht.mem_iff v).2 hv)
  obtain ⟨-, hvp, hpar⟩ := lin_pars ht e
  have hpa : ∀ u ∈ D.dag.parents v, u ∈ pre := fun u hu => hpar u ((hD.valid.parents_iff u v).1 hu)
  have hvpa : v ∉ D.dag.parents v := fun h => hvp (hpa v h)
  rw [part_eq_expect, part_eq_expect, expect_step hD ht e]
  · rw [expect, expect, Finset.mul_sum]
    refine Finset.sum_congr rfl fun y hy => ?_
    by_cases hp : ∀ u ∈ D.dag.parents v, y u = x u
    · rw [if_pos hp, Finset.sum_eq_single (x v)]
      · rw [if_pos]
        · have : D.kern v (Function.update y v (x v)) = D.kern v x := by
            refine D.kern_depends v _ _ fun u hu => ?_
            by_cases huv : u = v
            · subst huv; simp
            · rw [Function.update_of_ne huv]
              exact hp u ((hD.valid.parents_iff u v).2 ((hD.pars_iff v hv u).1 (hu.resolve_left huv)))
          rw [this]; ring
        · intro u hu
          by_cases huv : u = v
          · subst huv; simp
          · rw [Function.update_of_ne huv]; exact hp u (by simpa [huv] using hu)
      · intro i _ hi
        rw [if_neg, zero_mul, mul_zero]
        intro h
        have := h v (by simp)
        rw [Function.update_self] at this
        exact hi this
      · intro h; exact absurd (Finset.mem_range.2 hx) h
    · rw [if_neg hp, Finset.sum_eq_zero]
      · simp
      · intro i _
        rw [if_neg, zero_mul, mul_zero]
        intro h
        refine hp fun u hu => ?_
        have := h u (by simp [hu])
        rwa [Function.update_of_ne (ne_of_mem_of_not_mem hu hvpa)] at this
  · intro a b hab
    have : (∀ u ∈ insert v (D.dag.parents v), a u = x u) ↔ ∀ u ∈ insert v (D.dag.parents v), b u = x u := by
      refine forall₂_congr fun u hu => ?_
      rw [hab u]
      rcases Finset.mem_insert.1 hu with rfl | hu
      · simp
      · exact List.mem_append_left _ (hpa u hu)
    simp only [this]

/-- The part where the parents are fixed, split by the value of the node. -/
theorem part_split (D : DiscreteDAG α) (f : (α → ℕ) → ℝ) {v : α} (hv : v ∈ D.dag.nodes) {s : Finset α} (hs : v ∉ s) (x : α → ℕ) :
    ∑ i ∈ Finset.range (D.dims v), D.part f (insert v s) (Function.update x v i) = D.part f s x := by
  classical
  rw [part, ← Finset.sum_fiberwise_of_maps_to (g := fun y => y v) (t := Finset.range (D.dims v)) fun y hy =>
    Finset.mem_range.2 ((mem_assignments.1 (Finset.mem_filter.1 hy).1).1 v hv)]
  refine Finset.sum_congr rfl fun i _ => ?_
  rw [part, Finset.filter_filter]
  refine Finset.sum_congr (Finset.filter_congr fun y _ => ?_) fun _ _ => rfl
  constructor
  · intro h
    refine ⟨fun u hu => ?_, by simpa using h v (by simp)⟩
    have := h u (by simp [hu])
    rwa [Function.update_of_ne (ne_of_mem_of_not_mem hu hs)] at this
  · rintro ⟨h1, h2⟩ u hu
    rcases Finset.mem_insert.1 hu with rfl | hu
    · simpa using h2
    · rw [Function.update_of_ne (ne_of_mem_of_not_mem hu hs)]; exact h1 u hu

/-- The component of the influence function that belongs to a node. -/
noncomputable def component (D : DiscreteDAG α) (f : (α → ℕ) → ℝ) (v : α) (x : α → ℕ) : ℝ :=
  D.mean f (insert v (D.dag.parents v)) x - D.mean f (D.dag.parents v) x

theorem component_looks (hD : D.Proper) (f : (α → ℕ) → ℝ) {v : α} (hv : v ∈ D.dag.nodes) {x y : α → ℕ}
    (h : ∀ u ∈ D.pars v ++ [v], x u = y u) : D.component f v x = D.component f v y := by
  have hp : ∀ u ∈ D.dag.parents v, x u = y u := fun u hu =>
    h u (List.mem_append_left _ ((hD.pars_iff v hv u).2 ((hD.valid.parents_iff u v).1 hu)))
  rw [component, component, mean_congr D f hp, mean_congr D f (s := insert v (D.dag.parents v)) (y := y)]
  intro u hu
  rcases Finset.mem_insert.1 hu with rfl | hu
  · exact h u (by simp)
  · exact hp u hu

theorem component_zero (hD : D.Proper) (ot : SetOrder (Option α) α) (f : (α → ℕ) → ℝ) {v : α} (hv : v ∈ D.dag.nodes) {x : α → ℕ}
    (hx : ∀ u ∈ D.pars v, x u < D.dims u) :
    ∑ i ∈ Finset.range (D.dims v), ((D.cond v).val ((D.pars v).map x ++ [i]) : ℝ) * D.component f v (Function.update x v i) = 0 := by
  have hvpa : v ∉ D.dag.parents v := fun h => hD.valid.acyclic v (.single ((hD.valid.parents_iff v v).1 h))
  have hpu : ∀ i, ∀ u ∈ D.dag.parents v, Function.update x v i u = x u := fun i u hu =>
    Function.update_of_ne (ne_of_mem_of_not_mem hu hvpa) _ _
  have hk : ∀ i, (D.cond v).val ((D.pars v).map x ++ [i]) = D.kern v (Function.update x v i) := by
    intro i
    rw [kern, List.map_append, List.map_singleton, Function.update_self]
    congr 2
    refine List.map_congr_left fun u hu => (hpu i u ?_).symm
    exact (hD.valid.parents_iff u v).2 ((hD.pars_iff v hv u).1 hu)
  have hm : ∀ i, D.mean f (D.dag.parents v) (Function.update x v i) = D.mean f (D.dag.parents v) x := fun i =>
    mean_congr D f (hpu i)
  simp only [component, mul_sub, hm, Finset.sum_sub_distrib, ← Finset.sum_mul]
  have hone : ∑ i ∈ Finset.range (D.dims v), ((D.cond v).val ((D.pars v).map x ++ [i]) : ℝ) = 1 := by
    have := hD.total v hv x hx
    rw [← NNReal.coe_inj, NNReal.coe_sum] at this
    simpa using this
  rw [hone, one_mul, sub_eq_zero]
  by_cases h0 : D.part (fun _ => 1) (D.dag.parents v) x = 0
  · rw [mean, h0, div_zero]
    refine Finset.sum_eq_zero fun i hi => ?_
    rw [hk]
    have := part_kern hD ot hv (x := Function.update x v i) (by simpa using hi)
    rw [part_congr D _ (hpu i), h0, mul_zero] at this
    rw [mean, this, div_zero, mul_zero]
  · rw [mean, eq_div_iff h0, ← part_split D f hv hvpa, Finset.sum_mul]
    refine Finset.sum_congr rfl fun i hi => ?_
    rw [hk, ← mean_mul D f, part_kern hD ot hv (x := Function.update x v i) (by simpa using hi), part_congr D _ (hpu i)]
    ring

theorem expect_add (D : DiscreteDAG α) (f g : (α → ℕ) → ℝ) : D.expect (fun y => f y + g y) = D.expect f + D.expect g := by
  simp only [expect, mul_add, Finset.sum_add_distrib]

theorem expect_sum {ι : Type} (D : DiscreteDAG α) (S : Finset ι) (f : ι → (α → ℕ) → ℝ) :
    D.expect (fun y => ∑ v ∈ S, f v y) = ∑ v ∈ S, D.expect (f v) := by
  simp only [expect, Finset.mul_sum]
  exact Finset.sum_comm

theorem expect_sub (D : DiscreteDAG α) (f g : (α → ℕ) → ℝ) : D.expect (fun y => f y - g y) = D.expect f - D.expect g := by
  simp only [expect, mul_sub, Finset.sum_sub_distrib]

theorem expect_smul (D : DiscreteDAG α) (c : ℝ) (g : (α → ℕ) → ℝ) : D.expect (fun y => c * g y) = c * D.expect g := by
  simp only [expect, Finset.mul_sum]
  exact Finset.sum_congr rfl fun y _ => by ring

/-- The sum of the components is the projection of `f` on the scores. -/
theorem component_inner (hD : D.Proper) (ot : SetOrder (Option α) α) (f : (α → ℕ) → ℝ) {S : Finset α} (hS : S ⊆ D.dag.nodes)
    {h : α → (α → ℕ) → ℝ} (hh : D.Direction S h) :
    D.expect (fun y => (∑ v ∈ S, D.component f v y) * ∑ v ∈ S, h v y) = D.expect fun y => f y * ∑ v ∈ S, h v y := by
  obtain ⟨t, -, ht⟩ := DAG.topologicalSort_ok D.dag ot hD.valid
  have hpa : ∀ {v pre post}, t = pre ++ v :: post → ∀ u ∈ D.pars v, u ∈ pre := fun {v pre post} e u hu => by
    obtain ⟨hvn, -, hpar⟩ := lin_pars ht e
    exact hpar u ((hD.pars_iff v hvn u).1 hu)
  -- different nodes
  have hcross : ∀ v ∈ S, ∀ w ∈ S, v ≠ w → D.expect (fun y => D.component f v y * h w y) = 0 := by
    intro v hv w hw hvw
    obtain ⟨pre, post, e⟩ := List.append_of_mem ((ht.mem_iff w).2 (hS hw))
    by_cases hvp : v ∈ pre
    · refine expect_zero hD ht e ?_ (hh.looks w hw) (hh.zero w hw)
      intro x y hxy
      refine component_looks hD f (hS hv) fun u hu => hxy u ?_
      rcases List.mem_append.1 hu with hu | hu
      · obtain ⟨p1, p2, rfl⟩ := List.append_of_mem hvp
        have := hpa (v := v) (pre := p1) (post := p2 ++ w :: post) (by rw [e]; simp) u hu
        exact List.mem_append_left _ this
      · simpa using (List.mem_singleton.1 hu) ▸ hvp
    · have hvpost : v ∈ post := by
        have := (ht.mem_iff v).2 (hS hv)
        rw [e] at this
        simpa [hvp, hvw] using this
      obtain ⟨p1, p2, rfl⟩ := List.append_of_mem hvpost
      have e' : t = (pre ++ w :: p1) ++ v :: p2 := by rw [e]; simp
      have := expect_zero hD ht e' (k := h w) (h := D.component f v) ?_
        (fun x y hxy => component_looks hD f (hS hv) hxy) (fun x hx => component_zero hD ot f (hS hv) hx)
      · rw [← this]; congr 1; funext y; ring
      · intro x y hxy
        refine hh.looks w hw x y fun u hu => hxy u ?_
        rcases List.mem_append.1 hu with hu | hu
        · exact List.mem_append_left _ (hpa e u hu)
        · have := List.mem_singleton.1 hu
          subst this
          simp
  have hsame : ∀ v ∈ S, D.expect (fun y => D.component f v y * h v y) = D.expect fun y => f y * h v y := by
    intro v hv
    obtain ⟨pre, post, e⟩ := List.append_of_mem ((ht.mem_iff v).2 (hS hv))
    have h1 : D.expect (fun y => D.mean f (D.dag.parents v) y * h v y) = 0 := by
      refine expect_zero hD ht e ?_ (hh.looks v hv) (hh.zero v hv)
      intro x y hxy
      refine mean_congr D f fun u hu => hxy u (hpa e u ?_)
      exact (hD.pars_iff v (hS hv) u).2 ((hD.valid.parents_iff u v).1 hu)
    have h2 : D.expect (fun y => D.mean f (insert v (D.dag.parents v)) y * h v y) = D.expect fun y => f y * h v y := by
      refine expect_mean D f fun x y hxy => hh.looks v hv x y fun u hu => hxy u ?_
      rcases List.mem_append.1 hu with hu | hu
      · exact Finset.mem_insert_of_mem ((hD.valid.parents_iff u v).2 ((hD.pars_iff v (hS hv) u).1 hu))
      · rw [List.mem_singleton.1 hu]; exact Finset.mem_insert_self _ _
    simp only [component, sub_mul]
    rw [expect_sub, h1, h2, sub_zero]
  simp only [Finset.mul_sum]
  rw [expect_sum, expect_sum]
  refine Finset.sum_congr rfl fun v hv => ?_
  simp only [Finset.sum_mul]
  rw [expect_sum, Finset.sum_eq_single v (fun w hw hwv => ?_) (fun h => absurd hv h)]
  · exact hsame v hv
  · exact hcross w hw v hv hwv

theorem prod_deriv {ι : Type} [DecidableEq ι] (V S : Finset ι) (hS : S ⊆ V) (a b : ι → ℝ) :
    HasDerivAt (fun ε : ℝ => ∏ v ∈ V, a v * if v ∈ S then 1 + ε * b v else 1) ((∏ v ∈ V, a v) * ∑ v ∈ S, b v) 0 := by
  have e : (fun ε : ℝ => ∏ v ∈ V, a v * if v ∈ S then 1 + ε * b v else 1) = fun ε => (∏ v ∈ V, a v) * ∏ v ∈ S, (1 + ε * b v) := by
    funext ε
    rw [Finset.prod_mul_distrib, Finset.prod_ite_mem, Finset.inter_eq_right.2 hS]
  rw [e]
  refine HasDerivAt.const_mul _ ?_
  clear e hS
  induction S using Finset.induction_on with
  | empty => simpa using hasDerivAt_const (0 : ℝ) (1 : ℝ)
  | insert w S hw ih =>
    simp only [Finset.prod_insert hw, Finset.sum_insert hw]
    have h1 : HasDerivAt (fun ε : ℝ => 1 + ε * b w) (b w) 0 := by
      simpa using ((hasDerivAt_id (0 : ℝ)).mul_const (b w)).const_add 1
    have := h1.fun_mul ih
    simpa using this

/-- The derivative of an expectation along a direction. -/
theorem expectAlong_deriv (D : DiscreteDAG α) {S : Finset α} (hS : S ⊆ D.dag.nodes) (h : α → (α → ℕ) → ℝ) (g : (α → ℕ) → ℝ) :
    HasDerivAt (D.expectAlong S h g) (D.expect fun y => g y * ∑ v ∈ S, h v y) 0 := by
  rw [expect]
  have : HasDerivAt (D.expectAlong S h g) (∑ y ∈ assignments D.dag.nodes D.dims,
      ((∏ v ∈ D.dag.nodes, (D.kern v y : ℝ)) * ∑ v ∈ S, h v y) * g y) 0 :=
    HasDerivAt.fun_sum fun y _ => (prod_deriv D.dag.nodes S hS (fun v => (D.kern v y : ℝ)) fun v => h v y).mul_const (g y)
  convert this using 1
  refine Finset.sum_congr rfl fun y _ => ?_
  rw [coe_law]; ring

/-- The sum of the components is the efficient influence function. -/
theorem component_efficient (hD : D.Proper) (ot : SetOrder (Option α) α) (f : (α → ℕ) → ℝ) {S : Finset α} (hS : S ⊆ D.dag.nodes)
    (p : ℝ) : D.EfficientInfluence S (fun y => f y / p) fun y => (∑ v ∈ S, D.component f v y) / p where
  tangent := ⟨fun v y => D.component f v y / p,
    { looks := fun v hv x y hxy => by simp only [component_looks hD f (hS hv) hxy]
      zero := fun v hv x hx => by
        simp only [← mul_div_assoc]
        rw [← Finset.sum_div, component_zero hD ot f (hS hv) hx, zero_div] },
    fun y _ => Finset.sum_div _ _ _⟩
  gradient := fun h hh => by
    have h1 := expectAlong_deriv D hS h fun y => f y / p
    convert h1 using 1
    have h2 := component_inner hD ot f hS hh
    simp only [div_mul_eq_mul_div]
    simp only [div_eq_inv_mul, ← mul_assoc]
    simp only [mul_assoc, expect_smul, h2]

/-- There is only one efficient influence function, up to assignments of probability zero. -/
theorem EfficientInfluence.unique {S : Finset α} {g φ ψ : (α → ℕ) → ℝ} (h1 : D.EfficientInfluence S g φ)
    (h2 : D.EfficientInfluence S g ψ) {y : α → ℕ} (hy : y ∈ assignments D.dag.nodes D.dims) (h0 : D.law y ≠ 0) : φ y = ψ y := by
  obtain ⟨a, ha, ha'⟩ := h1.tangent
  obtain ⟨b, hb, hb'⟩ := h2.tangent
  have hd : D.Direction S fun v y => a v y - b v y :=
    { looks := fun v hv x y hxy => by simp only [ha.looks v hv x y hxy, hb.looks v hv x y hxy]
      zero := fun v hv x hx => by
        simp only [mul_sub, Finset.sum_sub_distrib, ha.zero v hv x hx, hb.zero v hv x hx, sub_zero] }
  have e := (h1.gradient _ hd).unique (h2.gradient _ hd)
  rw [← sub_eq_zero, ← expect_sub] at e
  have e2 : ∑ z ∈ assignments D.dag.nodes D.dims, (D.law z : ℝ) * (φ z - ψ z) ^ 2 = 0 := by
    rw [← e, expect]
    refine Finset.sum_congr rfl fun z hz => ?_
    have hz' := (mem_assignments.1 hz).1
    rw [Finset.sum_sub_distrib, ← ha' z hz', ← hb' z hz']; ring
  rw [Finset.sum_eq_zero_iff_of_nonneg fun z _ => by positivity] at e2
  have := e2 y hy
  rw [mul_eq_zero] at this
  rcases this with h | h
  · exact absurd (by exact_mod_cast h) h0
  · exact sub_eq_zero.1 (pow_eq_zero_iff (two_ne_zero) |>.1 h)

end Model.DiscreteDAG
