import Verif.Proof.Faithful
import Verif.Proof.DiscreteImap

/-! # A binary distribution with no other conditional independences than those forced by d-separation

Node `v` is 1 with probability `(1 + ∑ p, W p v s p) / 2`, where `s p` is 1 or -1 for the values 1 and 0 of the parents. The weights are
chosen node by node as in `Proof/Faithful`. -/

namespace Spec

open Relation

set_option linter.unusedSectionVars false

variable {α : Type} [DecidableEq α]

/-- The sign of a value: -1 for 0 and 1 otherwise. -/
noncomputable def sg (k : ℕ) : ℝ := if k = 0 then -1 else 1

theorem sg_mul (k : ℕ) : sg k * sg k = 1 := by unfold sg; split_ifs <;> norm_num

theorem sg_abs (k : ℕ) : |sg k| = 1 := by unfold sg; split_ifs <;> norm_num

theorem sg_range (k : ℕ) : 0 ≤ 1 + sg k ∧ 0 ≤ 1 - sg k := by unfold sg; split_ifs <;> norm_num

/-- The linear part of the probability of node `v`. -/
noncomputable def lean (N : Finset α) (W : α → α → ℝ) (v : α) (y : α → ℕ) : ℝ := ∑ p ∈ N, W p v * sg (y p)

/-- The probability of an assignment. -/
noncomputable def wt (N : Finset α) (W : α → α → ℝ) (y : α → ℕ) : ℝ := ∏ v ∈ N, (1 + sg (y v) * lean N W v y) / 2

/-- The expectation. -/
noncomputable def Ex (N : Finset α) (W : α → α → ℝ) (f : (α → ℕ) → ℝ) : ℝ := ∑ y ∈ assignments N fun _ => 2, wt N W y * f y

/-- The indicator of all nodes in `C` being 1. -/
noncomputable def ic (C : Finset α) (y : α → ℕ) : ℝ := ∏ c ∈ C, (1 + sg (y c)) / 2

/-- The expectation where all nodes in `C` are 1. -/
noncomputable def Br (N : Finset α) (W : α → α → ℝ) (C : Finset α) (f : (α → ℕ) → ℝ) : ℝ := Ex N W fun y => ic C y * f y

/-- The covariance of the signs of two nodes given that the nodes in `C` are 1, up to a positive factor. -/
noncomputable def Dep (N : Finset α) (W : α → α → ℝ) (C : Finset α) (i j : α) : ℝ :=
  Br N W C (fun y => sg (y i) * sg (y j)) * Br N W C (fun _ => 1) - Br N W C (fun y => sg (y i)) * Br N W C fun y => sg (y j)

variable {N : Finset α} {W : α → α → ℝ}

theorem Ex_add (f g : (α → ℕ) → ℝ) : Ex N W (fun y => f y + g y) = Ex N W f + Ex N W g := by
  simp only [Ex, mul_add, Finset.sum_add_distrib]

theorem Ex_mul (c : ℝ) (f : (α → ℕ) → ℝ) : Ex N W (fun y => c * f y) = c * Ex N W f := by
  simp only [Ex, Finset.mul_sum]
  exact Finset.sum_congr rfl fun y _ => by ring

theorem Ex_sum {κ : Type} (P : Finset κ) (f : κ → (α → ℕ) → ℝ) : Ex N W (fun y => ∑ p ∈ P, f p y) = ∑ p ∈ P, Ex N W (f p) := by
  simp only [Ex, Finset.mul_sum]
  exact Finset.sum_comm

/-! ## A new node -/

variable {t : α} {w : α → ℝ}

/-- `y` with the value of `t` exchanged. -/
def flip (t : α) (y : α → ℕ) : α → ℕ := Function.update y t (1 - y t)

theorem flip_mem (ht : t ∈ N) {y : α → ℕ} (hy : y ∈ assignments N fun _ => 2) : flip t y ∈ assignments N fun _ => 2 := by
  rw [mem_assignments] at hy ⊢
  refine ⟨fun v hv => ?_, fun v hv => ?_⟩
  · by_cases e : v = t
    · subst e; rw [flip, Function.update_self]; omega
    · rw [flip, Function.update_of_ne e]; exact hy.1 v hv
  · have e : v ≠ t := by rintro rfl; exact hv ht
    rw [flip, Function.update_of_ne e]; exact hy.2 v hv

theorem flip_flip {y : α → ℕ} (hy : y t < 2) : flip t (flip t y) = y := by
  unfold flip
  rw [Function.update_self, Function.update_idem]
  have : 1 - (1 - y t) = y t := by omega
  rw [this, Function.update_eq_self]

theorem sg_flip {y : α → ℕ} (hy : y t < 2) : sg (flip t y t) = -sg (y t) := by
  unfold flip
  rw [Function.update_self]
  interval_cases h : y t <;> simp [sg]

theorem lean_flip (hrow : ∀ b, W t b = 0) (v : α) (y : α → ℕ) : lean N W v (flip t y) = lean N W v y := by
  refine Finset.sum_congr rfl fun p _ => ?_
  by_cases e : p = t
  · subst e; rw [hrow, zero_mul, zero_mul]
  · rw [flip, Function.update_of_ne e]

theorem lean_zero (hcol : ∀ a, W a t = 0) (y : α → ℕ) : lean N W t y = 0 := Finset.sum_eq_zero fun p _ => by rw [hcol, zero_mul]

theorem wt_flip (hrow : ∀ b, W t b = 0) (hcol : ∀ a, W a t = 0) (y : α → ℕ) : wt N W (flip t y) = wt N W y := by
  refine Finset.prod_congr rfl fun v _ => ?_
  rw [lean_flip hrow]
  by_cases e : v = t
  · subst e; rw [lean_zero hcol, mul_zero, mul_zero]
  · rw [flip, Function.update_of_ne e]

/-- The sign of an isolated node is uncorrelated with everything that does not look at it. -/
theorem Ex_sign (ht : t ∈ N) (hrow : ∀ b, W t b = 0) (hcol : ∀ a, W a t = 0) {g : (α → ℕ) → ℝ} (hg : ∀ y, g (flip t y) = g y) :
    Ex N W (fun y => sg (y t) * g y) = 0 := by
  refine Finset.sum_involution (fun y _ => flip t y) ?_ ?_ ?_ ?_
  · intro y hy
    beta_reduce
    rw [wt_flip hrow hcol, hg, sg_flip ((mem_assignments.1 hy).1 t ht)]
    ring
  · intro y hy _ e
    have h1 := (mem_assignments.1 hy).1 t ht
    have h2 := sg_flip h1
    rw [e] at h2
    have h3 := sg_abs (y t)
    have h4 : sg (y t) = 0 := by linarith
    rw [h4] at h3
    norm_num at h3
  · intro y hy
    exact flip_mem ht hy
  · intro y hy
    exact flip_flip ((mem_assignments.1 hy).1 t ht)

/-- The weights with a new column. -/
def addCol (W : α → α → ℝ) (t : α) (w : α → ℝ) : α → α → ℝ := fun p v => if v = t then w p else W p v

theorem wt_addCol (ht : t ∈ N) (hcol : ∀ a, W a t = 0) (y : α → ℕ) :
    wt N (addCol W t w) y = wt N W y * (1 + sg (y t) * ∑ p ∈ N, w p * sg (y p)) := by
  unfold wt
  rw [← Finset.mul_prod_erase N _ ht, ← Finset.mul_prod_erase N (fun v => (1 + sg (y v) * lean N W v y) / 2) ht, lean_zero hcol]
  have h1 : lean N (addCol W t w) t y = ∑ p ∈ N, w p * sg (y p) := by simp [lean, addCol]
  have h2 : ∏ v ∈ N.erase t, (1 + sg (y v) * lean N (addCol W t w) v y) / 2 = ∏ v ∈ N.erase t, (1 + sg (y v) * lean N W v y) / 2 := by
    refine Finset.prod_congr rfl fun v hv => ?_
    have e : v ≠ t := (Finset.mem_erase.1 hv).1
    simp [lean, addCol, e]
  rw [h1, h2]
  ring

theorem ic_flip {C : Finset α} (hC : t ∉ C) (y : α → ℕ) : ic C (flip t y) = ic C y := by
  refine Finset.prod_congr rfl fun c hc => ?_
  have e : c ≠ t := by rintro rfl; exact hC hc
  rw [flip, Function.update_of_ne e]

/-- The new expectations in terms of the old ones. -/
theorem Br_new (ht : t ∈ N) (hrow : ∀ b, W t b = 0) (hcol : ∀ a, W a t = 0) (hw : w t = 0) {C : Finset α} (hC : t ∉ C)
    {f : (α → ℕ) → ℝ} (hf : ∀ y, f (flip t y) = f y) :
    Br N (addCol W t w) C f = Br N W C f ∧
      Br N (addCol W t w) C (fun y => f y * sg (y t)) = ∑ p ∈ N, w p * Br N W C fun y => f y * sg (y p) := by
  set L : (α → ℕ) → ℝ := fun y => ∑ p ∈ N, w p * sg (y p) with hL
  have hLf : ∀ y, L (flip t y) = L y := fun y => by
    refine Finset.sum_congr rfl fun p _ => ?_
    by_cases e : p = t
    · subst e; rw [hw, zero_mul, zero_mul]
    · rw [flip, Function.update_of_ne e]
  have key : ∀ g, Ex N (addCol W t w) g = Ex N W fun y => (1 + sg (y t) * L y) * g y := by
    intro g
    refine Finset.sum_congr rfl fun y _ => ?_
    rw [wt_addCol ht hcol]
    ring
  constructor
  · unfold Br
    rw [key]
    have e : (fun y => (1 + sg (y t) * L y) * (ic C y * f y)) = fun y => ic C y * f y + sg (y t) * (L y * (ic C y * f y)) := by
      funext y; ring
    rw [e, Ex_add, Ex_sign ht hrow hcol (fun y => by rw [hLf, ic_flip hC, hf]), add_zero]
  · unfold Br
    rw [key]
    have e : (fun y => (1 + sg (y t) * L y) * (ic C y * (f y * sg (y t)))) =
        fun y => sg (y t) * (ic C y * f y) + ∑ p ∈ N, w p * (ic C y * (f y * sg (y p))) := by
      funext y
      have h := sg_mul (y t)
      have e1 : ∑ p ∈ N, w p * (ic C y * (f y * sg (y p))) = L y * (ic C y * f y) := by
        rw [hL]; simp only; rw [Finset.sum_mul]
        exact Finset.sum_congr rfl fun p _ => by ring
      rw [e1]
      linear_combination (ic C y * f y * L y) * h
    rw [e, Ex_add, Ex_sign ht hrow hcol (fun y => by rw [ic_flip hC, hf]), zero_add, Ex_sum]
    exact Finset.sum_congr rfl fun p _ => Ex_mul _ _

theorem Br_insert {C : Finset α} (hC : t ∉ C) (f : (α → ℕ) → ℝ) :
    2 * Br N W (insert t C) f = Br N W C f + Br N W C fun y => f y * sg (y t) := by
  unfold Br
  rw [← Ex_mul, ← Ex_add]
  congr 1
  funext y
  rw [ic, ic, Finset.prod_insert hC]
  ring

/-! ## Positivity -/

/-- The weights are small. -/
def Small (N : Finset α) (W : α → α → ℝ) : Prop := ∀ p v, 0 ≤ W p v ∧ W p v ≤ 1 / (2 * (N.card + 1))

theorem Small.lean_le (h : Small N W) (v : α) (y : α → ℕ) : |lean N W v y| ≤ 1 / 2 := by
  have hc : (0 : ℝ) < N.card + 1 := by positivity
  calc |lean N W v y| ≤ ∑ p ∈ N, |W p v * sg (y p)| := Finset.abs_sum_le_sum_abs _ _
    _ ≤ ∑ p ∈ N, 1 / (2 * ((N.card : ℝ) + 1)) := Finset.sum_le_sum fun p _ => by
        rw [abs_mul, sg_abs, mul_one, abs_of_nonneg (h p v).1]; exact (h p v).2
    _ = N.card / (2 * ((N.card : ℝ) + 1)) := by rw [Finset.sum_const, nsmul_eq_mul]; ring
    _ ≤ 1 / 2 := by
        rw [div_le_div_iff₀ (by positivity) (by norm_num)]
        linarith

theorem Small.factor (h : Small N W) (v : α) (y : α → ℕ) : 1 / 4 ≤ (1 + sg (y v) * lean N W v y) / 2 := by
  have h1 : |sg (y v) * lean N W v y| ≤ 1 / 2 := by rw [abs_mul, sg_abs, one_mul]; exact h.lean_le v y
  have h2 := neg_le_of_abs_le h1
  linarith

theorem Small.wt_pos (h : Small N W) (y : α → ℕ) : 0 < wt N W y :=
  Finset.prod_pos fun v _ => lt_of_lt_of_le (by norm_num) (h.factor v y)

theorem ic_nonneg (C : Finset α) (y : α → ℕ) : 0 ≤ ic C y := Finset.prod_nonneg fun c _ => by
  have := (sg_range (y c)).1
  linarith

theorem Small.Br_pos (h : Small N W) {C : Finset α} {f : (α → ℕ) → ℝ} (hf : ∀ y, 0 ≤ f y) {y : α → ℕ}
    (hy : y ∈ assignments N fun _ => 2) (hC : ∀ c ∈ C, y c = 1) (hfy : 0 < f y) : 0 < Br N W C f := by
  refine Finset.sum_pos' (fun z _ => mul_nonneg (h.wt_pos z).le (mul_nonneg (ic_nonneg C z) (hf z))) ⟨y, hy, ?_⟩
  have : ic C y = 1 := Finset.prod_eq_one fun c hc => by rw [hC c hc]; norm_num [sg]
  beta_reduce
  rw [this, one_mul]
  exact mul_pos (h.wt_pos y) hfy

theorem Small.Br_one (h : Small N W) {C : Finset α} (hC : C ⊆ N) : 0 < Br N W C fun _ => 1 :=
  h.Br_pos (y := fun v => if v ∈ N then 1 else 0) (fun _ => zero_le_one)
    (mem_assignments.2 ⟨fun v hv => by simp [hv], fun v hv => by simp [hv]⟩) (fun c hc => by simp [hC hc]) one_pos

theorem Small.Dep_self (h : Small N W) {C : Finset α} (hC : C ⊆ N) {i : α} (hi : i ∈ N) (hiC : i ∉ C) : 0 < Dep N W C i i := by
  have h1 : 0 < Br N W C fun y => 1 + sg (y i) := by
    refine h.Br_pos (y := fun v => if v ∈ N then 1 else 0) (fun y => (sg_range _).1)
      (mem_assignments.2 ⟨fun v hv => by simp [hv], fun v hv => by simp [hv]⟩) (fun c hc => by simp [hC hc]) ?_
    simp [hi, sg]
  have h2 : 0 < Br N W C fun y => 1 - sg (y i) := by
    refine h.Br_pos (y := fun v => if v ∈ N ∧ v ≠ i then 1 else 0) (fun y => (sg_range _).2)
      (mem_assignments.2 ⟨fun v hv => by split_ifs <;> norm_num, fun v hv => by simp [hv]⟩)
      (fun c hc => by
        have e : c ≠ i := by rintro rfl; exact hiC hc
        simp [hC hc, e]) ?_
    simp [sg]
  have e1 : Br N W C (fun y => 1 + sg (y i)) = Br N W C (fun _ => 1) + Br N W C fun y => sg (y i) := by
    unfold Br; rw [← Ex_add]; congr 1; funext y; ring
  have e2 : Br N W C (fun y => 1 - sg (y i)) = Br N W C (fun _ => 1) - Br N W C fun y => sg (y i) := by
    have : Br N W C (fun y => sg (y i)) + Br N W C (fun y => 1 - sg (y i)) = Br N W C fun _ => 1 := by
      unfold Br; rw [← Ex_add]; congr 1; funext y; ring
    linarith
  have e3 : Br N W C (fun y => sg (y i) * sg (y i)) = Br N W C fun _ => 1 := by
    congr 1; funext y; exact sg_mul _
  rw [e1] at h1
  rw [e2] at h2
  unfold Dep
  rw [e3]
  nlinarith [mul_pos h1 h2]

/-! ## The polynomials -/

/-- A linear form. -/
noncomputable def linPoly (P : Finset α) (κ : α → ℝ) : MvPolynomial α ℝ := ∑ p ∈ P, MvPolynomial.C (κ p) * MvPolynomial.X p

theorem eval_linPoly (P : Finset α) (κ x : α → ℝ) : MvPolynomial.eval x (linPoly P κ) = ∑ p ∈ P, x p * κ p := by
  simp only [linPoly, map_sum, map_mul, MvPolynomial.eval_C, MvPolynomial.eval_X]
  exact Finset.sum_congr rfl fun p _ => mul_comm _ _

theorem linPoly_ne {P : Finset α} {κ : α → ℝ} {p : α} (hp : p ∈ P) (hκ : κ p ≠ 0) : linPoly P κ ≠ 0 := by
  intro h
  have h1 := eval_linPoly P κ (Pi.single p 1)
  rw [h, map_zero, Finset.sum_eq_single p, Pi.single_eq_same, one_mul] at h1
  · exact hκ h1.symm
  · intro b _ hb; rw [Pi.single_eq_of_ne hb, zero_mul]
  · intro hn; exact absurd hp hn

/-- The polynomial for a triple that contains the new node in the condition. -/
theorem pair_poly {P : Finset α} {b bi bj bij : ℝ} {k ki kj kij : α → ℝ}
    (h : bij * b - bi * bj ≠ 0 ∨ linPoly P (fun p => b * ki p - bi * k p) ≠ 0 ∧ linPoly P (fun p => b * kj p - bj * k p) ≠ 0) :
    (MvPolynomial.C bij + linPoly P kij) * (MvPolynomial.C b + linPoly P k) -
      (MvPolynomial.C bi + linPoly P ki) * (MvPolynomial.C bj + linPoly P kj) ≠ 0 := by
  intro hQ
  set a := fun x => MvPolynomial.eval x (linPoly P kij) with ha
  set c := fun x => MvPolynomial.eval x (linPoly P k) with hc
  set ai := fun x => MvPolynomial.eval x (linPoly P ki) with hai
  set aj := fun x => MvPolynomial.eval x (linPoly P kj) with haj
  have hev : ∀ x, (bij + a x) * (b + c x) - (bi + ai x) * (bj + aj x) = 0 := fun x => by
    have := congrArg (MvPolynomial.eval x) hQ
    simpa only [map_sub, map_mul, map_add, MvPolynomial.eval_C, map_zero] using this
  have hneg : ∀ (κ : α → ℝ) x, MvPolynomial.eval (-x) (linPoly P κ) = -MvPolynomial.eval x (linPoly P κ) := fun κ x => by
    rw [eval_linPoly, eval_linPoly, ← Finset.sum_neg_distrib]
    exact Finset.sum_congr rfl fun p _ => by rw [Pi.neg_apply]; ring
  have hzero : ∀ (κ : α → ℝ), MvPolynomial.eval 0 (linPoly P κ) = 0 := fun κ => by
    rw [eval_linPoly]
    exact Finset.sum_eq_zero fun p _ => by rw [Pi.zero_apply, zero_mul]
  have h0 : bij * b - bi * bj = 0 := by
    have := hev 0
    simp only [ha, hc, hai, haj, hzero, add_zero] at this
    exact this
  obtain ⟨h1, h2⟩ := h.resolve_left (fun hn => hn h0)
  have hprod : linPoly P (fun p => b * ki p - bi * k p) * linPoly P (fun p => b * kj p - bj * k p) = 0 := by
    refine MvPolynomial.funext fun x => ?_
    have e1 := hev x
    have e2 := hev (-x)
    have n1 : a (-x) = -a x := hneg _ x
    have n2 : c (-x) = -c x := hneg _ x
    have n3 : ai (-x) = -ai x := hneg _ x
    have n4 : aj (-x) = -aj x := hneg _ x
    rw [n1, n2, n3, n4] at e2
    have l1 : MvPolynomial.eval x (linPoly P (fun p => b * ki p - bi * k p)) = b * ai x - bi * c x := by
      simp only [hai, hc, eval_linPoly, Finset.mul_sum, ← Finset.sum_sub_distrib]
      exact Finset.sum_congr rfl fun p _ => by ring
    have l2 : MvPolynomial.eval x (linPoly P (fun p => b * kj p - bj * k p)) = b * aj x - bj * c x := by
      simp only [haj, hc, eval_linPoly, Finset.mul_sum, ← Finset.sum_sub_distrib]
      exact Finset.sum_congr rfl fun p _ => by ring
    rw [map_mul, l1, l2, map_zero]
    have hlin : bij * c x + a x * b - bi * aj x - bj * ai x = 0 := by linear_combination (e1 - e2) / 2
    have hquad : a x * c x - ai x * aj x = 0 := by linear_combination (e1 + e2) / 2 - h0
    linear_combination b * c x * hlin - b ^ 2 * hquad - c x ^ 2 * h0
  rcases mul_eq_zero.1 hprod with e | e
  · exact h1 e
  · exact h2 e

/-! ## One step -/

variable {E : α → α → Prop} {V : Set α}

/-- Every pair that is not separated depends on each other, as far as the nodes in `V` are concerned. -/
def Dependent (E : α → α → Prop) (V : Set α) (N : Finset α) (W : α → α → ℝ) : Prop :=
  ∀ i j (C : Finset α), i ∈ V → j ∈ V → (C : Set α) ⊆ V → i ≠ j → i ∉ C → j ∉ C → ¬ DSep E {i} {j} (C : Set α) → Dep N W C i j ≠ 0

theorem Dep_symm (C : Finset α) (i j : α) : Dep N W C i j = Dep N W C j i := by
  unfold Dep
  have : (fun y : α → ℕ => sg (y i) * sg (y j)) = fun y => sg (y j) * sg (y i) := by funext y; ring
  rw [this]
  ring

/-- The column of weights with values `x` for the parents of the new node. -/
def column (P : Finset α) (x : α → ℝ) : α → ℝ := fun p => if p ∈ P then x p else 0

theorem sum_column {P : Finset α} (hP : P ⊆ N) (x κ : α → ℝ) : ∑ p ∈ N, column P x p * κ p = ∑ p ∈ P, x p * κ p := by
  rw [← Finset.sum_subset hP]
  · exact Finset.sum_congr rfl fun p hp => by rw [column, if_pos hp]
  · intro p _ hp; rw [column, if_neg hp, zero_mul]

/-- The weights of the arcs into a new node can be chosen such that all pairs that are not separated depend on each other. -/
theorem dependent_step (hE : Acyclic E) (hVN : V ⊆ (N : Set α)) (hV : ∀ a b, E a b → b ∈ V → a ∈ V) (htN : t ∈ N) (ht : t ∉ V) {P : Finset α}
    (hP : ∀ p, p ∈ P ↔ E p t) (htp : ∀ p, E p t → p ∈ V) (hW : Small N W) (hrow : ∀ b, W t b = 0) (hcol : ∀ a, W a t = 0)
    (hf : Dependent E V N W) :
    ∃ x : α → ℝ, (∀ p, 0 < x p ∧ x p < 1 / (2 * (N.card + 1))) ∧ Dependent E (insert t V) N (addCol W t (column P x)) := by
  have hne : ∀ b ∈ V, b ≠ t := by rintro b hb rfl; exact ht hb
  have hPN : P ⊆ N := fun p hp => hVN (htp p ((hP p).1 hp))
  have hct : ∀ x, column P x t = 0 := fun x => if_neg fun h => hE.irrefl ((hP t).1 h)
  have hsg : ∀ i, i ≠ t → ∀ y : α → ℕ, sg (flip t y i) = sg (y i) := fun i hi y => by rw [flip, Function.update_of_ne hi]
  have hparent : ∀ i (C : Finset α), i ∈ V → (C : Set α) ⊆ V → i ∉ C → (∃ p, E p t ∧ p ∉ C ∧ (p = i ∨ ¬ DSep E {i} {p} (C : Set α))) →
      linPoly P (fun p => Dep N W C i p) ≠ 0 := by
    rintro i C hi hC hiC ⟨p, h1, h2, h3⟩
    refine linPoly_ne ((hP p).2 h1) ?_
    by_cases hpi : p = i
    · subst hpi; exact (hW.Dep_self (fun c hc => hVN (hC hc)) (hVN hi) hiC).ne'
    · exact hf i p C hi (htp p h1) hC (Ne.symm hpi) hiC h2 (h3.resolve_left hpi)
  let good : {k : α × α × Finset α // k ∈ N ×ˢ N ×ˢ N.powerset} → (α → ℝ) → Prop := fun k x =>
    k.1.1 ∈ V → k.1.2.1 ∈ insert t V → (k.1.2.2 : Set α) ⊆ insert t V → k.1.1 ≠ k.1.2.1 → k.1.1 ∉ k.1.2.2 → k.1.2.1 ∉ k.1.2.2 →
      ¬ DSep E {k.1.1} {k.1.2.1} (k.1.2.2 : Set α) → Dep N (addCol W t (column P x)) k.1.2.2 k.1.1 k.1.2.1 ≠ 0
  have key : ∀ k, ∃ Q : MvPolynomial α ℝ, Q ≠ 0 ∧ ∀ x, MvPolynomial.eval x Q ≠ 0 → good k x := by
    rintro ⟨⟨i, j, C⟩, -⟩
    by_cases hyp : i ∈ V ∧ j ∈ insert t V ∧ (C : Set α) ⊆ insert t V ∧ i ≠ j ∧ i ∉ C ∧ j ∉ C ∧ ¬ DSep E {i} {j} (C : Set α)
    swap
    · exact ⟨1, one_ne_zero, fun x _ a1 a2 a3 a4 a5 a6 a7 => absurd ⟨a1, a2, a3, a4, a5, a6, a7⟩ hyp⟩
    obtain ⟨hi, hj, hC, hij, hiC, hjC, hd⟩ := hyp
    have hit := hne i hi
    by_cases htC : t ∈ C
    · have hjt : j ≠ t := by rintro rfl; exact hjC htC
      have hjV : j ∈ V := hj.resolve_left hjt
      obtain ⟨C', rfl, htC'⟩ : ∃ C', C = insert t C' ∧ t ∉ C' := ⟨C.erase t, (Finset.insert_erase htC).symm, Finset.notMem_erase _ _⟩
      have hC'V : (C' : Set α) ⊆ V := fun c hc => (hC (by simpa using Or.inr hc)).resolve_left (by rintro rfl; exact htC' hc)
      have hiC' : i ∉ C' := fun h => hiC (Finset.mem_insert_of_mem h)
      have hjC' : j ∉ C' := fun h => hjC (Finset.mem_insert_of_mem h)
      have hcoe : ((insert t C' : Finset α) : Set α) = insert t (C' : Set α) := Finset.coe_insert t C'
      rw [hcoe] at hd
      set b := Br N W C' fun _ => 1 with hb
      set bi := Br N W C' fun y => sg (y i) with hbi
      set bj := Br N W C' fun y => sg (y j) with hbj
      set bij := Br N W C' fun y => sg (y i) * sg (y j) with hbij
      set k : α → ℝ := fun p => Br N W C' fun y => sg (y p) with hk
      set ki : α → ℝ := fun p => Br N W C' fun y => sg (y i) * sg (y p) with hki
      set kj : α → ℝ := fun p => Br N W C' fun y => sg (y j) * sg (y p) with hkj
      set kij : α → ℝ := fun p => Br N W C' fun y => sg (y i) * sg (y j) * sg (y p) with hkij
      refine ⟨(MvPolynomial.C bij + linPoly P kij) * (MvPolynomial.C b + linPoly P k) -
        (MvPolynomial.C bi + linPoly P ki) * (MvPolynomial.C bj + linPoly P kj), pair_poly ?_, fun x hx _ _ _ _ _ _ _ => ?_⟩
      · by_cases hD : Dep N W C' i j = 0
        · right
          have hdj : DSep E {i} {j} (C' : Set α) := by
            by_contra hn
            exact hf i j C' hi hjV hC'V hij hiC' hjC' hn hD
          have e1 : (fun p => b * ki p - bi * k p) = fun p => Dep N W C' i p := by
            funext p; simp only [Dep, hb, hki, hbi, hk]; ring
          have e2 : (fun p => b * kj p - bj * k p) = fun p => Dep N W C' j p := by
            funext p; simp only [Dep, hb, hkj, hbj, hk]; ring
          rw [e1, e2]
          refine ⟨hparent i C' hi hC'V hiC' ?_, hparent j C' hjV hC'V hjC' ?_⟩
          · by_contra hn
            push Not at hn
            exact hd (dsep_new hE hV ht hi (by rintro x rfl; exact hjV) hC'V (by simpa using hij) hiC' hdj hn).2
          · by_contra hn
            push Not at hn
            exact hd (dsep_symm (dsep_new hE hV ht hjV (by rintro x rfl; exact hi) hC'V (by simpa using hij.symm) hjC' (dsep_symm hdj) hn).2)
        · exact Or.inl hD
      · dsimp only
        have hw := hct x
        obtain ⟨o1, o2⟩ := Br_new (w := column P x) htN hrow hcol hw htC' (f := fun _ => 1) fun _ => rfl
        obtain ⟨i1, i2⟩ := Br_new (w := column P x) htN hrow hcol hw htC' (f := fun y => sg (y i)) fun y => hsg i hit y
        obtain ⟨j1, j2⟩ := Br_new (w := column P x) htN hrow hcol hw htC' (f := fun y => sg (y j)) fun y => hsg j hjt y
        obtain ⟨p1, p2⟩ := Br_new (w := column P x) htN hrow hcol hw htC' (f := fun y => sg (y i) * sg (y j)) fun y => by
          rw [hsg i hit, hsg j hjt]
        have q1 := Br_insert (N := N) (W := addCol W t (column P x)) htC' fun _ => (1 : ℝ)
        have q2 := Br_insert (N := N) (W := addCol W t (column P x)) htC' fun y => sg (y i)
        have q3 := Br_insert (N := N) (W := addCol W t (column P x)) htC' fun y => sg (y j)
        have q4 := Br_insert (N := N) (W := addCol W t (column P x)) htC' fun y => sg (y i) * sg (y j)
        rw [o1, o2, sum_column hPN] at q1
        rw [i1, i2, sum_column hPN] at q2
        rw [j1, j2, sum_column hPN] at q3
        rw [p1, p2, sum_column hPN] at q4
        simp only [one_mul] at q1
        intro h0
        apply hx
        simp only [map_sub, map_mul, map_add, MvPolynomial.eval_C, eval_linPoly]
        have h4 : 4 * Dep N (addCol W t (column P x)) (insert t C') i j = 0 := by rw [h0, mul_zero]
        unfold Dep at h4
        rw [← h4]
        simp only [hk, hki, hkj, hkij, hb, hbi, hbj, hbij]
        rw [← q1, ← q2, ← q3, ← q4]
        ring
    · have hCV : (C : Set α) ⊆ V := fun c hc => (hC hc).resolve_left (by rintro rfl; exact htC hc)
      by_cases hjt : j = t
      · subst hjt
        refine ⟨linPoly P fun p => Dep N W C i p, hparent i C hi hCV hiC ?_, fun x hx _ _ _ _ _ _ _ => ?_⟩
        · by_contra hn
          push Not at hn
          exact hd (dsep_new (B := ∅) hE hV ht hi (Set.empty_subset _) hCV (by simp) hiC (fun _ _ b hb => absurd hb (by simp)) hn).1
        · dsimp only
          obtain ⟨o1, o2⟩ := Br_new (w := column P x) htN hrow hcol (hct x) htC (f := fun _ => 1) fun _ => rfl
          obtain ⟨i1, i2⟩ := Br_new (w := column P x) htN hrow hcol (hct x) htC (f := fun y => sg (y i)) fun y => hsg i hit y
          rw [sum_column hPN] at o2 i2
          simp only [one_mul] at o2
          intro h0
          apply hx
          rw [eval_linPoly, ← h0, Dep, o1, o2, i1, i2, Finset.sum_mul, Finset.mul_sum, ← Finset.sum_sub_distrib]
          exact Finset.sum_congr rfl fun p _ => by unfold Dep; ring
      · refine ⟨1, one_ne_zero, fun x _ _ _ _ _ _ _ _ => ?_⟩
        dsimp only
        have o1 := (Br_new (w := column P x) htN hrow hcol (hct x) htC (f := fun _ => 1) fun _ => rfl).1
        have i1 := (Br_new (w := column P x) htN hrow hcol (hct x) htC (f := fun y => sg (y i)) fun y => hsg i hit y).1
        have j1 := (Br_new (w := column P x) htN hrow hcol (hct x) htC (f := fun y => sg (y j)) fun y => hsg j hjt y).1
        have p1 := (Br_new (w := column P x) htN hrow hcol (hct x) htC (f := fun y => sg (y i) * sg (y j)) fun y => by
          rw [hsg i hit, hsg j hjt]).1
        rw [Dep, o1, i1, j1, p1]
        exact hf i j C hi (hj.resolve_left hjt) hCV hij hiC hjC hd
  have hpos : (0 : ℝ) < 1 / (2 * (N.card + 1)) := by positivity
  obtain ⟨x, hxs, hx⟩ := generic (s := fun _ => Set.Ioo (0 : ℝ) (1 / (2 * (N.card + 1)))) (fun _ => Set.Ioo_infinite hpos) good
    fun k => (key k).imp fun Q h => ⟨h.1, fun x _ => h.2 x⟩
  have hN : ∀ v ∈ insert t V, v ∈ N := by
    rintro v (rfl | hv)
    · exact htN
    · exact hVN hv
  refine ⟨x, hxs, fun i j C hi hj hC hij hiC hjC hd => ?_⟩
  have hCN : C ∈ N.powerset := Finset.mem_powerset.2 fun c hc => hN c (hC hc)
  rcases hi with rfl | hi
  · have hjV : j ∈ V := hj.resolve_left hij.symm
    rw [Dep_symm]
    exact hx ⟨⟨j, i, C⟩, Finset.mk_mem_product (hVN hjV) (Finset.mk_mem_product htN hCN)⟩ hjV (Or.inl rfl) hC hij.symm hjC hiC
      fun h => hd (dsep_symm h)
  · exact hx ⟨⟨i, j, C⟩, Finset.mk_mem_product (hVN hi) (Finset.mk_mem_product (hN j hj) hCN)⟩ hi hj hC hij hiC hjC hd

/-! ## All nodes -/

theorem Small.addCol (h : Small N W) {P : Finset α} {x : α → ℝ} (hx : ∀ p, 0 < x p ∧ x p < 1 / (2 * (N.card + 1))) :
    Small N (addCol W t (column P x)) := by
  have h0 : (0 : ℝ) ≤ 1 / (2 * (N.card + 1)) := by positivity
  intro p v
  unfold Spec.addCol
  split_ifs with hv
  · unfold column
    split_ifs
    · exact ⟨(hx p).1.le, (hx p).2.le⟩
    · exact ⟨le_rfl, h0⟩
  · exact h p v

/-- Weights such that all pairs that are not separated depend on each other. -/
theorem exists_dependent (hE : Acyclic E) (hEN : ∀ a b, E a b → a ∈ N) {r : α → ℕ} (hr : Set.InjOn r (N : Set α))
    (hrE : ∀ i j, E i j → r i < r j) :
    ∃ W : α → α → ℝ, (∀ p v, W p v ≠ 0 → E p v) ∧ Small N W ∧ Dependent E (N : Set α) N W := by
  classical
  have main : ∀ m : ℕ, ∃ W : α → α → ℝ, (∀ p v, W p v ≠ 0 → E p v ∧ r v < m) ∧ Small N W ∧ Dependent E {k | k ∈ N ∧ r k < m} N W := by
    intro m
    induction m with
    | zero =>
      refine ⟨fun _ _ => 0, fun i j h => absurd rfl h, fun p v => ⟨le_rfl, by positivity⟩, fun i j C hi => ?_⟩
      exact absurd hi (by simp)
    | succ m ih =>
      obtain ⟨W, h1, hs, h2⟩ := ih
      by_cases hm : ∃ t ∈ N, r t = m
      · obtain ⟨t, htN, rfl⟩ := hm
        have hrow : ∀ b, W t b = 0 := fun b => by
          by_contra h
          obtain ⟨g1, g2⟩ := h1 t b h
          exact lt_asymm g2 (hrE _ _ g1)
        have hcol : ∀ a, W a t = 0 := fun a => by
          by_contra h
          exact lt_irrefl _ (h1 a t h).2
        have hP : ∀ p, p ∈ N.filter (E · t) ↔ E p t := fun p => by
          rw [Finset.mem_filter]
          exact ⟨fun h => h.2, fun h => ⟨hEN _ _ h, h⟩⟩
        obtain ⟨x, hx, hf⟩ := dependent_step (V := {k | k ∈ N ∧ r k < r t}) hE (fun k hk => hk.1)
          (fun a b hab hb => ⟨hEN _ _ hab, (hrE _ _ hab).trans hb.2⟩) htN (fun h => lt_irrefl _ h.2) hP
          (fun p hp => ⟨hEN _ _ hp, hrE _ _ hp⟩) hs hrow hcol h2
        refine ⟨addCol W t (column (N.filter (E · t)) x), fun p v h => ?_, hs.addCol hx, ?_⟩
        · unfold addCol at h
          split_ifs at h with hv
          · subst hv
            unfold column at h
            split_ifs at h with hp
            · exact ⟨(hP p).1 hp, Nat.lt_succ_self _⟩
            · exact absurd rfl h
          · exact ⟨(h1 p v h).1, (h1 p v h).2.trans (Nat.lt_succ_self _)⟩
        · have hset : {k | k ∈ N ∧ r k < r t + 1} = insert t {k | k ∈ N ∧ r k < r t} := by
            ext k
            simp only [Set.mem_insert_iff, Set.mem_ofPred_eq, Nat.lt_succ_iff_lt_or_eq]
            constructor
            · rintro ⟨hk, h | h⟩
              · exact Or.inr ⟨hk, h⟩
              · exact Or.inl (hr hk htN h)
            · rintro (rfl | h)
              · exact ⟨htN, Or.inr rfl⟩
              · exact ⟨h.1, Or.inl h.2⟩
          rw [hset]
          exact hf
      · refine ⟨W, fun i j h => ⟨(h1 i j h).1, (h1 i j h).2.trans (Nat.lt_succ_self _)⟩, hs, ?_⟩
        have hset : {k | k ∈ N ∧ r k < m + 1} = {k | k ∈ N ∧ r k < m} := by
          ext k
          simp only [Set.mem_ofPred_eq, Nat.lt_succ_iff_lt_or_eq]
          exact ⟨fun h => ⟨h.1, h.2.resolve_right fun e => hm ⟨k, h.1, e⟩⟩, fun h => ⟨h.1, Or.inl h.2⟩⟩
        rw [hset]
        exact h2
  obtain ⟨W, h1, hs, h2⟩ := main (N.sup r + 1)
  refine ⟨W, fun i j h => (h1 i j h).1, hs, ?_⟩
  have hset : {k | k ∈ N ∧ r k < N.sup r + 1} = (N : Set α) := by
    ext k
    simp only [Set.mem_ofPred_eq, Finset.mem_coe, and_iff_left_iff_imp]
    exact fun hk => Nat.lt_succ_of_le (Finset.le_sup (f := r) hk)
  rwa [hset] at h2

end Spec

namespace Model.DiscreteDAG

open Spec Model Model.DAG
open scoped NNReal

variable {α : Type} [DecidableEq α] {G : DAG α} {W : α → α → ℝ}

/-- The network on `G` with two values for each node and the weights `W`. -/
noncomputable def binary (G : DAG α) (W : α → α → ℝ) : DiscreteDAG α :=
  { dag := G
    pars := fun v => (G.parents v).toList
    alph := fun _ => [0, 1]
    cond := fun v => ⟨((G.parents v).toList ++ [v]).map fun _ => 2, fun idx =>
      Real.toNNReal ((1 + sg (idx.getD (((G.parents v).toList ++ [v]).idxOf v) 0) *
        lean G.nodes W v fun u => idx.getD (((G.parents v).toList ++ [v]).idxOf u) 0) / 2)⟩ }

theorem binary_cond (hG : G.Valid) (hW : ∀ p v, W p v ≠ 0 → G.E p v) (v : α) (x : α → ℕ) :
    ((binary G W).cond v).val (((binary G W).pars v ++ [v]).map x) = Real.toNNReal ((1 + sg (x v) * lean G.nodes W v x) / 2) := by
  change Real.toNNReal ((1 + sg ((((G.parents v).toList ++ [v]).map x).getD (((G.parents v).toList ++ [v]).idxOf v) 0) *
        lean G.nodes W v fun u => (((G.parents v).toList ++ [v]).map x).getD (((G.parents v).toList ++ [v]).idxOf u) 0) / 2) = _
  rw [getD_map_idxOf (by simp) x]
  congr 4
  show lean G.nodes W v _ = lean G.nodes W v x
  unfold Spec.lean
  refine Finset.sum_congr rfl fun p _ => ?_
  by_cases h : W p v = 0
  · rw [h, zero_mul, zero_mul]
  · beta_reduce
    rw [getD_map_idxOf _ x]
    rw [List.mem_append, Finset.mem_toList]
    exact Or.inl ((hG.parents_iff p v).2 (hW p v h))

theorem binary_shaped (hG : G.Valid) : (binary G W).Shaped :=
  ⟨hG, fun v _ => Finset.nodup_toList _, fun v _ u => by
    change u ∈ (G.parents v).toList ↔ _
    rw [Finset.mem_toList]
    exact hG.parents_iff u v, fun v _ => rfl⟩

theorem binary_proper (hG : G.Valid) (hW : ∀ p v, W p v ≠ 0 → G.E p v) (hs : Small G.nodes W) : (binary G W).Proper := by
  refine ⟨binary_shaped hG, fun v hv x _ => ?_⟩
  have hvp : v ∉ (binary G W).pars v := fun h => hG.acyclic.irrefl (((binary_shaped hG).pars_iff v hv v).1 h)
  have e : ∀ i, ((binary G W).cond v).val (((binary G W).pars v).map x ++ [i]) = Real.toNNReal ((1 + sg i * lean G.nodes W v x) / 2) := by
    intro i
    have e1 : ((binary G W).pars v).map x ++ [i] = ((binary G W).pars v ++ [v]).map (Function.update x v i) := by
      rw [List.map_append, List.map_singleton, Function.update_self]
      congr 1
      exact List.map_congr_left fun u hu => (Function.update_of_ne (ne_of_mem_of_not_mem hu hvp) _ _).symm
    rw [e1, binary_cond hG hW, Function.update_self]
    congr 4
    refine Finset.sum_congr rfl fun p _ => ?_
    by_cases h : p = v
    · subst h
      have : W p p = 0 := by by_contra h; exact hG.acyclic.irrefl (hW _ _ h)
      rw [this, zero_mul, zero_mul]
    · rw [Function.update_of_ne h]
  have hd : (binary G W).dims v = 2 := rfl
  simp only [hd, e]
  rw [Finset.sum_range_succ, Finset.sum_range_one, ← Real.toNNReal_add]
  · rw [← Real.toNNReal_one]
    congr 1
    simp [sg]
    ring
  · have := hs.factor v (Function.update x v 0)
    have h2 := neg_le_of_abs_le (hs.lean_le v x)
    have h3 := le_of_abs_le (hs.lean_le v x)
    simp only [sg, if_true]
    linarith
  · have h2 := neg_le_of_abs_le (hs.lean_le v x)
    simp [sg]
    linarith

theorem binary_cut (hG : G.Valid) (hW : ∀ p v, W p v ≠ 0 → G.E p v) (hs : Small G.nodes W) : (binary G W).Cut := by
  intro v hv x _
  right
  rw [binary_cond hG hW, ← NNReal.coe_lt_coe, Real.coe_toNNReal _ (le_trans (by norm_num) (hs.factor v x))]
  refine lt_of_lt_of_le ?_ (hs.factor v x)
  norm_num

theorem binary_law (hG : G.Valid) (hW : ∀ p v, W p v ≠ 0 → G.E p v) (hs : Small G.nodes W) (y : α → ℕ) :
    ((binary G W).law y : ℝ) = wt G.nodes W y := by
  rw [law_eq, wt, NNReal.coe_prod]
  refine Finset.prod_congr rfl fun v _ => ?_
  rw [kern, binary_cond hG hW, Real.coe_toNNReal _ (le_trans (by norm_num) (hs.factor v y))]

theorem binary_pr (hG : G.Valid) (hW : ∀ p v, W p v ≠ 0 → G.E p v) (hs : Small G.nodes W) {S : List α} (hS : ∀ v ∈ S, v ∈ G.nodes) :
    ((binary G W).pr S (fun _ => 1) : ℝ) = Br G.nodes W S.toFinset fun _ => 1 := by
  classical
  unfold pr prob Br Ex
  rw [NNReal.coe_sum, Finset.sum_filter]
  refine Finset.sum_congr rfl fun y hy => ?_
  beta_reduce
  rw [binary_law hG hW hs]
  have hlt := (mem_assignments.1 hy).1
  by_cases h : ∀ v ∈ S, y v = 1
  · have : ic S.toFinset y = 1 := Finset.prod_eq_one fun c hc => by rw [h c (List.mem_toFinset.1 hc)]; norm_num [sg]
    rw [if_pos h, this]; ring
  · rw [if_neg h]
    push Not at h
    obtain ⟨v, hv, h⟩ := h
    have h2 : y v < 2 := hlt v (hS v hv)
    have h0 : y v = 0 := by omega
    have : ic S.toFinset y = 0 := Finset.prod_eq_zero (List.mem_toFinset.2 hv) (by rw [h0]; norm_num [sg])
    rw [this]; ring

theorem binary_dep (hG : G.Valid) (hW : ∀ p v, W p v ≠ 0 → G.E p v) (hs : Small G.nodes W) {i j : α} {C : List α}
    (hnd : (i :: j :: C).Nodup) (hn : ∀ v ∈ i :: j :: C, v ∈ G.nodes) :
    4 * (((binary G W).pr (i :: j :: C) fun _ => 1) * ((binary G W).pr C fun _ => 1) -
      ((binary G W).pr (i :: C) fun _ => 1) * ((binary G W).pr (j :: C) fun _ => 1) : ℝ) = Dep G.nodes W C.toFinset i j := by
  have sC : ∀ v ∈ C, v ∈ G.nodes := fun v hv => hn v (by simp [hv])
  have hjC : j ∉ C.toFinset := by
    rw [List.mem_toFinset]; exact (List.nodup_cons.1 (List.nodup_cons.1 hnd).2).1
  have hiC : i ∉ C.toFinset := by
    rw [List.mem_toFinset]; exact fun h => (List.nodup_cons.1 hnd).1 (by simp [h])
  have hij : i ∉ insert j C.toFinset := by
    have := (List.nodup_cons.1 hnd).1
    simpa using this
  rw [binary_pr hG hW hs hn, binary_pr hG hW hs sC, binary_pr hG hW hs (S := i :: C) (fun v hv => hn v (by simp at hv ⊢; tauto)),
    binary_pr hG hW hs (S := j :: C) (fun v hv => hn v (by simp at hv ⊢; tauto))]
  simp only [List.toFinset_cons]
  have h1 := Br_insert (N := G.nodes) (W := W) hij fun _ => (1 : ℝ)
  have h2 := Br_insert (N := G.nodes) (W := W) hjC fun _ => (1 : ℝ)
  have h3 := Br_insert (N := G.nodes) (W := W) hiC fun _ => (1 : ℝ)
  have h4 := Br_insert (N := G.nodes) (W := W) hjC fun y => sg (y i)
  simp only [one_mul] at h1 h2 h3
  unfold Dep
  have e1 : Br G.nodes W (insert i (insert j C.toFinset)) (fun _ => 1) = (Br G.nodes W C.toFinset (fun _ => 1) +
      Br G.nodes W C.toFinset (fun y => sg (y j)) + Br G.nodes W C.toFinset (fun y => sg (y i)) +
      Br G.nodes W C.toFinset fun y => sg (y i) * sg (y j)) / 4 := by linarith
  have e2 : Br G.nodes W (insert j C.toFinset) (fun _ => 1) = (Br G.nodes W C.toFinset (fun _ => 1) +
      Br G.nodes W C.toFinset fun y => sg (y j)) / 2 := by linarith
  have e3 : Br G.nodes W (insert i C.toFinset) (fun _ => 1) = (Br G.nodes W C.toFinset (fun _ => 1) +
      Br G.nodes W C.toFinset fun y => sg (y i)) / 2 := by linarith
  rw [e1, e2, e3]
  ring

theorem exists_weights (hG : G.Valid) :
    ∃ W : α → α → ℝ, (∀ p v, W p v ≠ 0 → G.E p v) ∧ Small G.nodes W ∧ Dependent G.E (G.nodes : Set α) G.nodes W := by
  obtain ⟨l, -, hl⟩ := topologicalSort_ok G (SetOrder.any _ _) hG
  exact exists_dependent (N := G.nodes) hG.acyclic (fun a b h => hG.fst_mem a b h) (r := fun v => l.idxOf v)
    (fun a ha b hb h => (List.idxOf_inj ((hl.mem_iff a).2 ha)).1 h) fun a b h => idxOf_lt_of_sublist hl.nodup (hl.before _ _ h)

/-- Every graph has tables with two values for each node such that two nodes are independent given others only if they are separated. -/
theorem exists_binary (hG : G.Valid) : ∃ D : DiscreteDAG α, D.dag = G ∧ D.Proper ∧ D.Cut ∧ (∀ v, D.alph v = [0, 1]) ∧
    ∀ (i j : α) (C : List α), (i :: j :: C).Nodup → (∀ v ∈ i :: j :: C, v ∈ G.nodes) →
      D.pr (i :: j :: C) (fun _ => 1) * D.pr C (fun _ => 1) = D.pr (i :: C) (fun _ => 1) * D.pr (j :: C) (fun _ => 1) →
      DSep G.E {i} {j} {v | v ∈ C} := by
  obtain ⟨W, h1, h2, h3⟩ := exists_weights hG
  refine ⟨binary G W, rfl, binary_proper hG h1 h2, binary_cut hG h1 h2, fun _ => rfl, fun i j C hnd hn h => ?_⟩
  by_contra hd
  have hnd2 := List.nodup_cons.1 hnd
  refine h3 i j C.toFinset (hn i (by simp)) (hn j (by simp)) (fun v hv => hn v (by simp at hv; simp [hv])) ?_ ?_ ?_ ?_ ?_
  · rintro rfl; exact hnd2.1 (by simp)
  · rw [List.mem_toFinset]; exact fun h => hnd2.1 (by simp [h])
  · rw [List.mem_toFinset]; exact (List.nodup_cons.1 hnd2.2).1
  · rwa [List.coe_toFinset]
  · rw [← binary_dep hG h1 h2 hnd hn]
    have : ((((binary G W).pr (i :: j :: C) fun _ => 1) * ((binary G W).pr C fun _ => 1) : ℝ≥0) : ℝ) =
      (((binary G W).pr (i :: C) fun _ => 1) * ((binary G W).pr (j :: C) fun _ => 1) : ℝ≥0) := by rw [h]
    push_cast at this
    rw [this]; ring

end Model.DiscreteDAG
