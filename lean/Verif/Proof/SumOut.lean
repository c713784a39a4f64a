import Verif.Prelude
import Verif.Spec.Bayes
import Mathlib.Algebra.BigOperators.Group.Finset.Sigma
import Mathlib.Algebra.BigOperators.Ring.Finset

/-! # Summing out variables -/

set_option linter.unusedSectionVars false

namespace Spec

variable {α R : Type} [DecidableEq α]

/-- Sum over the values below `d v` of the variables `v` in a list. -/
def sumL [AddCommMonoid R] (d : α → ℕ) : List α → ((α → ℕ) → R) → (α → ℕ) → R
  | [], f, x => f x
  | v :: l, f, x => ∑ i ∈ Finset.range (d v), sumL d l f (Function.update x v i)

/-- `f` looks only at the variables in `S`. -/
def LooksAt (f : (α → ℕ) → R) (S : Set α) : Prop := ∀ x y, (∀ v ∈ S, x v = y v) → f x = f y

section Add
variable [AddCommMonoid R] {d : α → ℕ}

theorem sumL_congr {l : List α} {f g : (α → ℕ) → R} {x : α → ℕ}
    (h : ∀ y, (∀ v ∈ l, y v < d v) → (∀ v, v ∉ l → y v = x v) → f y = g y) : sumL d l f x = sumL d l g x := by
  induction l generalizing x with
  | nil => exact h x (by simp) (by simp)
  | cons a l ih =>
    refine Finset.sum_congr rfl fun i hi => ih fun y h1 h2 => h y ?_ ?_
    · intro v hv
      by_cases hl : v ∈ l
      · exact h1 v hl
      · have : v = a := by simpa [hl] using hv
        subst this
        rw [h2 v hl, Function.update_self]; exact Finset.mem_range.1 hi
    · intro v hv
      rw [List.mem_cons, not_or] at hv
      rw [h2 v hv.2, Function.update_of_ne hv.1]

theorem sumL_append (l l' : List α) (f : (α → ℕ) → R) (x : α → ℕ) :
    sumL d (l ++ l') f x = sumL d l (sumL d l' f) x := by
  induction l generalizing x with
  | nil => rfl
  | cons a l ih => exact Finset.sum_congr rfl fun i _ => ih _

theorem sumL_perm {l l' : List α} (h : l.Perm l') (f : (α → ℕ) → R) (x : α → ℕ) : sumL d l f x = sumL d l' f x := by
  induction h generalizing x with
  | nil => rfl
  | cons a _ ih => exact Finset.sum_congr rfl fun i _ => ih _
  | swap a b l =>
    by_cases hab : a = b
    · subst hab; rfl
    · change ∑ i ∈ _, ∑ j ∈ _, _ = ∑ j ∈ _, ∑ i ∈ _, _
      rw [Finset.sum_comm]
      refine Finset.sum_congr rfl fun i _ => Finset.sum_congr rfl fun j _ => ?_
      rw [Function.update_comm hab]
  | trans _ _ h1 h2 => rw [h1, h2]

theorem sumL_base {l : List α} {f : (α → ℕ) → R} {S : Set α} (hf : LooksAt f S) {x x' : α → ℕ}
    (h : ∀ v ∈ S, v ∉ l → x v = x' v) : sumL d l f x = sumL d l f x' := by
  induction l generalizing x x' with
  | nil => exact hf _ _ fun v hv => h v hv (by simp)
  | cons a l ih =>
    refine Finset.sum_congr rfl fun i _ => ih fun v hv hl => ?_
    by_cases hva : v = a
    · subst hva; simp
    · rw [Function.update_of_ne hva, Function.update_of_ne hva]; exact h v hv (by simp [hva, hl])

theorem LooksAt.mono {f : (α → ℕ) → R} {S T : Set α} (h : LooksAt f S) (hST : S ⊆ T) : LooksAt f T :=
  fun x y hxy => h x y fun v hv => hxy v (hST hv)

theorem LooksAt.update {f : (α → ℕ) → R} {S : Set α} (h : LooksAt f S) {v : α} (hv : v ∉ S) (x : α → ℕ) (i : ℕ) :
    f (Function.update x v i) = f x := by
  refine h _ _ fun u hu => Function.update_of_ne (fun e => ?_) _ _
  exact hv (e ▸ hu)

theorem dependsOn_sumL {l : List α} {f : (α → ℕ) → R} {S : Set α} (hf : LooksAt f S) :
    LooksAt (sumL d l f) (S \ {v | v ∈ l}) := fun _ _ h =>
  sumL_base hf fun v hv hl => h v ⟨hv, hl⟩

/-- Sums over assignments as iterated sums. -/
theorem sum_assignments (V : Finset α) (f : (α → ℕ) → R) :
    ∑ y ∈ assignments V d, f y = sumL d V.toList f fun _ => 0 := by
  classical
  suffices H : ∀ (l : List α) (hl : l.Nodup) (x : α → ℕ) (S : Finset (α → ℕ)),
      (∀ y, y ∈ S ↔ (∀ v ∈ l, y v < d v) ∧ ∀ v, v ∉ l → y v = x v) → ∑ y ∈ S, f y = sumL d l f x by
    refine H V.toList V.nodup_toList _ _ fun y => ?_
    simp [mem_assignments]
  intro l
  induction l with
  | nil =>
    intro _ x S hS
    have : S = {x} := by
      ext y; rw [hS]; simp only [List.not_mem_nil, false_implies, implies_true, not_false_eq_true, true_and, forall_const,
        Finset.mem_singleton]
      exact ⟨fun h => funext h, fun h v => by rw [h]⟩
    simp [this, sumL]
  | cons a l ih =>
    intro hl x S hS
    rw [List.nodup_cons] at hl
    have hm : ∀ y ∈ S, y a ∈ Finset.range (d a) := fun y hy => Finset.mem_range.2 (((hS y).1 hy).1 a (by simp))
    rw [← Finset.sum_fiberwise_of_maps_to hm]
    refine Finset.sum_congr rfl fun i hi => ih hl.2 _ _ fun y => ?_
    rw [Finset.mem_filter, hS]
    constructor
    · rintro ⟨⟨h1, h2⟩, h3⟩
      refine ⟨fun v hv => h1 v (by simp [hv]), fun v hv => ?_⟩
      by_cases hva : v = a
      · subst hva; rw [h3, Function.update_self]
      · rw [Function.update_of_ne hva]; exact h2 v (by simp [hva, hv])
    · rintro ⟨h1, h2⟩
      have h3 : y a = i := by rw [h2 a hl.1, Function.update_self]
      refine ⟨⟨fun v hv => ?_, fun v hv => ?_⟩, h3⟩
      · rcases List.mem_cons.1 hv with rfl | hv
        · rw [h3]; exact Finset.mem_range.1 hi
        · exact h1 v hv
      · rw [List.mem_cons, not_or] at hv
        rw [h2 v hv.2, Function.update_of_ne hv.1]

open scoped Classical in
theorem prob_eq_sumL (V : Finset α) (p : (α → ℕ) → R) (A : (α → ℕ) → Prop) :
    prob V d p A = sumL d V.toList (fun y => if A y then p y else 0) fun _ => 0 := by
  rw [prob, Finset.sum_filter]
  convert sum_assignments (d := d) V _

theorem sumL_zero (l : List α) (x : α → ℕ) : sumL d l (fun _ => (0 : R)) x = 0 := by
  induction l generalizing x with
  | nil => rfl
  | cons a l ih => exact Finset.sum_eq_zero fun i _ => ih _

/-- Summing over the variables that are fixed by an event. -/
theorem sumL_fixed {l : List α} (hl : l.Nodup) {x : α → ℕ} (hx : ∀ v ∈ l, x v < d v) {f : (α → ℕ) → R} {z : α → ℕ}
    (h0 : ∀ y, (∃ v ∈ l, y v ≠ x v) → f y = 0) :
    sumL d l f z = f fun v => if v ∈ l then x v else z v := by
  induction l generalizing z f with
  | nil => simp [sumL]
  | cons a l ih =>
    rw [List.nodup_cons] at hl
    rw [sumL, Finset.sum_eq_single (x a)]
    · rw [ih hl.2 (fun v hv => hx v (by simp [hv])) fun y ⟨v, hv, h⟩ => h0 y ⟨v, by simp [hv], h⟩]
      congr 1; funext v
      by_cases hva : v = a
      · subst hva; simp [hl.1]
      · simp [hva]
    · intro i _ hi
      rw [sumL_congr (g := fun _ => 0)]
      · exact sumL_zero _ _
      · intro y _ hy
        refine h0 y ⟨a, by simp, ?_⟩
        rw [hy a hl.1, Function.update_self]; exact hi
    · intro h
      exact absurd (Finset.mem_range.2 (hx a (by simp))) h

end Add

section Ring
variable [CommSemiring R] {d : α → ℕ}

theorem sumL_mul {l : List α} {f g : (α → ℕ) → R} {S : Set α} (hg : LooksAt g S) (h : ∀ v ∈ l, v ∉ S) (x : α → ℕ) :
    sumL d l (fun y => f y * g y) x = sumL d l f x * g x := by
  induction l generalizing x with
  | nil => rfl
  | cons a l ih =>
    rw [sumL, sumL, Finset.sum_mul]
    refine Finset.sum_congr rfl fun i _ => ?_
    rw [ih (fun v hv => h v (by simp [hv])), hg.update (h a (by simp))]

/-- Kernels `p v` looking at `pars v` and `v`: the last variables of an order can be summed out. -/
theorem sumL_kernels {p : α → (α → ℕ) → R} {pars : α → Set α} (hp : ∀ v, LooksAt (p v) (insert v (pars v)))
    {base : List α} (l : List α) (hnd : (base ++ l).Nodup)
    (hord : ∀ r v s, l = r ++ v :: s → ∀ u ∈ base ++ r, v ∉ pars u)
    (hpre : ∀ r v s, l = r ++ v :: s → ∀ u ∈ pars v, u ∈ base ++ r)
    (h1 : ∀ v ∈ l, ∀ y : α → ℕ, (∀ u ∈ pars v, y u < d u) → ∑ i ∈ Finset.range (d v), p v (Function.update y v i) = 1)
    (x : α → ℕ) (hx : ∀ u ∈ base, x u < d u) :
    sumL d l (fun y => ((base ++ l).map fun v => p v y).prod) x = (base.map fun v => p v x).prod := by
  suffices H : ∀ s r : List α, l = r ++ s → sumL d r (sumL d s fun y => ((base ++ l).map fun v => p v y).prod) x =
      sumL d r (fun y => ((base ++ r).map fun v => p v y).prod) x by
    have := H l [] rfl
    simp only [sumL, List.append_nil] at this
    exact this
  intro s
  induction s with
  | nil => intro r hr; rw [List.append_nil] at hr; subst hr; rfl
  | cons v s ih =>
    intro r hr
    have := ih (r ++ [v]) (by simp [hr])
    rw [sumL_append, sumL_append] at this
    have e : sumL d r (sumL d (v :: s) fun y => ((base ++ l).map fun v => p v y).prod) x =
        sumL d r (sumL d [v] (sumL d s fun y => ((base ++ l).map fun v => p v y).prod)) x := rfl
    rw [e, this]
    refine sumL_congr (R := R) fun y hy1 hy2 => ?_
    have hv : v ∉ base ++ r := by
      rw [hr, ← List.append_assoc] at hnd
      exact fun hm => List.disjoint_of_nodup_append hnd hm (by simp)
    have hdep : LooksAt (fun y => ((base ++ r).map fun u => p u y).prod) {u | u ≠ v} := by
      intro a b hab
      refine congrArg List.prod (List.map_congr_left fun u hu => hp u _ _ fun w hw => hab w ?_)
      rintro rfl
      rcases hw with rfl | hw
      · exact hv hu
      · exact hord r w s hr u hu hw
    change ∑ i ∈ Finset.range (d v), ((base ++ (r ++ [v])).map fun u => p u (Function.update y v i)).prod = _
    have hsum : ∑ i ∈ Finset.range (d v), p v (Function.update y v i) = 1 := by
      refine h1 v (by simp [hr]) y fun u hu => ?_
      by_cases hur : u ∈ r
      · exact hy1 u hur
      · have hub : u ∈ base := by simpa [hur] using hpre r v s hr u hu
        rw [hy2 u hur]; exact hx u hub
    rw [← mul_one (List.prod _), ← hsum, Finset.mul_sum]
    refine Finset.sum_congr rfl fun i _ => ?_
    rw [← List.append_assoc, List.map_append, List.prod_append]
    have := hdep.update (v := v) (by simp) y i
    rw [this]; simp

/-- The probability of an event that fixes the variables in `M`: the other variables of an ancestral set `A ⊇ M` are summed out
of the kernels of `A`. -/
theorem prob_marginal {p : α → (α → ℕ) → R} {pars : α → Set α} (hp : ∀ v, LooksAt (p v) (insert v (pars v)))
    {V : Finset α} {A l M gone : List α} (hV : (A ++ l).Perm V.toList) (hA : (M ++ gone).Perm A)
    (hcl : ∀ u ∈ A, ∀ w ∈ pars u, w ∈ A)
    (hord : ∀ r v s, l = r ++ v :: s → ∀ u ∈ A ++ r, v ∉ pars u)
    (hpre : ∀ r v s, l = r ++ v :: s → ∀ u ∈ pars v, u ∈ A ++ r)
    (h1 : ∀ v ∈ l, ∀ y : α → ℕ, (∀ u ∈ pars v, y u < d u) → ∑ i ∈ Finset.range (d v), p v (Function.update y v i) = 1)
    (x : α → ℕ) (hx : ∀ u ∈ M, x u < d u) :
    prob V d (fun y => ∏ v ∈ V, p v y) (fun y => ∀ v ∈ M, y v = x v) =
      sumL d gone (fun y => (A.map fun v => p v y).prod) x := by
  classical
  have hnd : (A ++ l).Nodup := hV.nodup_iff.2 V.nodup_toList
  have hndA : (M ++ gone).Nodup := hA.nodup_iff.2 hnd.of_append_left
  have hperm : V.toList.Perm (M ++ (gone ++ l)) := by
    rw [← List.append_assoc]; exact hV.symm.trans (hA.symm.append_right l)
  have hprod : ∀ y, ∏ v ∈ V, p v y = ((A ++ l).map fun v => p v y).prod := by
    intro y
    rw [← Finset.prod_map_toList]
    exact ((hV.map _).prod_eq).symm
  have hmem : ∀ v, v ∈ M ∨ v ∈ gone ↔ v ∈ A := fun v => by rw [← hA.mem_iff, List.mem_append]
  have hdep : LooksAt (fun y => (A.map fun v => p v y).prod) {v | v ∈ A} := by
    intro a b hab
    refine congrArg List.prod (List.map_congr_left fun u hu => hp u _ _ fun w hw => hab w ?_)
    rcases hw with rfl | hw
    · exact hu
    · exact hcl u hu w hw
  rw [prob_eq_sumL, sumL_perm hperm, sumL_append, sumL_fixed (x := x) (List.nodup_append.1 hndA).1 hx]
  · set z : α → ℕ := fun v => if v ∈ M then x v else 0 with hz
    have hzx : ∀ v ∈ M, z v = x v := fun v hv => by simp [hz, hv]
    have hfix : ∀ y : α → ℕ, (∀ v, v ∉ gone ++ l → y v = z v) → ∀ v ∈ M, y v = x v := by
      intro y hy v hv
      rw [← hzx v hv]
      refine hy v fun hm => ?_
      rcases List.mem_append.1 hm with hm | hm
      · exact List.disjoint_of_nodup_append hndA hv hm
      · exact List.disjoint_of_nodup_append hnd ((hmem v).1 (Or.inl hv)) hm
    rw [sumL_congr (g := fun y => ((A ++ l).map fun v => p v y).prod)
      (fun y _ hy => by rw [if_pos (hfix y hy), hprod]), sumL_append]
    rw [sumL_base (f := fun y => (A.map fun v => p v y).prod) hdep (x := x) (x' := z)
      (fun v hv hg => (hzx v (((hmem v).2 hv).resolve_right hg)).symm)]
    refine sumL_congr (R := R) fun y hy1 hy2 => sumL_kernels hp l hnd hord hpre h1 y fun u hu => ?_
    by_cases hg : u ∈ gone
    · exact hy1 u hg
    · have hm := ((hmem u).2 hu).resolve_right hg
      rw [hy2 u hg, hzx u hm]; exact hx u hm
  · rintro y ⟨v, hv, hne⟩
    rw [sumL_congr (R := R) (g := fun _ => 0)]
    · exact sumL_zero _ _
    · intro y' _ hy'
      refine if_neg fun h => hne ?_
      rw [← h v hv]
      refine (hy' v fun hm => ?_).symm
      rcases List.mem_append.1 hm with hm | hm
      · exact List.disjoint_of_nodup_append hndA hv hm
      · exact List.disjoint_of_nodup_append hnd ((hmem v).1 (Or.inl hv)) hm

end Ring

end Spec
