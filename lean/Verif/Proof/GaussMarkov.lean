import Verif.Proof.Gauss
import Verif.Proof.Moral
import Mathlib.Algebra.Order.Field.Basic
import Mathlib.Algebra.Order.BigOperators.Group.Finset
import Mathlib.Tactic.Ring
import Mathlib.Tactic.Linarith

/-! # The global Markov property of a linear structural equation model -/

namespace Spec

open Relation

variable {ι K : Type} [Fintype ι] [DecidableEq ι] [Field K] [LinearOrder K] [IsStrictOrderedRing K]

/-- `(1 - A) z = x` is supported on the ancestors of the support of `x`. -/
theorem support_up {A : Matrix ι ι K} (hA : AcyclicWeights A) {x z : ι → K} (hz : ∀ i, x i = z i - ∑ j, A i j * z j)
    {T : Set ι} (hT : ∀ i j, A i j ≠ 0 → j ∈ T → i ∈ T) (hx : ∀ i, x i ≠ 0 → i ∈ T) (i : ι) (hi : i ∉ T) : z i = 0 := by
  have hw : WellFounded (fun j i => A i j ≠ 0) := by
    have : Acyclic fun j i => A i j ≠ 0 := by
      intro v hv
      exact hA v (transGen_swap.1 hv)
    exact Model.acyclic_wf this
  induction i using hw.induction with
  | _ i ih =>
    have h0 : x i = 0 := by by_contra h; exact hi (hx i h)
    have : ∑ j, A i j * z j = 0 := by
      refine Finset.sum_eq_zero fun j _ => ?_
      by_cases hij : A i j = 0
      · rw [hij, zero_mul]
      · rw [ih j hij fun hj => hi (hT i j hij hj), mul_zero]
    have := hz i
    rw [h0] at this
    linarith

/-- Core of the global Markov property. `x` is a linear combination of the variables `i`, `j` and `C` which is uncorrelated
with `i` and with `C`; `z` and `y` are its images under `(1 - A)⁻¹` and under the covariance matrix. If `i` and `j` are
d-separated by `C`, the coefficient of `i` vanishes. -/
theorem gauss_core {A : Matrix ι ι K} (hA : AcyclicWeights A) {v : ι → K} (hv : ∀ i, 0 < v i) {i j : ι} {C : Set ι}
    (hiC : i ∉ C) (hjC : j ∉ C) (hd : DSep (fun a b => A a b ≠ 0) {i} {j} C) {x z y : ι → K}
    (hz : ∀ a, x a = z a - ∑ b, A a b * z b) (hy : ∀ b, v b * z b = y b - ∑ a, A a b * y a)
    (hx : ∀ a, x a ≠ 0 → a = i ∨ a = j ∨ a ∈ C) (hyi : y i = 0) (hyC : ∀ c ∈ C, y c = 0) : x i = 0 := by
  classical
  let E : ι → ι → Prop := fun a b => A a b ≠ 0
  let T : Set ι := {a | ∃ s ∈ ({i} ∪ {j} ∪ C : Set ι), Path0 E a s}
  have hT : ∀ a b, A a b ≠ 0 → b ∈ T → a ∈ T := by
    rintro a b hab ⟨s, hs, hp⟩
    exact ⟨s, hs, .head hab hp⟩
  have hsub : ∀ s ∈ ({i} ∪ {j} ∪ C : Set ι), s ∈ T := fun s hs => ⟨s, hs, .refl⟩
  have hzT : ∀ a, a ∉ T → z a = 0 := support_up hA hz hT fun a ha => hsub a (by
    rcases hx a ha with rfl | rfl | h
    · simp
    · simp
    · simp [h])
  have hu := (dsep_iff_moral (E := E) (A := {i}) (B := {j}) (C := C) (T := T) hA (by simpa using hiC) (by simpa using hjC)
    (fun v => Iff.rfl)).1 hd
  rw [usep_iff (by simpa using hiC)] at hu
  have hij := hu i rfl j rfl
  let R : ι → ι → Prop := fun a b => MAdj (Restrict E T) a b ∧ b ∉ C
  let M : Finset ι := Finset.univ.filter fun a => ReflTransGen R i a
  have hM : ∀ a, a ∈ M ↔ ReflTransGen R i a := fun a => by simp [M]
  have hMC : ∀ a ∈ M, a ∉ C := fun a ha => mwalk_mem hiC ((hM a).1 ha)
  have hMT : ∀ a ∈ M, a ∈ T := by
    intro a ha
    rcases (hM a).1 ha with _ | ⟨_, h⟩
    · exact hsub i (by simp)
    · rcases h.1 with h | ⟨-, c, -, h⟩
      · rcases h with h | h
        · exact h.2.2
        · exact h.2.1
      · exact h.2.1
  have hstep : ∀ a ∈ M, ∀ b, MAdj (Restrict E T) a b → b ∈ M ∨ b ∈ C := by
    intro a ha b hab
    by_cases hb : b ∈ C
    · exact Or.inr hb
    · exact Or.inl ((hM b).2 (((hM a).1 ha).tail ⟨hab, hb⟩))
  let y' : ι → K := fun a => if a ∈ M then y a else 0
  -- families
  have hfam : ∀ b ∈ T, (∃ a ∈ M, a = b ∨ A a b ≠ 0) → y' b - ∑ a, A a b * y' a = v b * z b := by
    rintro b hbT ⟨a, ha, hab⟩
    have hall : ∀ c, (c = b ∨ A c b ≠ 0) → y' c = y c := by
      intro c hc
      by_cases hcM : c ∈ M
      · exact if_pos hcM
      · have hca : c ≠ a := by rintro rfl; exact hcM ha
        have hadj : MAdj (Restrict E T) a c := by
          rcases hab with rfl | hab
          · rcases hc with rfl | hc
            · exact absurd rfl hca
            · exact Or.inl (Or.inr ⟨hc, hT c _ hc hbT, hbT⟩)
          · rcases hc with rfl | hc
            · exact Or.inl (Or.inl ⟨hab, hT a _ hab hbT, hbT⟩)
            · exact Or.inr ⟨hca.symm, b, ⟨hab, hT a _ hab hbT, hbT⟩, ⟨hc, hT c _ hc hbT, hbT⟩⟩
        rcases hstep a ha c hadj with h | h
        · exact absurd h hcM
        · rw [hyC c h]; exact if_neg hcM
    rw [hy b, hall b (Or.inl rfl)]
    congr 1
    refine Finset.sum_congr rfl fun c _ => ?_
    by_cases hc : A c b = 0
    · rw [hc, zero_mul, zero_mul]
    · rw [hall c (Or.inr hc)]
  have hnone : ∀ b, ¬ (∃ a ∈ M, a = b ∨ A a b ≠ 0) → y' b - ∑ a, A a b * y' a = 0 := by
    intro b hb
    push Not at hb
    have h1 : y' b = 0 := if_neg fun h => (hb b h).1 rfl
    rw [h1, Finset.sum_eq_zero, sub_zero]
    intro a _
    by_cases ha : a ∈ M
    · rw [(hb a ha).2, zero_mul]
    · rw [show y' a = 0 from if_neg ha, mul_zero]
  have hsum : ∑ a, y' a * x a = ∑ b, z b * (y' b - ∑ a, A a b * y' a) := by
    simp only [hz, mul_sub, Finset.sum_sub_distrib, Finset.mul_sum]
    congr 1
    · exact Finset.sum_congr rfl fun _ _ => mul_comm _ _
    · rw [Finset.sum_comm]
      exact Finset.sum_congr rfl fun _ _ => Finset.sum_congr rfl fun _ _ => by ring
  have hzero : ∑ a, y' a * x a = 0 := by
    refine Finset.sum_eq_zero fun a _ => ?_
    by_cases ha : a ∈ M
    · by_cases hxa : x a = 0
      · rw [hxa, mul_zero]
      · rcases hx a hxa with rfl | rfl | h
        · rw [show y' a = y a from if_pos ha, hyi, zero_mul]
        · exact absurd ((hM a).1 ha) hij
        · exact absurd h (hMC a ha)
    · rw [show y' a = 0 from if_neg ha, zero_mul]
  have hterm : ∀ b, 0 ≤ z b * (y' b - ∑ a, A a b * y' a) := by
    intro b
    by_cases hb : ∃ a ∈ M, a = b ∨ A a b ≠ 0
    · by_cases hbT : b ∈ T
      · rw [hfam b hbT hb]
        have := mul_nonneg (hv b).le (mul_self_nonneg (z b))
        calc 0 ≤ v b * (z b * z b) := this
          _ = _ := by ring
      · rw [hzT b hbT, zero_mul]
    · rw [hnone b hb, mul_zero]
  have heach := (Finset.sum_eq_zero_iff_of_nonneg fun b _ => hterm b).1 (hsum ▸ hzero)
  have hzb : ∀ b, (∃ a ∈ M, a = b ∨ A a b ≠ 0) → z b = 0 := by
    intro b hb
    by_cases hbT : b ∈ T
    · have := heach b (Finset.mem_univ b)
      rw [hfam b hbT hb] at this
      rcases mul_eq_zero.1 this with h | h
      · exact h
      · rcases mul_eq_zero.1 h with h | h
        · exact absurd h (hv b).ne'
        · exact h
    · exact hzT b hbT
  have hiM : i ∈ M := (hM i).2 .refl
  rw [hz i, hzb i ⟨i, hiM, Or.inl rfl⟩, Finset.sum_eq_zero, sub_zero]
  intro b _
  by_cases hb : A i b = 0
  · rw [hb, zero_mul]
  · rw [hzb b ⟨i, hiM, Or.inr hb⟩, mul_zero]

end Spec
