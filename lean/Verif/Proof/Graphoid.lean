import Verif.Proof.Inducing

/-! # m-separation is a compositional graphoid -/

namespace Spec.Mixed

universe u
variable {α : Type u} {M : Mixed α} {A B C D : Set α}
open Relation

theorem msep_moves (h : M.Proper) (hAC : Disjoint A C) :
    M.MSep A B C ↔ ∀ a ∈ A, ∀ t : α × Bool, t.1 ∈ B → ¬ ReflTransGen (M.mg.Move C) (a, false) t := by
  rw [msep_iff h.ok]
  constructor
  · intro hs a ha t ht hr
    obtain ⟨l, hl, -⟩ := MG.walk_of_moves (b := t.1) (d := t.2) hr
    exact hs a ha _ ht ⟨l, hl⟩
  · rintro hs a ha b hb ⟨l, hl⟩
    obtain ⟨d, hd, -⟩ := MG.moves_of_walk (Set.disjoint_left.1 hAC ha) l b hl
    exact hs a ha (b, d) hb hd

theorem msep_comm (h : M.Proper) (hs : M.MSep A B C) : M.MSep B A C := by
  rw [msep_iff h.ok] at hs ⊢
  rintro a ha b hb ⟨l, hl⟩
  exact hs b hb a ha ⟨_, hl.reverse h.ok⟩

theorem msep_mono {A' B' : Set α} (hA : A' ⊆ A) (hB : B' ⊆ B) (h : M.MSep A B C) : M.MSep A' B' C :=
  fun a ha b hb => h a (hA ha) b (hB hb)

/-- Composition. -/
theorem msep_union (h1 : M.MSep A B C) (h2 : M.MSep A D C) : M.MSep A (B ∪ D) C :=
  fun a ha b hb => hb.elim (fun hb => h1 a ha b hb) (fun hb => h2 a ha b hb)

theorem an_union {v : α} (h : M.mg.An C v) : M.mg.An (C ∪ D) v := let ⟨c, hc, k⟩ := h; ⟨c, Or.inl hc, k⟩

theorem msep_weak_union (h : M.Proper) (hAC : Disjoint A C) (hAD : Disjoint A D) (hs : M.MSep A (B ∪ D) C) :
    M.MSep A B (C ∪ D) := by
  rw [msep_moves h hAC] at hs
  rw [msep_moves h (Set.disjoint_union_right.2 ⟨hAC, hAD⟩)]
  intro a ha t ht hr
  suffices ReflTransGen (M.mg.Move C) (a, false) t ∨ ∃ d ∈ D, ReflTransGen (M.mg.Move C) (a, false) (d, true) by
    rcases this with k | ⟨d, hd, k⟩
    · exact hs a ha t (Or.inl ht) k
    · exact hs a ha (d, true) (Or.inr hd) k
  clear ht
  induction hr with
  | refl => exact Or.inl .refl
  | @tail s t _ hm ih =>
    rcases ih with ih | ih
    · obtain ⟨h1, h2, h3, h4⟩ := hm
      by_cases hc : s.2 = true ∧ M.mg.into t.1 s.1
      · by_cases hA : M.mg.An C s.1
        · exact Or.inl (ih.tail ⟨h1, h2, fun _ => hA, fun k => absurd hc k⟩)
        · obtain ⟨d, hd | hd, hp⟩ := h3 hc
          · exact absurd ⟨d, hd, hp⟩ hA
          · refine Or.inr ⟨d, hd, ?_⟩
            rcases reflTransGen_iff_eq_or_transGen.1 hp with e | hp
            · rw [e, ← hc.1]; exact ih
            · exact ih.trans (go_down h hp hA s.2)
      · exact Or.inl (ih.tail ⟨h1, h2, fun k => absurd k hc, fun k hs => h4 k (Or.inl hs)⟩)
    · exact Or.inr ih

/-- A move of the ball from a node outside `D` is still possible when `D` is added to the conditioning set. -/
theorem move_union {s t : α × Bool} (hm : M.mg.Move C s t) (hs : s.1 ∉ D) : M.mg.Move (C ∪ D) s t :=
  ⟨hm.1, hm.2.1, fun k => an_union (hm.2.2.1 k), fun k e => e.elim (hm.2.2.2 k) hs⟩

theorem msep_contraction (h : M.Proper) (hAC : Disjoint A C) (hAB : Disjoint A B) (h1 : M.MSep A B C)
    (h2 : M.MSep A D (C ∪ B)) : M.MSep A (B ∪ D) C := by
  rw [msep_moves h hAC] at h1 ⊢
  rw [msep_moves h (Set.disjoint_union_right.2 ⟨hAC, hAB⟩)] at h2
  intro a ha t ht hr
  have : ReflTransGen (M.mg.Move (C ∪ B)) (a, false) t := by
    clear ht
    induction hr with
    | refl => exact .refl
    | @tail s t hs hm ih => exact ih.tail (move_union hm fun k => h1 a ha s k hs)
  exact ht.elim (fun k => h1 a ha t k hr) fun k => h2 a ha t k this

theorem msep_intersection (h : M.Proper) (hAB : Disjoint A B) (hAC : Disjoint A C) (hAD : Disjoint A D)
    (h1 : M.MSep A B (C ∪ D)) (h2 : M.MSep A D (C ∪ B)) : M.MSep A (B ∪ D) C := by
  rw [msep_moves h (Set.disjoint_union_right.2 ⟨hAC, hAD⟩)] at h1
  rw [msep_moves h (Set.disjoint_union_right.2 ⟨hAC, hAB⟩)] at h2
  rw [msep_moves h hAC]
  intro a ha t ht hr
  suffices ∀ t, ReflTransGen (M.mg.Move C) (a, false) t → ReflTransGen (M.mg.Move (C ∪ B)) (a, false) t ∧
      ReflTransGen (M.mg.Move (C ∪ D)) (a, false) t by
    obtain ⟨k1, k2⟩ := this t hr
    exact ht.elim (fun k => h1 a ha t k k2) fun k => h2 a ha t k k1
  intro t hr
  induction hr with
  | refl => exact ⟨.refl, .refl⟩
  | @tail s t _ hm ih =>
    exact ⟨ih.1.tail (move_union hm fun k => h1 a ha s k ih.2), ih.2.tail (move_union hm fun k => h2 a ha s k ih.1)⟩

/-- Conditioning on one of the two nodes makes no difference. -/
theorem msep_insert (h : M.Proper) {i j : α} {Z : Set α} (hi : i ∉ Z) (hij : i ≠ j) :
    M.MSep {i} {j} (insert j Z) ↔ M.MSep {i} {j} Z := by
  have e : insert j Z = Z ∪ {j} := by rw [Set.union_singleton]
  rw [e]
  constructor
  · intro hs
    rw [msep_moves h (by simp [hi, hij])] at hs
    rw [msep_moves h (by simpa using hi)]
    intro a ha t ht hr
    have : (∃ t : α × Bool, t.1 ∈ ({j} : Set α) ∧ ReflTransGen (M.mg.Move (Z ∪ {j})) (a, false) t) ∨
        ReflTransGen (M.mg.Move (Z ∪ {j})) (a, false) t := by
      clear ht
      induction hr with
      | refl => exact Or.inr .refl
      | @tail s t _ hm ih =>
        rcases ih with ih | ih
        · exact Or.inl ih
        · by_cases hs : s.1 ∈ ({j} : Set α)
          · exact Or.inl ⟨s, hs, ih⟩
          · exact Or.inr (ih.tail (move_union hm hs))
    rcases this with ⟨t, k1, k2⟩ | k
    · exact hs a ha t k1 k2
    · exact hs a ha t ht k
  · intro hs
    exact msep_weak_union h (by simpa using hi) (by simpa using hij) (by simpa using hs)

end Spec.Mixed
