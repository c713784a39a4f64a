import Verif.Proof.Queries

/-! # Perfect elimination orderings with a prescribed first vertex -/

namespace Spec

universe u
variable {α : Type u} {U : α → α → Prop}

/-- The neighbours of `v` inside `V` are pairwise adjacent. -/
def Simplicial (U : α → α → Prop) (V : Finset α) (v : α) : Prop :=
  ∀ x ∈ V, ∀ y ∈ V, U v x → U v y → x ≠ y → U x y

/-- `V` can be built up by adding one vertex after the other, each being simplicial when it is added. -/
inductive Elim [DecidableEq α] (U : α → α → Prop) : Finset α → Prop
  | empty : Elim U ∅
  | cons {v : α} {V : Finset α} : v ∉ V → Simplicial U V v → Elim U V → Elim U (insert v V)

theorem Simplicial.mono {V W : Finset α} (h : W ⊆ V) {v : α} (hv : Simplicial U V v) : Simplicial U W v :=
  fun x hx y hy => hv x (h hx) y (h hy)

variable [DecidableEq α]

theorem Elim.mono {V : Finset α} (hV : Elim U V) : ∀ {W : Finset α}, W ⊆ V → Elim U W := by
  induction hV with
  | empty => intro W h; rw [Finset.subset_empty] at h; subst h; exact .empty
  | cons hv hs _ ih =>
    rename_i v V _
    intro W h
    have hsub : W.erase v ⊆ V := by
      intro x hx
      rw [Finset.mem_erase] at hx
      exact (Finset.mem_insert.1 (h hx.2)).resolve_left hx.1
    by_cases hvW : v ∈ W
    · rw [← Finset.insert_erase hvW]
      exact .cons (Finset.notMem_erase _ _) (hs.mono hsub) (ih hsub)
    · rw [← Finset.erase_eq_of_notMem hvW]; exact ih hsub

/-- Dirac: complete, or two nonadjacent simplicial vertices. -/
theorem Elim.dirac (hsym : ∀ a b, U a b → U b a) (hirr : ∀ a, ¬ U a a) {V : Finset α} (hV : Elim U V) :
    (∀ x ∈ V, ∀ y ∈ V, x ≠ y → U x y) ∨
      ∃ x ∈ V, ∃ y ∈ V, x ≠ y ∧ ¬ U x y ∧ Simplicial U V x ∧ Simplicial U V y := by
  induction hV with
  | empty => left; simp
  | cons hv hs _ ih =>
    rename_i v V _
    have hsv : Simplicial U (insert v V) v := by
      intro x hx y hy h1 h2 h3
      refine hs x ((Finset.mem_insert.1 hx).resolve_left ?_) y ((Finset.mem_insert.1 hy).resolve_left ?_) h1 h2 h3
      · rintro rfl; exact hirr _ h1
      · rintro rfl; exact hirr _ h2
    have key : ∀ w ∈ V, Simplicial U V w → ¬ U v w → Simplicial U (insert v V) w := by
      intro w hw hsw hn x hx y hy h1 h2 h3
      refine hsw x ((Finset.mem_insert.1 hx).resolve_left ?_) y ((Finset.mem_insert.1 hy).resolve_left ?_) h1 h2 h3
      · rintro rfl; exact hn (hsym _ _ h1)
      · rintro rfl; exact hn (hsym _ _ h2)
    have fin : ∀ w ∈ V, Simplicial U V w → ¬ U v w →
        ∃ x ∈ insert v V, ∃ y ∈ insert v V, x ≠ y ∧ ¬ U x y ∧ Simplicial U (insert v V) x ∧
          Simplicial U (insert v V) y := by
      intro w hw hsw hn
      exact ⟨v, Finset.mem_insert_self _ _, w, Finset.mem_insert_of_mem hw, by rintro rfl; exact hv hw, hn, hsv,
        key w hw hsw hn⟩
    rcases ih with hc | ⟨x, hx, y, hy, hne, hxy, hsx, hsy⟩
    · by_cases h : ∃ w ∈ V, ¬ U v w
      · obtain ⟨w, hw, hn⟩ := h
        exact Or.inr (fin w hw (fun x hx y hy _ _ hne => hc x hx y hy hne) hn)
      · push Not at h
        left
        intro x hx y hy hne
        rcases Finset.mem_insert.1 hx with rfl | hx'
        · exact h y ((Finset.mem_insert.1 hy).resolve_left (Ne.symm hne))
        · rcases Finset.mem_insert.1 hy with rfl | hy'
          · exact hsym _ _ (h x hx')
          · exact hc x hx' y hy' hne
    · by_cases h1 : U v x
      · by_cases h2 : U v y
        · exact absurd (hs x hx y hy h1 h2 hne) hxy
        · exact Or.inr (fin y hy hsy h2)
      · exact Or.inr (fin x hx hsx h1)

/-- An elimination order in which the given vertex comes first. -/
theorem Elim.rank (hsym : ∀ a b, U a b → U b a) (hirr : ∀ a, ¬ U a a) (b : α) :
    ∀ (n : ℕ) (V : Finset α), V.card = n → Elim U V → b ∈ V →
      ∃ r : α → ℕ, (∀ x ∈ V, ∀ y ∈ V, r x = r y → x = y) ∧ (∀ x ∈ V, r x < n) ∧ r b = 0 ∧
        ∀ x ∈ V, ∀ y ∈ V, ∀ z ∈ V, U x z → U y z → r x < r z → r y < r z → x ≠ y → U x y := by
  intro n
  induction n with
  | zero => intro V hV _ hb; rw [Finset.card_eq_zero] at hV; subst hV; simp at hb
  | succ n ih =>
    intro V hV hel hb
    by_cases hone : V = {b}
    · subst hone
      refine ⟨fun _ => 0, ?_, ?_, rfl, ?_⟩
      · intro x hx y hy _; rw [Finset.mem_singleton] at hx hy; rw [hx, hy]
      · intro x _; simp
      · intro x _ y _ z _ _ _ h; exact absurd h (lt_irrefl _)
    · obtain ⟨v, hv, hvb, hsv⟩ : ∃ v ∈ V, v ≠ b ∧ Simplicial U V v := by
        rcases hel.dirac hsym hirr with hc | ⟨x, hx, y, hy, hne, _, hsx, hsy⟩
        · obtain ⟨v, hv, hvb⟩ : ∃ v ∈ V, v ≠ b := by
            by_contra hno
            push Not at hno
            exact hone (Finset.eq_singleton_iff_unique_mem.2 ⟨hb, hno⟩)
          exact ⟨v, hv, hvb, fun x hx y hy _ _ hne => hc x hx y hy hne⟩
        · by_cases h : x = b
          · exact ⟨y, hy, by rintro rfl; exact hne h, hsy⟩
          · exact ⟨x, hx, h, hsx⟩
      obtain ⟨r, h1, h2, h3, h4⟩ := ih (V.erase v) (by rw [Finset.card_erase_of_mem hv, hV]; rfl)
        (hel.mono (Finset.erase_subset _ _)) (Finset.mem_erase.2 ⟨hvb.symm, hb⟩)
      have hn : ∀ x ∈ V, x ≠ v → Function.update r v n x = r x ∧ r x < n := fun x hx hxv =>
        ⟨Function.update_of_ne hxv _ _, h2 x (Finset.mem_erase.2 ⟨hxv, hx⟩)⟩
      have hvv : Function.update r v n v = n := Function.update_self _ _ _
      refine ⟨Function.update r v n, ?_, ?_, ?_, ?_⟩
      · intro x hx y hy hxy
        by_cases hxv : x = v
        · by_cases hyv : y = v
          · rw [hxv, hyv]
          · have := hn y hy hyv; rw [hxv, hvv] at hxy; omega
        · by_cases hyv : y = v
          · have := hn x hx hxv; rw [hyv, hvv] at hxy; omega
          · have hx' := hn x hx hxv
            have hy' := hn y hy hyv
            exact h1 x (Finset.mem_erase.2 ⟨hxv, hx⟩) y (Finset.mem_erase.2 ⟨hyv, hy⟩) (by omega)
      · intro x hx
        by_cases hxv : x = v
        · rw [hxv, hvv]; omega
        · have := hn x hx hxv; omega
      · rw [(hn b hb hvb.symm).1, h3]
      · intro x hx y hy z hz hxz hyz hlx hly hne
        by_cases hzv : z = v
        · subst hzv; exact hsv x hx y hy (hsym _ _ hxz) (hsym _ _ hyz) hne
        · have hz' := hn z hz hzv
          have hxv : x ≠ v := by rintro rfl; omega
          have hyv : y ≠ v := by rintro rfl; omega
          have hx' := hn x hx hxv
          have hy' := hn y hy hyv
          exact h4 x (Finset.mem_erase.2 ⟨hxv, hx⟩) y (Finset.mem_erase.2 ⟨hyv, hy⟩) z (Finset.mem_erase.2 ⟨hzv, hz⟩)
            hxz hyz (by omega) (by omega) hne

/-- An acyclic orientation in which the parents of every node are adjacent gives an elimination order. -/
theorem elim_of_acyclic {D : α → α → Prop} (hD : Acyclic D) (hU : ∀ a b, U a b ↔ D a b ∨ D b a)
    (hm : ∀ x y z, D x z → D y z → x ≠ y → U x y) : ∀ (n : ℕ) (V : Finset α), V.card = n → Elim U V := by
  intro n
  induction n with
  | zero => intro V hV; rw [Finset.card_eq_zero] at hV; subst hV; exact .empty
  | succ n ih =>
    intro V hV
    have hD' : Acyclic (fun a b => D b a) := fun v hv => hD v (Relation.transGen_swap.1 hv)
    obtain ⟨v, hv, hmin⟩ := Model.DAG.exists_minimal hD' V (Finset.card_pos.1 (by omega))
    have hsink : ∀ u ∈ V, ¬ D v u := fun u hu h => hmin u hu (.single h)
    rw [← Finset.insert_erase hv]
    refine .cons (Finset.notMem_erase _ _) ?_ (ih _ (by rw [Finset.card_erase_of_mem hv, hV]; rfl))
    intro x hx y hy h1 h2 hne
    have hx' := ((hU v x).1 h1).resolve_left (hsink x (Finset.mem_of_mem_erase hx))
    have hy' := ((hU v y).1 h2).resolve_left (hsink y (Finset.mem_of_mem_erase hy))
    exact hm x y v hx' hy' hne

end Spec
