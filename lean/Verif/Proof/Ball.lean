import Verif.Proof.Separation

/-! # More on Bayes-ball moves in acyclic graphs -/

namespace Spec

universe u
variable {α : Type u} {E : α → α → Prop} {A B C : Set α}
open Relation

theorem move_iff (hE : Acyclic E) {v w : α} {d e : Bool} :
    (mg E).Move C (v, d) (w, e) ↔
      (E v w ∧ e = true ∧ v ∉ C) ∨
      (E w v ∧ e = false ∧ ((d = false ∧ v ∉ C) ∨ (d = true ∧ (mg E).An C v))) := by
  constructor
  · rintro ⟨h1, h2, h3, h4⟩
    simp only [mg_adj, mg_into] at h1 h2 h3 h4
    rcases h1 with h | h
    · exact Or.inl ⟨h, h2.2 h, h4 fun hc => hE.asymm h hc.2⟩
    · refine Or.inr ⟨h, ?_, ?_⟩
      · cases e with
        | false => rfl
        | true => exact absurd (h2.1 rfl) (hE.asymm h)
      · cases d with
        | false => exact Or.inl ⟨rfl, h4 (by simp)⟩
        | true => exact Or.inr ⟨rfl, h3 ⟨rfl, h⟩⟩
  · rintro (⟨h, rfl, hv⟩ | ⟨h, rfl, ⟨rfl, hv⟩ | ⟨rfl, hv⟩⟩)
    · exact move_child hE h hv
    · exact move_parent hE h hv
    · exact move_collider hE h hv

theorem dsep_mono {A' B' : Set α} (hA : A' ⊆ A) (hB : B' ⊆ B) (h : DSep E A B C) : DSep E A' B' C :=
  fun a ha b hb => h a (hA ha) b (hB hb)

theorem dsep_union_left {A' : Set α} (h : DSep E A B C) (h' : DSep E A' B C) : DSep E (A ∪ A') B C :=
  fun a ha b hb => ha.elim (fun ha => h a ha b hb) (fun ha => h' a ha b hb)

theorem dsep_union_right {B' : Set α} (h : DSep E A B C) (h' : DSep E A B' C) : DSep E A (B ∪ B') C :=
  fun a ha b hb => hb.elim (fun hb => h a ha b hb) (fun hb => h' a ha b hb)

/-! ## A node without children -/

theorem sink_ball (hE : Acyclic E) {v a : α} (hs : ∀ w, ¬ E v w) (hav : a ≠ v) {t : α × Bool}
    (h : Ball E C (a, false) t) : (t.1 = v → t.2 = true) ∧ Ball E (insert v C) (a, false) t := by
  induction h with
  | refl => exact ⟨fun h => absurd h hav, .refl⟩
  | tail _ hst ih =>
    rename_i s t _
    obtain ⟨x, d⟩ := s
    obtain ⟨y, e⟩ := t
    have hm := (move_iff hE).1 hst
    refine ⟨?_, ih.2.tail ((move_iff hE).2 ?_)⟩
    · rintro h
      simp only at h; subst h
      rcases hm with ⟨_, h, _⟩ | ⟨h, _⟩
      · exact h
      · exact absurd h (hs _)
    · rcases hm with ⟨h1, h2, h3⟩ | ⟨h1, h2, h3⟩
      · refine Or.inl ⟨h1, h2, ?_⟩
        rintro (rfl | h)
        · exact hs _ h1
        · exact h3 h
      · refine Or.inr ⟨h1, h2, ?_⟩
        rcases h3 with ⟨h4, h5⟩ | ⟨h4, h5⟩
        · refine Or.inl ⟨h4, ?_⟩
          rintro (rfl | h)
          · have := ih.1 rfl; simp [h4] at this
          · exact h5 h
        · exact Or.inr ⟨h4, an_mono (Set.subset_insert v C) h5⟩

theorem sink_dconn (hE : Acyclic E) {v a b : α} (hs : ∀ w, ¬ E v w) (hav : a ≠ v) (haC : a ∉ C)
    (h : DConn E C a b) : DConn E (insert v C) a b := by
  obtain ⟨e, h⟩ := (dconn_iff_moves haC).1 h
  refine (dconn_iff_moves ?_).2 ⟨e, (sink_ball hE hs hav h).2⟩
  rintro (h | h)
  · exact hav h
  · exact haC h

theorem sink_join (hE : Acyclic E) {v a b : α} (hs : ∀ w, ¬ E v w) (hvC : v ∉ C) (hav : a ≠ v) (hbv : b ≠ v)
    (haC : a ∉ C) (h1 : DConn E C a v) (h2 : DConn E C b v) : DConn E (insert v C) a b := by
  obtain ⟨e, h1⟩ := (dconn_iff_moves haC).1 h1
  obtain ⟨d, h2⟩ := (dconn_iff_moves hvC).1 (dconn_symm h2)
  have he := sink_ball hE hs hav h1
  have : e = true := he.1 rfl
  subst this
  refine (dconn_iff_moves ?_).2 ⟨d, ?_⟩
  · rintro (h | h)
    · exact hav h
    · exact haC h
  rcases ReflTransGen.cases_head h2 with h | ⟨⟨p, k⟩, hm, hr⟩
  · simp at h; exact absurd h.1.symm hbv
  · rcases (move_iff hE).1 hm with ⟨h, _⟩ | ⟨hp, rfl, _⟩
    · exact absurd h (hs _)
    · have hpv : p ≠ v := by rintro rfl; exact hE.irrefl hp
      exact he.2.trans (.head (move_collider hE hp (an_self (Set.mem_insert v C))) (sink_ball hE hs hpv hr).2)

end Spec
