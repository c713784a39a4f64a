import Verif.Proof.Covered
import Verif.Spec.Chickering

/-! # Adding an arc while staying below an I-map

The combinatorial core of Chickering's theorem. `E` is the smaller graph, `F` an I-map of it. -/

namespace Spec

universe u
variable {α : Type u} {E F : α → α → Prop} {S : Set α} {x y z d : α}
open Relation

theorem ball_sub {E' : α → α → Prop} {T : α × Bool → Prop} {s : α × Bool} (h0 : T s)
    (h : ∀ p q, T p → (mg E').Move S p q → T q) {t : α × Bool} (ht : Ball E' S s t) : T t := by
  induction ht with
  | refl => exact h0
  | tail _ hm ih => exact h _ _ ih hm

/-- A new arc `x → t` is used last on a directed path, if at all. -/
theorem withArc_path0 {t a b : α} (h : Path0 (WithArc E x t) a b) : Path0 E a b ∨ (Path0 (WithArc E x t) a x ∧ Path0 E t b) := by
  induction h with
  | refl => exact Or.inl .refl
  | tail hab hbc ih =>
    rcases hbc with hbc | ⟨rfl, rfl⟩
    · exact ih.imp (fun h => h.tail hbc) (fun h => ⟨h.1, h.2.tail hbc⟩)
    · exact Or.inr ⟨hab, .refl⟩

/-- A new arc `x → t` is used first on a directed path, if at all. -/
theorem withArc_path0' {t a b : α} (h : Path0 (WithArc E x t) a b) : Path0 E a b ∨ (Path0 E a x ∧ Path0 (WithArc E x t) t b) := by
  induction h using ReflTransGen.head_induction_on with
  | refl => exact Or.inl .refl
  | head hab hbc ih =>
    rcases hab with hab | ⟨rfl, rfl⟩
    · exact ih.imp (fun h => h.head hab) (fun h => ⟨h.1.head hab, h.2⟩)
    · exact Or.inr ⟨.refl, hbc⟩

theorem an_up {v w : α} (h : Path0 E v w) (hw : (mg E).An S w) : (mg E).An S v := by
  obtain ⟨s, hs, hp⟩ := hw
  exact ⟨s, hs, h.trans hp⟩

/-- A node outside a set that contains all effects of the new arc: nothing new is connected. -/
theorem outside_ball (hE : Acyclic E) {t : α} (hE' : Acyclic (WithArc E x t)) {X : Set α}
    (hX : ∀ a b, WithArc E x t a b → a ∈ X → b ∈ X) (htX : t ∈ X) (hS : ∀ s ∈ S, s ∉ X) {a b : α} (ha : a ∉ X)
    (hb : b ∉ X) (haS : a ∉ S) (h : DConn (WithArc E x t) S a b) : DConn E S a b := by
  have hclosed : ∀ a b, Path0 (WithArc E x t) a b → a ∈ X → b ∈ X := by
    intro a b hab h
    induction hab with
    | refl => exact h
    | tail _ h' ih => exact hX _ _ h' ih
  have hnan : ∀ w ∈ X, ¬ (mg (WithArc E x t)).An S w := fun w hw ⟨s, hs, hp⟩ => hS s hs (hclosed _ _ hp hw)
  have han : ∀ w, (mg (WithArc E x t)).An S w → (mg E).An S w := by
    rintro w ⟨s, hs, hp⟩
    rcases withArc_path0' hp with hp | ⟨_, hp⟩
    · exact ⟨s, hs, hp⟩
    · exact absurd (hclosed _ _ hp htX) (hS s hs)
  obtain ⟨e, he⟩ := (dconn_iff_moves haS).1 h
  refine (dconn_iff_moves haS).2 ⟨e, ?_⟩
  refine (ball_sub (T := fun s => (s.1 ∈ X → s.2 = true) ∧ (s.1 ∉ X → Ball E S (a, false) s)) ⟨fun h => absurd h ha, fun _ => .refl⟩
    ?_ he).2 hb
  rintro ⟨v, dv⟩ ⟨w, dw⟩ ⟨h1, h2⟩ hm
  rcases (move_iff hE').1 hm with ⟨hvw, rfl, hvS⟩ | ⟨hwv, rfl, hc⟩
  · refine ⟨fun _ => rfl, fun hw => ?_⟩
    have hv : v ∉ X := fun hv => hw (hX _ _ hvw hv)
    rcases hvw with hvw | ⟨rfl, rfl⟩
    · exact (h2 hv).tail ((move_iff hE).2 (Or.inl ⟨hvw, rfl, hvS⟩))
    · exact absurd htX hw
  · have hv : v ∉ X := by
      intro hv
      rcases hc with ⟨hd, _⟩ | ⟨_, hc⟩
      · exact absurd (h1 hv) (by simp only; rw [hd]; decide)
      · exact hnan v hv hc
    have hw : w ∉ X := fun hw => hv (hX _ _ hwv hw)
    refine ⟨fun h => absurd h hw, fun _ => (h2 hv).tail ((move_iff hE).2 (Or.inr ⟨?_, rfl, hc.imp id (And.imp id (han v))⟩))⟩
    rcases hwv with hwv | ⟨rfl, rfl⟩
    · exact hwv
    · exact absurd htX hv

/-- Adding `x → z` beside `x → y → z` connects nothing new as long as `y` is not given. -/
theorem shortcut_ball (hE : Acyclic E) (hE' : Acyclic (WithArc E x z)) (hxy : E x y) (hyz : E y z) (hyS : y ∉ S) {a b : α}
    (haS : a ∉ S) (h : DConn (WithArc E x z) S a b) : DConn E S a b := by
  have han : ∀ w, (mg (WithArc E x z)).An S w → (mg E).An S w := by
    rintro w ⟨s, hs, hp⟩
    refine ⟨s, hs, ?_⟩
    clear hs
    induction hp with
    | refl => exact .refl
    | tail _ h ih =>
      rcases h with h | ⟨rfl, rfl⟩
      · exact ih.tail h
      · exact (ih.tail hxy).tail hyz
  obtain ⟨e, he⟩ := (dconn_iff_moves haS).1 h
  refine (dconn_iff_moves haS).2 ⟨e, ?_⟩
  refine ball_sub (T := fun s => Ball E S (a, false) s) .refl ?_ he
  rintro ⟨v, dv⟩ ⟨w, dw⟩ h1 hm
  rcases (move_iff hE').1 hm with ⟨hvw | ⟨rfl, rfl⟩, rfl, hvS⟩ | ⟨hwv | ⟨rfl, rfl⟩, rfl, hc⟩
  · exact h1.tail ((move_iff hE).2 (Or.inl ⟨hvw, rfl, hvS⟩))
  · exact (h1.tail ((move_iff hE).2 (Or.inl ⟨hxy, rfl, hvS⟩))).tail ((move_iff hE).2 (Or.inl ⟨hyz, rfl, hyS⟩))
  · exact h1.tail ((move_iff hE).2 (Or.inr ⟨hwv, rfl, hc.imp id (And.imp id (han v))⟩))
  · exact (h1.tail ((move_iff hE).2 (Or.inr ⟨hyz, rfl, hc.imp id (And.imp id (han _))⟩))).tail
      ((move_iff hE).2 (Or.inr ⟨hxy, rfl, Or.inl ⟨rfl, hyS⟩⟩))

/-- Adding `x → y` beside `x → z ← y` connects nothing new among nodes other than `y` if `z` is an open collider. -/
theorem collider_ball (hE : Acyclic E) (hE' : Acyclic (WithArc E x y)) (hxz : E x z) (hyz : E y z) (hyS : y ∉ S)
    (hz : (mg E).An S z) {a b : α} (haS : a ∉ S) (h : DConn (WithArc E x y) S a b) : DConn E S a b := by
  have han : ∀ w, (mg (WithArc E x y)).An S w → (mg E).An S w := by
    rintro w ⟨s, hs, hp⟩
    rcases withArc_path0' hp with hp | ⟨hp, _⟩
    · exact ⟨s, hs, hp⟩
    · exact an_up (hp.tail hxz) hz
  obtain ⟨e, he⟩ := (dconn_iff_moves haS).1 h
  refine (dconn_iff_moves haS).2 ?_
  have := ball_sub (T := fun s => Ball E S (a, false) s ∨ (s.1 = y ∧ Ball E S (a, false) (y, false))) (Or.inl .refl) ?_ he
  · rcases this with h | ⟨rfl, h⟩
    · exact ⟨e, h⟩
    · exact ⟨false, h⟩
  rintro ⟨v, dv⟩ ⟨w, dw⟩ h1 hm
  rcases (move_iff hE').1 hm with ⟨hvw | ⟨rfl, rfl⟩, rfl, hvS⟩ | ⟨hwv | ⟨rfl, rfl⟩, rfl, hc⟩
  · left
    rcases h1 with h1 | ⟨rfl, h1⟩ <;> exact h1.tail ((move_iff hE).2 (Or.inl ⟨hvw, rfl, hvS⟩))
  · right
    refine ⟨rfl, ?_⟩
    rcases h1 with h1 | ⟨rfl, h1⟩
    · exact (h1.tail ((move_iff hE).2 (Or.inl ⟨hxz, rfl, hvS⟩))).tail ((move_iff hE).2 (Or.inr ⟨hyz, rfl, Or.inr ⟨rfl, hz⟩⟩))
    · exact h1
  · left
    rcases h1 with h1 | ⟨rfl, h1⟩
    · exact h1.tail ((move_iff hE).2 (Or.inr ⟨hwv, rfl, hc.imp id (And.imp id (han v))⟩))
    · exact h1.tail ((move_iff hE).2 (Or.inr ⟨hwv, rfl, Or.inl ⟨rfl, hyS⟩⟩))
  · left
    have hmm : ∀ {d}, Ball E S (a, false) (v, d) → Ball E S (a, false) (w, false) := fun h1 =>
      (h1.tail ((move_iff hE).2 (Or.inl ⟨hyz, rfl, hyS⟩))).tail ((move_iff hE).2 (Or.inr ⟨hxz, rfl, Or.inr ⟨rfl, hz⟩⟩))
    rcases h1 with h1 | ⟨_, h1⟩ <;> exact hmm h1

/-- The ball rolls down a directed path none of whose nodes leads to `S`. -/
theorem ball_fall (hE : Acyclic E) {s : α × Bool} {v w : α} {dv : Bool} (h : Ball E S s (v, dv)) (hp : Path0 E v w)
    (hv : v ∉ S) (hn : ∀ u, E v u → Path0 E u w → ¬ (mg E).An S u) : ∃ e, Ball E S s (w, e) := by
  induction hp using ReflTransGen.head_induction_on generalizing dv with
  | refl => exact ⟨_, h⟩
  | head hab hbc ih =>
    rename_i a b
    have hb := hn b hab hbc
    exact ih (h.tail ((move_iff hE).2 (Or.inl ⟨hab, rfl, hv⟩))) (fun h => hb (an_self h))
      (fun u hu hw hS => hb (an_up (.single hu) hS))

/-- Adding `x → y` beside `x → z ← y` connects nothing new to a node separated from a descendant `d` of `z`, if no
descendant of `z` is given. -/
theorem blocked_ball (hE : Acyclic E) (hE' : Acyclic (WithArc E x y)) (hxz : E x z) (hyz : E y z) (hyS : y ∉ S)
    (hz : ¬ (mg E).An S z) (hzd : Path0 E z d) {a b : α} (haS : a ∉ S) (had : ¬ DConn E S a d)
    (h : DConn (WithArc E x y) S a b) : DConn E S a b := by
  rw [dconn_iff_moves haS] at had
  have hdown : ∀ {v dv}, Ball E S (a, false) (v, dv) → v ∉ S → E v z → False := by
    intro v dv hv hvS hvz
    have h1 : Ball E S (a, false) (z, true) := hv.tail ((move_iff hE).2 (Or.inl ⟨hvz, rfl, hvS⟩))
    exact had (ball_fall hE h1 hzd (fun h => hz (an_self h)) fun u hu _ hS => hz (an_up (.single hu) hS))
  obtain ⟨e, he⟩ := (dconn_iff_moves haS).1 h
  refine (dconn_iff_moves haS).2 ⟨e, ?_⟩
  refine ball_sub (T := fun s => Ball E S (a, false) s) .refl ?_ he
  rintro ⟨v, dv⟩ ⟨w, dw⟩ h1 hm
  rcases (move_iff hE').1 hm with ⟨hvw | ⟨rfl, rfl⟩, rfl, hvS⟩ | ⟨hwv | ⟨rfl, rfl⟩, rfl, hc⟩
  · exact h1.tail ((move_iff hE).2 (Or.inl ⟨hvw, rfl, hvS⟩))
  · exact (hdown h1 hvS hxz).elim
  · refine h1.tail ((move_iff hE).2 (Or.inr ⟨hwv, rfl, ?_⟩))
    rcases hc with hc | ⟨rfl, s, hs, hp⟩
    · exact Or.inl hc
    · refine Or.inr ⟨rfl, ?_⟩
      by_contra hn
      rcases withArc_path0' hp with hp | ⟨hp, _⟩
      · exact hn ⟨s, hs, hp⟩
      · exact had (ball_fall hE h1 ((hp.tail hxz).trans hzd) (fun h => hn (an_self h))
          fun u hu _ hS => hn (an_up (.single hu) hS))
  · exact (hdown h1 hyS hyz).elim

/-- A set with the right closure shields `y` from everything else outside `R`. -/
theorem blanket_ball (hE : Acyclic E) {R : Set α} (hR : ∀ a b, E a b → a ∈ R → b ∈ R) (hS : ∀ s ∈ S, s ∉ R) (hyS : y ∉ S)
    (h1 : ∀ p, E p y → p ∈ S) (h2 : ∀ c, E y c → c ∉ R → c ∈ S)
    (h3 : ∀ c p, E y c → c ∉ R → E p c → p = y ∨ p ∈ S) {n : α} (hn : n ≠ y) (hnS : n ∉ S) (hnR : n ∉ R) : ¬ DConn E S y n := by
  intro h
  obtain ⟨e, he⟩ := (dconn_iff_moves hyS).1 h
  have hclosed : ∀ a b, Path0 E a b → a ∈ R → b ∈ R := by
    intro a b hab h
    induction hab with
    | refl => exact h
    | tail _ h' ih => exact hR _ _ h' ih
  have := ball_sub (T := fun s => s.1 = y ∨ (s.1 ∈ R ∧ s.2 = true) ∨ (s.1 ∈ S ∧ (s.2 = true → E y s.1 ∧ s.1 ∉ R))) (Or.inl rfl) ?_ he
  · rcases this with h | h | h
    · exact hn h
    · exact hnR h.1
    · exact hnS h.1
  rintro ⟨v, dv⟩ ⟨w, dw⟩ hT hm
  simp only at hT ⊢
  rcases (move_iff hE).1 hm with ⟨hvw, rfl, hvS⟩ | ⟨hwv, rfl, hc⟩
  · rcases hT with rfl | ⟨hv, _⟩ | ⟨hv, _⟩
    · by_cases hw : w ∈ R
      · exact Or.inr (Or.inl ⟨hw, rfl⟩)
      · exact Or.inr (Or.inr ⟨h2 w hvw hw, fun _ => ⟨hvw, hw⟩⟩)
    · exact Or.inr (Or.inl ⟨hR _ _ hvw hv, rfl⟩)
    · exact absurd hv hvS
  · rcases hT with rfl | ⟨hv, hd⟩ | ⟨hv, hd⟩
    · exact Or.inr (Or.inr ⟨h1 w hwv, by simp⟩)
    · rcases hc with ⟨hc, _⟩ | ⟨_, s, hs, hp⟩
      · rw [hc] at hd; exact absurd hd (by decide)
      · exact absurd (hclosed _ _ hp hv) (hS s hs)
    · rcases hc with ⟨_, hc⟩ | ⟨hc, _⟩
      · exact absurd hv hc
      · have := hd hc
        exact (h3 v w this.1 this.2 hwv).imp id fun h => Or.inr ⟨h, by simp⟩

end Spec
