import Verif.Proof.DSep

/-! # Theory of d-separation (no reference to the code) -/

namespace Spec

set_option linter.unusedSectionVars false
set_option linter.unusedVariables false
universe u
variable {α : Type u} {E : α → α → Prop} {C : Set α}
open Relation

/-- Ball reachability. -/
abbrev Ball (E : α → α → Prop) (C : Set α) (s t : α × Bool) : Prop :=
  ReflTransGen ((mg E).Move C) s t

theorem move_child (hE : Acyclic E) {v w : α} {d : Bool} (h : E v w) (hv : v ∉ C) :
    (mg E).Move C (v, d) (w, true) :=
  ⟨Or.inl h, by simp [h], fun hc => absurd hc.2 (hE.asymm h), fun _ => hv⟩

theorem move_parent (hE : Acyclic E) {v w : α} (h : E w v) (hv : v ∉ C) :
    (mg E).Move C (v, false) (w, false) :=
  ⟨Or.inr h, by simpa using hE.asymm h, by simp, fun _ => hv⟩

theorem move_collider (hE : Acyclic E) {v w : α} (h : E w v) (hv : (mg E).An C v) :
    (mg E).Move C (v, true) (w, false) :=
  ⟨Or.inr h, by simpa using hE.asymm h, fun _ => hv, fun hc => absurd ⟨rfl, h⟩ hc⟩

theorem an_mono {D : Set α} (h : C ⊆ D) {v : α} (hv : (mg E).An C v) : (mg E).An D v :=
  let ⟨c, hc, h'⟩ := hv; ⟨c, h hc, h'⟩

theorem an_step {v w : α} (h : E v w) (hw : (mg E).An C w) : (mg E).An C v :=
  let ⟨c, hc, h'⟩ := hw; ⟨c, hc, .head h h'⟩

theorem an_self {v : α} (h : v ∈ C) : (mg E).An C v := ⟨v, h, .refl⟩

theorem an_path0 {v w : α} (h : Path0 E v w) (hw : (mg E).An C w) : (mg E).An C v :=
  let ⟨c, hc, h'⟩ := hw; ⟨c, hc, ReflTransGen.trans h h'⟩

/-- Going down from a node that is not an ancestor of `C`. -/
theorem ball_down (hE : Acyclic E) {v w : α} (d : Bool) (hv : ¬ (mg E).An C v) (h : Path0 E v w) :
    ∃ e, Ball E C (v, d) (w, e) := by
  induction h with
  | refl => exact ⟨d, .refl⟩
  | tail hvb hbc ih =>
    obtain ⟨e, he⟩ := ih
    exact ⟨true, he.tail (move_child hE hbc fun hb => hv (an_path0 hvb (an_self hb)))⟩

/-- Going up from `w`, along nodes that are not ancestors of `C`. -/
theorem ball_up (hE : Acyclic E) {v w : α} (hv : ¬ (mg E).An C v) (h : Path0 E v w) :
    Ball E C (w, false) (v, false) := by
  induction h with
  | refl => exact .refl
  | tail hvb hbc ih =>
    exact .head (move_parent hE hbc fun hb => hv (an_path0 (hvb.tail hbc) (an_self hb))) ih

/-- Following an open walk along an arrow: an ancestor of `C`, or everything further on is a descendant. -/
theorem run_desc : ∀ (rest : List α) (u x : α), E u x →
    (∀ a b, [a, b] <:+: u :: x :: rest → Adj E a b) →
    (∀ a b c, [a, b, c] <:+: u :: x :: rest → (mg E).Open C a b c) →
    (mg E).An C x ∨ ∀ z ∈ x :: rest, Path0 E x z := by
  intro rest
  induction rest with
  | nil => intro u x _ _ _; right; intro z hz; simp at hz; subst hz; exact .refl
  | cons w rest ih =>
    intro u x hux hadj hopn
    by_cases hwx : E w x
    · exact Or.inl ((hopn u x w (List.IsPrefix.isInfix (by simp))).1 ⟨hux, hwx⟩)
    · have hxw : E x w := (hadj x w ((List.IsPrefix.isInfix (by simp : [x, w] <+: x :: w :: rest)).trans
        (List.suffix_cons _ _).isInfix)).resolve_right hwx
      rcases ih x w hxw
        (fun a b h => hadj a b (h.trans (List.suffix_cons _ _).isInfix))
        (fun a b c h => hopn a b c (h.trans (List.suffix_cons _ _).isInfix)) with h | h
      · exact Or.inl (an_step hxw h)
      · right
        intro z hz
        rcases List.mem_cons.1 hz with rfl | hz
        · exact .refl
        · exact .head hxw (h z hz)

/-! ## Local Markov property and Markov blanket -/

theorem walk_cons_cases {a b : α} {l : List α} (h : (mg E).Walk C a b l) :
    l = [a] ∧ a = b ∨ ∃ w r, l = a :: w :: r := by
  have h1 := h.head
  have h2 := h.last
  match l, h1, h2 with
  | [x], h1, h2 => simp at h1 h2; subst h1; subst h2; exact Or.inl ⟨rfl, rfl⟩
  | x :: y :: r, h1, h2 => simp at h1; subst h1; exact Or.inr ⟨y, r, rfl⟩

theorem local_markov (hE : Acyclic E) (v : α) :
    DSep E {v} {n | n ≠ v ∧ ¬ Path E v n ∧ ¬ E n v} {p | E p v} := by
  rw [dsep_iff]
  rintro a rfl b ⟨hb1, hb2, hb3⟩ ⟨l, hw⟩
  rcases walk_cons_cases hw with ⟨_, rfl⟩ | ⟨w, r, rfl⟩
  · exact hb1 rfl
  have hlast : b ∈ w :: r := by
    have := List.mem_of_getLast? hw.last
    rcases List.mem_cons.1 this with rfl | h
    · exact absurd rfl hb1
    · exact h
  rcases hw.adj a w (List.IsPrefix.isInfix (by simp)) with h | h
  · rcases run_desc r a w h hw.adj hw.opn with ⟨c, hc, hwc⟩ | hr
    · exact hE a (.head' h (hwc.tail hc))
    · exact hb2 (.head' h (hr b hlast))
  · cases r with
    | nil => simp at hlast; subst hlast; exact hb3 h
    | cons x r =>
      have := hw.opn a w x (List.IsPrefix.isInfix (by simp))
      exact this.2 (fun hc => hE.asymm h hc.1) h

/-- Parents, children and other parents of children. -/
def Blanket (E : α → α → Prop) (v : α) : Set α :=
  {w | w ≠ v ∧ (E w v ∨ E v w ∨ ∃ c, E v c ∧ E w c)}

theorem blanket_separates (hE : Acyclic E) (v : α) :
    DSep E {v} {n | n ≠ v ∧ n ∉ Blanket E v} (Blanket E v) := by
  intro a ha b hb l hl
  obtain ⟨hw, hn⟩ := activePath_iff.1 hl
  simp only [Set.mem_singleton_iff] at ha
  subst ha
  obtain ⟨hb1, hb2⟩ := hb
  rcases walk_cons_cases hw with ⟨_, rfl⟩ | ⟨w, r, rfl⟩
  · exact hb1 rfl
  have haw := hw.adj a w (List.IsPrefix.isInfix (by simp))
  have hwa : w ≠ a := by rintro rfl; simp at hn
  have hwB : w ∈ Blanket E a := ⟨hwa, haw.elim (fun h => Or.inr (Or.inl h)) Or.inl⟩
  cases r with
  | nil => have := hw.last; simp at this; subst this; exact hb2 hwB
  | cons x r =>
    have o := hw.opn a w x (List.IsPrefix.isInfix (by simp))
    by_cases hc : E a w ∧ E x w
    · have hxa : x ≠ a := by rintro rfl; simp at hn
      have hxB : x ∈ Blanket E a := ⟨hxa, Or.inr (Or.inr ⟨w, hc.1, hc.2⟩)⟩
      cases r with
      | nil => have := hw.last; simp at this; subst this; exact hb2 hxB
      | cons y r =>
        have o2 := hw.opn w x y ⟨[a], r, by simp⟩
        exact o2.2 (fun h => hE.asymm hc.2 h.1) hxB
    · exact o.2 hc hwB

theorem dconn_adj {a b : α} (h : Adj E a b) : DConn E C a b := by
  refine ⟨[a, b], rfl, rfl, ?_, ?_⟩
  · intro u v huv
    have := List.IsInfix.eq_of_length huv (by simp)
    simp at this; obtain ⟨rfl, rfl⟩ := this; exact h
  · intro u v w huv; have := huv.length_le; simp at this

theorem dconn_collider {a b c : α} (h1 : E a c) (h2 : E b c) (hc : (mg E).An C c) : DConn E C a b := by
  refine ⟨[a, c, b], rfl, rfl, ?_, ?_⟩
  · intro u v huv
    rw [List.infix_cons_iff] at huv
    rcases huv with h | h
    · simp at h; obtain ⟨rfl, rfl⟩ := h; exact Or.inl h1
    · have := List.IsInfix.eq_of_length h (by simp)
      simp at this; obtain ⟨rfl, rfl⟩ := this; exact Or.inr h2
  · intro u v w huv
    have := List.IsInfix.eq_of_length huv (by simp)
    simp at this; obtain ⟨rfl, rfl, rfl⟩ := this
    exact ⟨fun _ => hc, fun h => absurd ⟨h1, h2⟩ h⟩

theorem dconn_noncollider {a b c : α} (h1 : Adj E a c) (h2 : Adj E c b) (hn : ¬ (E a c ∧ E b c))
    (hc : c ∉ C) : DConn E C a b := by
  refine ⟨[a, c, b], rfl, rfl, ?_, ?_⟩
  · intro u v huv
    rw [List.infix_cons_iff] at huv
    rcases huv with h | h
    · simp at h; obtain ⟨rfl, rfl⟩ := h; exact h1
    · have := List.IsInfix.eq_of_length h (by simp)
      simp at this; obtain ⟨rfl, rfl⟩ := this; exact h2
  · intro u v w huv
    have := List.IsInfix.eq_of_length huv (by simp)
    simp at this; obtain ⟨rfl, rfl, rfl⟩ := this
    exact ⟨fun h => absurd h hn, fun _ => hc⟩

theorem blanket_least (v : α) (V S : Set α) (hV : ∀ w, w ∈ Blanket E v → w ∈ V)
    (hs : DSep E {v} {n | n ∈ V ∧ n ≠ v ∧ n ∉ S} S) : Blanket E v ⊆ S := by
  rw [dsep_iff] at hs
  have hadj : ∀ w, w ∈ V → w ≠ v → Adj E v w → w ∈ S := fun w hwV hwv h => by
    by_contra hS
    exact hs v rfl w ⟨hwV, hwv, hS⟩ (dconn_adj h)
  intro w hw
  have hwV := hV w hw
  obtain ⟨hwv, h | h | ⟨c, h1, h2⟩⟩ := hw
  · exact hadj w hwV hwv (Or.inr h)
  · exact hadj w hwV hwv (Or.inl h)
  · by_contra hS
    by_cases hcv : c = v
    · subst hcv; exact hS (hadj w hwV hwv (Or.inr h2))
    have hcS : c ∈ S := hadj c (hV c ⟨hcv, Or.inr (Or.inl h1)⟩) hcv (Or.inl h1)
    exact hs v rfl w ⟨hwV, hwv, hS⟩ (dconn_collider h1 h2 (an_self hcS))

/-! ## Graphoid rules -/

theorem dsep_symm {A B : Set α} (h : DSep E A B C) : DSep E B A C := by
  rw [dsep_iff] at h ⊢
  exact fun b hb a ha hc => h a ha b hb (dconn_symm hc)

theorem dsep_ball {A B : Set α} (hAC : Disjoint A C) :
    DSep E A B C ↔ ∀ a ∈ A, ∀ t : α × Bool, t.1 ∈ B → ¬ Ball E C (a, false) t := by
  rw [dsep_iff]
  constructor
  · intro h a ha t ht hr
    exact h a ha t.1 ht ((dconn_iff_moves (Set.disjoint_left.1 hAC ha)).2 ⟨t.2, hr⟩)
  · intro h a ha b hb hc
    obtain ⟨d, hd⟩ := (dconn_iff_moves (Set.disjoint_left.1 hAC ha)).1 hc
    exact h a ha (b, d) hb hd

theorem ball_weak_union (hE : Acyclic E) {D : Set α} {a : α} {t : α × Bool}
    (h : Ball E (C ∪ D) (a, false) t) :
    Ball E C (a, false) t ∨ ∃ s : α × Bool, s.1 ∈ D ∧ Ball E C (a, false) s := by
  induction h with
  | refl => exact Or.inl .refl
  | tail _ hst ih =>
    rename_i s t _
    rcases ih with ih | ih
    · obtain ⟨h1, h2, h3⟩ := hst
      by_cases hc : s.2 = true ∧ (mg E).into t.1 s.1
      · obtain ⟨c, hc', hsc⟩ := h3.1 hc
        by_cases hAn : (mg E).An C s.1
        · exact Or.inl (ih.tail ⟨h1, h2, fun _ => hAn, fun h => absurd hc h⟩)
        · right
          have hcD : c ∈ D := hc'.resolve_left fun h => hAn ⟨c, h, hsc⟩
          obtain ⟨e, he⟩ := ball_down hE s.2 hAn hsc
          exact ⟨(c, e), hcD, ReflTransGen.trans ih he⟩
      · exact Or.inl (ih.tail ⟨h1, h2, fun h => absurd h hc, fun h hC => h3.2 hc (Or.inl hC)⟩)
    · exact Or.inr ih

theorem dsep_weak_union (hE : Acyclic E) {A B D : Set α} (hAC : Disjoint A C) (hAD : Disjoint A D)
    (h : DSep E A (B ∪ D) C) : DSep E A B (C ∪ D) := by
  rw [dsep_ball hAC] at h
  rw [dsep_ball (Set.disjoint_union_right.2 ⟨hAC, hAD⟩)]
  intro a ha t ht hr
  rcases ball_weak_union hE hr with h1 | ⟨s, hs, h1⟩
  · exact h a ha t (Or.inl ht) h1
  · exact h a ha s (Or.inr hs) h1

theorem ball_contraction {D : Set α} {a : α} {t : α × Bool} (h : Ball E C (a, false) t) :
    Ball E (C ∪ D) (a, false) t ∨ ∃ s : α × Bool, s.1 ∈ D ∧ Ball E C (a, false) s := by
  induction h with
  | refl => exact Or.inl .refl
  | tail hr hst ih =>
    rename_i s t
    rcases ih with ih | ih
    · by_cases hD : s.1 ∈ D
      · exact Or.inr ⟨s, hD, hr⟩
      · obtain ⟨h1, h2, h3⟩ := hst
        refine Or.inl (ih.tail ⟨h1, h2, fun h => an_mono Set.subset_union_left (h3.1 h), fun h => ?_⟩)
        rintro (hc | hc)
        · exact h3.2 h hc
        · exact hD hc
    · exact Or.inr ih

theorem dsep_contraction {A B D : Set α} (hAC : Disjoint A C) (hAD : Disjoint A D)
    (h1 : DSep E A B (C ∪ D)) (h2 : DSep E A D C) : DSep E A (B ∪ D) C := by
  rw [dsep_ball hAC] at h2 ⊢
  rw [dsep_ball (Set.disjoint_union_right.2 ⟨hAC, hAD⟩)] at h1
  intro a ha t ht hr
  rcases ball_contraction (D := D) hr with h | ⟨s, hs, h⟩
  · rcases ht with ht | ht
    · exact h1 a ha t ht h
    · exact h2 a ha t ht hr
  · exact h2 a ha s hs h

theorem ball_intersection {B D : Set α} {a : α} {t : α × Bool} (h : Ball E C (a, false) t) :
    (Ball E (C ∪ D) (a, false) t ∧ Ball E (C ∪ B) (a, false) t) ∨
      ∃ s : α × Bool, s.1 ∈ B ∪ D ∧ Ball E (C ∪ D) (a, false) s ∧ Ball E (C ∪ B) (a, false) s := by
  induction h with
  | refl => exact Or.inl ⟨.refl, .refl⟩
  | tail hr hst ih =>
    rename_i s t
    rcases ih with ⟨i1, i2⟩ | ih
    · by_cases hD : s.1 ∈ B ∪ D
      · exact Or.inr ⟨s, hD, i1, i2⟩
      · obtain ⟨h1, h2, h3⟩ := hst
        rw [Set.mem_union, not_or] at hD
        refine Or.inl ⟨i1.tail ⟨h1, h2, fun h => an_mono Set.subset_union_left (h3.1 h), fun h => ?_⟩,
          i2.tail ⟨h1, h2, fun h => an_mono Set.subset_union_left (h3.1 h), fun h => ?_⟩⟩
        · rintro (hc | hc)
          · exact h3.2 h hc
          · exact hD.2 hc
        · rintro (hc | hc)
          · exact h3.2 h hc
          · exact hD.1 hc
    · exact Or.inr ih

theorem dsep_intersection {A B D : Set α} (hAC : Disjoint A C) (hAB : Disjoint A B)
    (hAD : Disjoint A D) (h1 : DSep E A B (C ∪ D)) (h2 : DSep E A D (C ∪ B)) :
    DSep E A (B ∪ D) C := by
  rw [dsep_ball (Set.disjoint_union_right.2 ⟨hAC, hAD⟩)] at h1
  rw [dsep_ball (Set.disjoint_union_right.2 ⟨hAC, hAB⟩)] at h2
  rw [dsep_ball hAC]
  intro a ha t ht hr
  have fin : ∀ s : α × Bool, s.1 ∈ B ∪ D → Ball E (C ∪ D) (a, false) s → Ball E (C ∪ B) (a, false) s →
      False := by
    rintro s (hs | hs) i1 i2
    · exact h1 a ha s hs i1
    · exact h2 a ha s hs i2
  rcases ball_intersection (B := B) (D := D) hr with ⟨i1, i2⟩ | ⟨s, hs, i1, i2⟩
  · exact fin t ht i1 i2
  · exact fin s hs i1 i2

/-! ## Restriction to ancestral sets -/

theorem walk_ancestral {a b : α} {l : List α} (h : (mg E).Walk C a b l) :
    ∀ v ∈ l, (mg E).An (C ∪ {a, b}) v := by
  have key : ∀ {a b : α} {l : List α}, (mg E).Walk C a b l → ∀ p v w r, l = p ++ v :: w :: r → E v w →
      (mg E).An (C ∪ {a, b}) v := by
    intro a b l h p v w r hl hvw
    have hs : v :: w :: r <:+: l := by rw [hl]; exact ⟨p, [], by simp⟩
    rcases run_desc (C := C) r v w hvw (fun x y hxy => h.adj x y (hxy.trans hs))
      (fun x y z hxyz => h.opn x y z (hxyz.trans hs)) with h1 | h1
    · exact an_step hvw (an_mono Set.subset_union_left h1)
    · have : b ∈ w :: r := by
        have := h.last
        rw [hl] at this
        rw [List.getLast?_append, List.getLast?_cons_cons] at this
        have h2 : (w :: r).getLast? ≠ none := by simp
        obtain ⟨z, hz⟩ := Option.ne_none_iff_exists'.1 h2
        rw [hz] at this; simp at this; subst this
        exact List.mem_of_getLast? hz
      exact ⟨b, by simp, .head hvw (h1 b this)⟩
  intro v hv
  obtain ⟨p, r, hl⟩ := List.append_of_mem hv
  cases r with
  | nil => have := h.last; rw [hl] at this; simp at this; subst this; exact an_self (by simp)
  | cons w r =>
    by_cases hvw : E v w
    · exact key h p v w r hl hvw
    rcases List.eq_nil_or_concat p with rfl | ⟨p, u, rfl⟩
    · have := h.head; rw [hl] at this; simp at this; subst this; exact an_self (by simp)
    by_cases hvu : E v u
    · have hrev := h.reverse (mg_ok E)
      have := key hrev (r.reverse ++ [w]) v u p.reverse (by rw [hl]; simp) hvu
      rwa [Set.pair_comm] at this
    · have h1 := (h.adj v w (by rw [hl]; exact ⟨p ++ [u], r, by simp⟩)).resolve_left hvw
      have h2 := (h.adj u v (by rw [hl]; exact ⟨p, w :: r, by simp⟩)).resolve_right hvu
      exact an_mono Set.subset_union_left
        ((h.opn u v w (by rw [hl]; exact ⟨p, r, by simp⟩)).1 ⟨h2, h1⟩)

/-- Restriction of an arc relation to a set of nodes. -/
def Restrict (E : α → α → Prop) (T : Set α) (i j : α) : Prop := E i j ∧ i ∈ T ∧ j ∈ T

theorem restrict_path0 {T : Set α} {v w : α} (h : Path0 (Restrict E T) v w) : Path0 E v w :=
  path0_mono (fun _ _ h => h.1) h

theorem restrict_acyclic {T : Set α} (h : Acyclic E) : Acyclic (Restrict E T) :=
  acyclic_mono (fun _ _ h => h.1) h

/-- d-connection among nodes of an ancestral set can be decided inside it. -/
theorem dconn_restrict {T : Set α} (hT : ∀ i j, E i j → j ∈ T → i ∈ T) {a b : α} (ha : a ∈ T) (hb : b ∈ T)
    (hC : C ⊆ T) : DConn (Restrict E T) C a b ↔ DConn E C a b := by
  have hup : ∀ {v w}, Path0 E v w → w ∈ T → v ∈ T ∧ Path0 (Restrict E T) v w := by
    intro v w h hw
    induction h using ReflTransGen.head_induction_on with
    | refl => exact ⟨hw, .refl⟩
    | head hab _ ih => exact ⟨hT _ _ hab ih.1, .head ⟨hab, hT _ _ hab ih.1, ih.1⟩ ih.2⟩
  constructor
  · rintro ⟨l, h⟩
    refine ⟨l, h.head, h.last, fun u v huv => ?_, fun u v w huv => ?_⟩
    · exact (h.adj u v huv).imp (fun h => h.1) (fun h => h.1)
    · have o := h.opn u v w huv
      have a1 := h.adj u v (List.IsInfix.trans ⟨[], [w], by simp⟩ huv)
      have a2 := h.adj v w (List.IsInfix.trans ⟨[u], [], by simp⟩ huv)
      have hu : u ∈ T := a1.elim (fun h => h.2.1) (fun h => h.2.2)
      have hv : v ∈ T := a1.elim (fun h => h.2.2) (fun h => h.2.1)
      have hw : w ∈ T := a2.elim (fun h => h.2.2) (fun h => h.2.1)
      refine ⟨fun hc => ?_, fun hc => o.2 fun h => hc ⟨h.1.1, h.2.1⟩⟩
      obtain ⟨c, hc1, hc2⟩ := o.1 ⟨⟨hc.1, hu, hv⟩, ⟨hc.2, hw, hv⟩⟩
      exact ⟨c, hc1, restrict_path0 hc2⟩
  · rintro ⟨l, h⟩
    have hmem : ∀ v ∈ l, v ∈ T := by
      intro v hv
      obtain ⟨c, hc, hvc⟩ := walk_ancestral h v hv
      have : c ∈ T := by
        rcases hc with hc | rfl | rfl
        · exact hC hc
        · exact ha
        · exact hb
      exact (hup hvc this).1
    refine ⟨l, h.head, h.last, fun u v huv => ?_, fun u v w huv => ?_⟩
    · have hu := hmem u (huv.subset (by simp))
      have hv := hmem v (huv.subset (by simp))
      exact (h.adj u v huv).imp (fun h => ⟨h, hu, hv⟩) (fun h => ⟨h, hv, hu⟩)
    · have hu := hmem u (huv.subset (by simp))
      have hv := hmem v (huv.subset (by simp))
      have hw := hmem w (huv.subset (by simp))
      have o := h.opn u v w huv
      refine ⟨fun hc => ?_, fun hc => o.2 fun h => hc ⟨⟨h.1, hu, hv⟩, ⟨h.2, hw, hv⟩⟩⟩
      obtain ⟨c, hc1, hc2⟩ := o.1 ⟨hc.1.1, hc.2.1⟩
      exact ⟨c, hc1, (hup hc2 (hC hc1)).2⟩

end Spec
