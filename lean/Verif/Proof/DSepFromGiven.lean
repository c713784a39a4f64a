import Verif.Proof.DSep

/-! # `dsep_from_given`: link labelling without backtracking finds the same nodes -/

namespace Model.DAG

set_option linter.unusedSectionVars false
set_option linter.unusedVariables false
universe u
variable {α : Type u} [DecidableEq α] {G : DAG α}
open Relation Spec

/-- Legal pairs of consecutive links. -/
def Legal (E : α → α → Prop) (C : Set α) (s t : Option α × α) : Prop :=
  t.1 = some s.2 ∧ Adj E s.2 t.2 ∧ s.1 ≠ some t.2 ∧
    (((∃ u, s.1 = some u ∧ E u s.2) ∧ E t.2 s.2 → (mg E).An C s.2) ∧
     (¬ ((∃ u, s.1 = some u ∧ E u s.2) ∧ E t.2 s.2) → s.2 ∉ C))

theorem walk_of_legal {E : α → α → Prop} {C : Set α} {a : α} {s : Option α × α}
    (h : ReflTransGen (Legal E C) (none, a) s) :
    ∃ l, (mg E).Walk C a s.2 l ∧ ((l = [a] ∧ s.1 = none) ∨ ∃ p y, l = p ++ [y, s.2] ∧ s.1 = some y) := by
  induction h with
  | refl =>
    obtain ⟨l, hl⟩ := dconn_refl E C a
    refine ⟨[a], ⟨rfl, rfl, ?_, ?_⟩, Or.inl ⟨rfl, rfl⟩⟩
    · intro u v h; have := h.length_le; simp at this
    · intro u v w h; have := h.length_le; simp at this
  | tail _ hst ih =>
    rename_i s t _
    obtain ⟨l, hw, hl⟩ := ih
    obtain ⟨h1, h2, h3, h4⟩ := hst
    obtain ⟨p, rfl⟩ : ∃ p, l = p ++ [s.2] := by
      have := hw.last
      rwa [List.getLast?_eq_some_iff] at this
    refine ⟨p ++ [s.2, t.2], ⟨?_, by simp, ?_, ?_⟩, Or.inr ⟨p, s.2, rfl, h1⟩⟩
    · have := hw.head; cases p <;> simpa using this
    · intro x y hxy
      rcases MG.infix2_append (r := [t.2]) hxy with h | h
      · exact hw.adj x y h
      · have := List.IsInfix.eq_of_length h (by simp)
        simp at this; obtain ⟨rfl, rfl⟩ := this; exact h2
    · intro x y z hxyz
      rcases MG.infix3_append (r := [t.2]) hxyz with h | h | ⟨rfl, g2, g3⟩
      · exact hw.opn x y z h
      · have := h.length_le; simp at this
      · obtain ⟨p', rfl⟩ := g2
        simp at g3; subst g3
        rcases hl with ⟨hl, _⟩ | ⟨p2, y2, hp2, hs⟩
        · have := congrArg List.length hl; simp at this
        · have : p' ++ [x, s.2] = p2 ++ [y2, s.2] := by simpa using hp2
          obtain ⟨_, h5⟩ := List.append_inj' this rfl
          simp at h5; subst h5
          simpa [hs, MG.Open] using h4

theorem legal_of_path {E : α → α → Prop} {C : Set α} {a : α} (ha : a ∉ C) :
    ∀ (l : List α) (b : α), (mg E).Walk C a b l → l.Nodup →
    ∃ s : Option α × α, s.2 = b ∧ ReflTransGen (Legal E C) (none, a) s ∧
      ((l = [a] ∧ s.1 = none) ∨ ∃ p y, l = p ++ [y, b] ∧ s.1 = some y) := by
  intro l
  induction l using List.reverseRecOn with
  | nil => intro b h; have := h.head; simp at this
  | append_singleton l x ih =>
    intro b h hn
    have hb : x = b := by have := h.last; simpa using this
    subst hb
    rcases List.eq_nil_or_concat l with rfl | ⟨p, y, rfl⟩
    · have := h.head; simp at this; subst this
      exact ⟨(none, x), rfl, .refl, Or.inl ⟨rfl, rfl⟩⟩
    · have hw : (mg E).Walk C a y (p ++ [y]) := h.mono_infix ⟨[], [x], by simp⟩
        (by have := h.head; cases p <;> simpa using this) (by simp)
      obtain ⟨s, rfl, hr, hd⟩ := ih y (by simpa using hw) (List.Nodup.of_append_left hn)
      refine ⟨(some s.2, x), rfl, hr.tail ⟨rfl, h.adj s.2 x ⟨p, [], by simp⟩, ?_, ?_⟩,
        Or.inr ⟨p, s.2, by simp, rfl⟩⟩
      · rcases hd with ⟨_, h1⟩ | ⟨p', z, h1, h2⟩
        · simp [h1]
        · rw [h2]
          have h1 : p ++ [s.2] = (p' ++ [z]) ++ [s.2] := by simpa using h1
          obtain ⟨rfl, _⟩ := List.append_inj' h1 rfl
          intro hzx
          simp at hzx; subst hzx
          simp [List.nodup_append] at hn
      · rcases hd with ⟨h1, h2⟩ | ⟨p', z, h1, h2⟩
        · have : s.2 = a := by
            cases p with
            | nil => simpa using h1
            | cons q p => simp at h1
          rw [h2]
          refine ⟨by simp, fun _ => by rw [this]; exact ha⟩
        · have h1 : p ++ [s.2] = (p' ++ [z]) ++ [s.2] := by simpa using h1
          obtain ⟨rfl, _⟩ := List.append_inj' h1 rfl
          have := h.opn z s.2 x ⟨p', [], by simp⟩
          simpa [h2, MG.Open] using this

theorem nextLinks_iff (hG : G.Valid) {C desc : Finset α}
    (hd : ∀ x, x ∈ desc ↔ (mg G.E).An (C : Set α) x) (I L : Finset (Option α × α)) (t : Option α × α) :
    t ∈ nextLinks G C desc I L ↔ t ∉ L ∧ ∃ s ∈ I, Legal G.E C s t := by
  have hch : ∀ v w, w ∈ G.children v ↔ G.E v w := hG.children_iff
  have hnb : ∀ v w, w ∈ G.neighbors v ↔ Adj G.E v w := fun v w => by
    rw [hG.neighbors_iff]; exact Or.comm
  have key : ∀ (s : Option α × α) (w : α), (if (∃ u, s.1 = some u ∧ s.2 ∈ G.children u) ∧ s.2 ∈ G.children w then s.2 ∈ desc
        else s.2 ∉ C) ↔ (((∃ u, s.1 = some u ∧ G.E u s.2) ∧ G.E w s.2 → (mg G.E).An C s.2) ∧
     (¬ ((∃ u, s.1 = some u ∧ G.E u s.2) ∧ G.E w s.2) → s.2 ∉ (C : Set α))) := by
    intro s w
    simp only [hch, hd]
    by_cases h : (∃ u, s.1 = some u ∧ G.E u s.2) ∧ G.E w s.2 <;> simp [h]
  unfold nextLinks Legal
  simp only [Finset.mem_biUnion, Finset.mem_image, Finset.mem_filter, key, hnb]
  constructor
  · rintro ⟨s, hs, w, ⟨h1, h2, h3, h4⟩, rfl⟩
    exact ⟨h3, s, hs, rfl, h1, h2, h4⟩
  · rintro ⟨h3, s, hs, h0, h1, h2, h4⟩
    exact ⟨s, hs, t.2, ⟨h1, h2, by rw [← h0]; exact h3, h4⟩, by rw [← h0]⟩

theorem linkLoop_spec (hG : G.Valid) {C desc : Finset α}
    (hd : ∀ x, x ∈ desc ↔ (mg G.E).An (C : Set α) x) (A : Finset α) :
    ∀ (n : Nat) (R : Finset α) (I L : Finset (Option α × α)),
      2 * (((insert none ((G.nodes ∪ A).image some)) ×ˢ (G.nodes ∪ A)) \ L).card +
        (if I ⊆ L then 1 else 0) ≤ n →
      (∀ s ∈ I ∪ L, s ∈ (insert none ((G.nodes ∪ A).image some)) ×ˢ (G.nodes ∪ A)) →
      (∀ s ∈ I ∪ L, ∃ a ∈ A, ReflTransGen (Legal G.E C) (none, a) s) →
      (∀ a ∈ A, (none, a) ∈ I ∪ L) →
      (∀ s ∈ L, ∀ t, Legal G.E C s t → t ∈ I ∪ L) →
      (∀ x, x ∈ R ↔ ∃ s ∈ I ∪ L, s.2 = x) →
      ∃ R', linkLoop G C desc R I L = some R' ∧
        ∀ x, x ∈ R' ↔ ∃ a ∈ A, ∃ s, ReflTransGen (Legal G.E C) (none, a) s ∧ s.2 = x := by
  set U := (insert none ((G.nodes ∪ A).image some)) ×ˢ (G.nodes ∪ A) with hU
  intro n
  induction n with
  | zero =>
    intro R I L hn hsub hreach hA hcl hR
    have h0 : ¬ I ⊆ L := fun h => by simp [h] at hn
    obtain ⟨x, hx, hxL⟩ := Finset.not_subset.1 h0
    have : x ∈ U \ L := by simp [hsub x (Finset.mem_union_left _ hx), hxL]
    have := Finset.card_pos.2 ⟨x, this⟩
    omega
  | succ n ih =>
    intro R I L hn hsub hreach hA hcl hR
    rw [linkLoop]
    have hnext := nextLinks_iff hG hd I L
    generalize nextLinks G C desc I L = N at hnext ⊢
    by_cases hN : N.card = 0
    · rw [if_pos hN]
      rw [Finset.card_eq_zero] at hN
      subst hN
      refine ⟨R, rfl, fun x => ?_⟩
      rw [hR]
      constructor
      · rintro ⟨s, hs, rfl⟩
        obtain ⟨a, ha, h⟩ := hreach s hs
        exact ⟨a, ha, s, h, rfl⟩
      · rintro ⟨a, ha, s, h, rfl⟩
        refine ⟨s, ?_, rfl⟩
        induction h with
        | refl => exact hA a ha
        | tail _ hst ih =>
          rename_i s t _
          rcases Finset.mem_union.1 ih with h1 | h1
          · by_contra hc
            have := (hnext t).2 ⟨fun h => hc (Finset.mem_union_right _ h), s, h1, hst⟩
            simp at this
          · exact hcl s h1 t hst
    · rw [if_neg hN]
      have hNU : ∀ t ∈ N, t ∈ U := by
        intro t ht
        obtain ⟨_, s, hs, h0, h1, _⟩ := (hnext t).1 ht
        have hsU := hsub s (Finset.mem_union_left _ hs)
        have ht2 : t.2 ∈ G.nodes := by
          rcases h1 with h1 | h1
          · exact hG.snd_mem _ _ h1
          · exact hG.fst_mem _ _ h1
        rw [hU, Finset.mem_product] at hsU ⊢
        rw [h0]
        refine ⟨?_, Finset.mem_union_left _ ht2⟩
        simp only [Finset.mem_insert, reduceCtorEq, Finset.mem_image, Option.some.injEq,
          exists_eq_right, false_or]
        exact hsU.2
      refine ih _ N (L ∪ I) ?_ ?_ ?_ ?_ ?_ ?_
      · by_cases hIL : I ⊆ L
        · have hLI : L ∪ I = L := Finset.union_eq_left.2 hIL
          rw [hLI]
          have : ¬ N ⊆ L := by
            obtain ⟨t, ht⟩ := Finset.card_pos.1 (Nat.pos_of_ne_zero hN)
            exact fun h => ((hnext t).1 ht).1 (h ht)
          simp [this, hIL] at hn ⊢
          omega
        · obtain ⟨x, hx, hxL⟩ := Finset.not_subset.1 hIL
          have h1 : (U \ (L ∪ I)).card < (U \ L).card := by
            refine Finset.card_lt_card ⟨Finset.sdiff_subset_sdiff le_rfl Finset.subset_union_left, ?_⟩
            intro h
            have : x ∈ U \ L := by simp [hsub x (Finset.mem_union_left _ hx), hxL]
            have := h this
            simp [hx] at this
          simp only [hIL, if_false] at hn
          split_ifs <;> omega
      · intro s hs
        rcases Finset.mem_union.1 hs with hs | hs
        · exact hNU s hs
        · exact hsub s (by rwa [Finset.union_comm])
      · intro s hs
        rcases Finset.mem_union.1 hs with hs | hs
        · obtain ⟨_, r, hr, hrs⟩ := (hnext s).1 hs
          obtain ⟨a, ha, h⟩ := hreach r (Finset.mem_union_left _ hr)
          exact ⟨a, ha, h.tail hrs⟩
        · exact hreach s (by rwa [Finset.union_comm])
      · intro a ha
        have := hA a ha
        simp only [Finset.mem_union] at this ⊢
        tauto
      · intro s hs t hst
        by_cases htL : t ∈ L
        · simp [htL]
        rcases Finset.mem_union.1 hs with hs | hs
        · have := hcl s hs t hst
          simp only [Finset.mem_union] at this ⊢
          tauto
        · exact Finset.mem_union_left _ ((hnext t).2 ⟨htL, s, hs, hst⟩)
      · intro x
        simp only [Finset.mem_union, hR, Finset.mem_image]
        constructor
        · rintro (⟨s, hs, rfl⟩ | ⟨s, hs, rfl⟩)
          · exact ⟨s, by tauto, rfl⟩
          · exact ⟨s, by tauto, rfl⟩
        · rintro ⟨s, hs | hs | hs, rfl⟩
          · exact Or.inr ⟨s, hs, rfl⟩
          · exact Or.inl ⟨s, Or.inr hs, rfl⟩
          · exact Or.inl ⟨s, Or.inl hs, rfl⟩

/-- `dsep_from_given(A, C)` returns the nodes outside `A ∪ C` that are d-separated from `A`. -/
theorem dsepFromGiven_spec (hG : G.Valid) (o : SepOracle α) (A C : Finset α) (hAC : Disjoint A C) :
    ∃ s, dsepFromGiven G o A C = some s ∧
      ∀ x, x ∈ s ↔ x ∈ G.nodes ∧ x ∉ A ∧ x ∉ C ∧ DSep G.E A {x} C := by
  obtain ⟨desc, hd, hd'⟩ := ancestorsPlus_spec hG.toConsistent o C
  obtain ⟨R, hR, hR'⟩ := linkLoop_spec hG hd' A _ A (A.image (none, ·)) ∅ le_rfl
    (by intro s hs; simp at hs; obtain ⟨a, ha, rfl⟩ := hs; simp [ha])
    (by intro s hs; simp at hs; obtain ⟨a, ha, rfl⟩ := hs; exact ⟨a, ha, .refl⟩)
    (by intro a ha; simp [ha]) (by simp) (by intro x; simp)
  refine ⟨((G.nodes \ A) \ C) \ R, by simp [dsepFromGiven, hd, hR], fun x => ?_⟩
  simp only [Finset.mem_sdiff, hR', Spec.dsep_iff]
  constructor
  · rintro ⟨⟨⟨h1, h2⟩, h3⟩, h4⟩
    refine ⟨h1, h2, h3, ?_⟩
    rintro a ha b rfl hconn
    obtain ⟨l, hl⟩ := dconn_iff.1 hconn
    obtain ⟨hw, hn⟩ := activePath_iff.1 hl
    obtain ⟨s, hs, hr, _⟩ := legal_of_path (C := (C : Set α))
      (by simpa using Finset.disjoint_left.1 hAC ha) l b hw hn
    exact h4 ⟨a, ha, s, hr, hs⟩
  · rintro ⟨h1, h2, h3, h4⟩
    refine ⟨⟨⟨h1, h2⟩, h3⟩, ?_⟩
    rintro ⟨a, ha, s, hr, rfl⟩
    obtain ⟨l, hw, _⟩ := walk_of_legal hr
    exact h4 a ha s.2 rfl ⟨l, hw⟩

end Model.DAG
