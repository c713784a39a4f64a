import Verif.Proof.AGDisc

/-! # `discriminating_paths`, `vstructures` and `markov_equivalent` -/

namespace Model

universe u
variable {α : Type u} [DecidableEq α]
open Relation Spec

namespace AG
variable {A B : AG α}

theorem Good.anc (h : A.Good) (ha : A.mixed.Ancestral) : A.mixed.Anc where
  bi_symm := h.proper.bi_symm
  un_symm := h.proper.un_symm
  loop v k := by
    rcases k with k | k | k | k
    · exact h.1.dir_ne _ k
    · exact h.1.dir_ne _ k
    · exact h.1.bi_ne k rfl
    · exact h.1.un_ne k rfl
  anc := ha

omit [DecidableEq α] in
theorem getLast?_snoc (x q : α) (l : List α) : (x :: (l ++ [q])).getLast? = some q := by
  rw [← List.cons_append, List.getLast?_concat]

/-- A path under construction towards `j`. -/
structure Pre (A : AG α) (j : α) (path : List α) : Prop where
  shape : ∃ x qs q, path = x :: (qs ++ [q]) ∧ x ≠ j ∧ ¬ A.mixed.Adj x j ∧ ∀ y ∈ qs ++ [q], A.mixed.dir y j
  nodup : path.Nodup
  collider : ∀ u v w, [u, v, w] <:+: path → A.mixed.Collider u v w
  last : ∀ u v, [u, v] <:+ path → A.mixed.Into u v

theorem Pre.triple {j : α} {path : List α} (h : A.Pre j path) {f k : α} (hf : path.getLast? = some f)
    (hk : A.mixed.Into k f) (u v w : α) (hi : [u, v, w] <:+: path ++ [k]) : A.mixed.Collider u v w := by
  rcases List.infix_concat_iff.1 hi with hi | hi
  · rw [show [u, v, w] = [u, v] ++ [w] from rfl, List.suffix_concat_iff] at hi
    rcases hi with hi | ⟨t, ht, hs⟩
    · simp at hi
    · obtain ⟨rfl, hw⟩ := List.append_inj' ht rfl
      obtain rfl : w = k := by simpa using hw
      have : f = v := by
        obtain ⟨s, rfl⟩ := hs
        simp at hf
        exact hf.symm
      subst this
      exact ⟨h.last _ _ hs, hk⟩
  · exact h.collider _ _ _ hi

theorem Ext.discriminating (hA : A.mixed.Anc) (hc : A.Consistent) {j : α} {path l : List α}
    (h : Ext A A.colliders j path l) : A.Pre j path → ∃ x qs q b, l = x :: (qs ++ [q, b, j]) ∧ A.mixed.Discriminating x (qs ++ [q]) b j := by
  induction h with
  | @done path f k hf hk hcase =>
    intro hP
    obtain ⟨x, qs, q, rfl, hx, hadj, hpar⟩ := hP.shape
    have hfq : f = q := by rw [getLast?_snoc] at hf; exact (Option.some.inj hf).symm
    subst hfq
    refine ⟨x, qs, f, k, by simp, by simp, ?_, hadj, hpar, ?_, ?_⟩
    · have hj : A.mixed.Adj k j := by
        rcases hcase with ⟨-, h | h⟩ | ⟨-, h⟩
        · exact Or.inr (Or.inr (Or.inl (hA.bi_symm _ _ ((hc.spouses_iff _ _).1 h))))
        · exact Or.inl ((hc.children_iff _ _).1 h)
        · exact Or.inl ((hc.children_iff _ _).1 h)
      have hkj : k ≠ j := by rintro rfl; exact hA.loop _ hj
      have hnj : j ∉ x :: (qs ++ [f]) := by
        intro hm
        rcases List.mem_cons.1 hm with hm | hm
        · exact hx hm.symm
        · exact hA.irrefl _ (hpar _ hm)
      rw [show x :: (qs ++ [f] ++ [k, j]) = (x :: (qs ++ [f])) ++ [k, j] by simp, List.nodup_append]
      refine ⟨hP.nodup, by simp [hkj], ?_⟩
      rintro a ha b hb rfl
      simp only [List.mem_cons, List.not_mem_nil, or_false] at hb
      rcases hb with rfl | rfl
      · exact hk ha
      · exact hnj ha
    · intro u v w hi
      refine hP.triple hf ?_ u v w (by simpa using hi)
      rcases hcase with ⟨h, -⟩ | ⟨h, -⟩
      · exact Or.inr ((hc.spouses_iff _ _).1 h)
      · exact Or.inl ((hc.parents_iff _ _).1 h)
    · rcases hcase with ⟨-, h | h⟩ | ⟨-, h⟩
      · exact Or.inr (Or.inr (Or.inl (hA.bi_symm _ _ ((hc.spouses_iff _ _).1 h))))
      · exact Or.inl ((hc.children_iff _ _).1 h)
      · exact Or.inl ((hc.children_iff _ _).1 h)
  | @step path l f k hf hs hk hcol hj _ ih =>
    intro hP
    have hb := (hc.spouses_iff _ _).1 hs
    refine ih ⟨?_, ?_, hP.triple hf (Or.inr hb), ?_⟩
    · obtain ⟨x, qs, q, rfl, hx, hadj, hpar⟩ := hP.shape
      refine ⟨x, qs ++ [q], k, by simp, hx, hadj, ?_⟩
      intro y hy
      rcases List.mem_append.1 hy with hy | hy
      · exact hpar y hy
      · simp at hy; subst hy; exact (hc.children_iff _ _).1 hj
    · rw [List.nodup_append]
      refine ⟨hP.nodup, by simp, ?_⟩
      rintro a ha b hb rfl
      simp at hb; subst hb; exact hk ha
    · intro u v h
      rw [show [u, v] = [u] ++ [v] from rfl, List.suffix_concat_iff] at h
      rcases h with h | ⟨t, ht, h⟩
      · simp at h
      · obtain ⟨rfl, hv⟩ := List.append_inj' ht rfl
        obtain rfl : v = k := by simpa using hv
        have : f = u := by
          obtain ⟨s, rfl⟩ := h
          simp at hf
          exact hf.symm
        subst this
        exact Or.inr (hA.bi_symm _ _ hb)

theorem ext_of_discriminating (hA : A.mixed.Anc) (hc : A.Consistent) {x q b j : α} {qs : List α}
    (h : A.mixed.Discriminating x (qs ++ [q]) b j) : ∀ (s r : List α) (f : α), qs ++ [q] = r ++ [f] ++ s →
      Ext A A.colliders j (x :: (r ++ [f])) (x :: (qs ++ [q, b, j])) := by
  intro s
  induction s with
  | nil =>
    intro r f e
    obtain ⟨rfl, e⟩ := List.append_inj' (show qs ++ [q] = r ++ [f] by simpa using e) rfl
    obtain rfl : q = f := by simpa using e
    have hqb : A.mixed.Into b q := by
      obtain ⟨u, hu⟩ : ∃ u, [u, q, b] <:+: x :: (qs ++ [q] ++ [b]) := by
        rcases List.eq_nil_or_concat qs with rfl | ⟨t, u, rfl⟩
        · exact ⟨x, [], [], by simp⟩
        · exact ⟨u, x :: t, [], by simp⟩
      exact (h.collider _ _ _ hu).2
    have hlast := h.last
    have hqj := h.parent q (by simp)
    have hbx : b ∉ x :: (qs ++ [q]) := by
      have := h.nodup
      rw [show x :: (qs ++ [q] ++ [b, j]) = (x :: (qs ++ [q])) ++ [b, j] by simp, List.nodup_append] at this
      exact fun hb => this.2.2 b hb b (by simp) rfl
    have hbj : A.mixed.Into b j := hA.into_trans hqb hqj hlast
    have := Ext.done (A := A) (cols := A.colliders) (j := j) (path := x :: (qs ++ [q])) (f := q) (k := b) (getLast?_snoc _ _ _) hbx ?_
    · simpa using this
    · rcases hqb with k | k
      · refine Or.inr ⟨(hc.parents_iff _ _).2 k, (hc.children_iff _ _).2 ?_⟩
        exact hA.dir_trans k hqj hlast
      · refine Or.inl ⟨(hc.spouses_iff _ _).2 k, ?_⟩
        rcases hbj with k | k
        · exact Or.inr ((hc.children_iff _ _).2 k)
        · exact Or.inl ((hc.spouses_iff _ _).2 (hA.bi_symm _ _ k))
  | cons k s ih =>
    intro r f e
    have e' : qs ++ [q] = (r ++ [f]) ++ [k] ++ s := by simpa using e
    have hrec := ih (r ++ [f]) k e'
    have hall := h.nodup
    rw [e'] at hall
    have h1 : A.mixed.Into k f := by
      obtain ⟨u, hu⟩ : ∃ u, [u, f, k] <:+: x :: (qs ++ [q] ++ [b]) := by
        rw [e']
        rcases List.eq_nil_or_concat r with rfl | ⟨t, u, rfl⟩
        · exact ⟨x, [], s ++ [b], by simp⟩
        · exact ⟨u, x :: t, s ++ [b], by simp⟩
      exact (h.collider _ _ _ hu).2
    obtain ⟨w, hw, hfw⟩ : ∃ w, [f, k, w] <:+: x :: (qs ++ [q] ++ [b]) ∧ f ≠ w := by
      rw [e']
      cases s with
      | nil => 
        refine ⟨b, ⟨x :: r, [], by simp⟩, ?_⟩
        rintro rfl
        simp [List.nodup_append] at hall
      | cons w s =>
        refine ⟨w, ⟨x :: r, s ++ [b], by simp⟩, ?_⟩
        rintro rfl
        simp [List.nodup_append] at hall
    obtain ⟨h2, h3⟩ := h.collider _ _ _ hw
    have hbi := hA.bi_of h1 h2
    refine Ext.step (f := f) (k := k) (getLast?_snoc _ _ _) ((hc.spouses_iff _ _).2 hbi) ?_ ?_ ?_ (by simpa using hrec)
    · intro hm
      have : (x :: (r ++ [f]) ++ ([k] ++ s ++ [b, j])).Nodup := by simpa using hall
      rw [List.nodup_append] at this
      exact this.2.2 k (by simpa using hm) k (by simp) rfl
    · have mem : ∀ y, A.mixed.Into y k → y ∈ A.parents k ∪ A.spouses k := by
        rintro y (hy | hy)
        · exact Finset.mem_union_left _ ((hc.parents_iff _ _).2 hy)
        · exact Finset.mem_union_right _ ((hc.spouses_iff _ _).2 hy)
      refine Finset.mem_filter.2 ⟨hc.bi_mem _ hbi (by simp), ?_⟩
      have : ({f, w} : Finset α) ⊆ A.parents k ∪ A.spouses k := by
        intro y hy
        simp only [Finset.mem_insert, Finset.mem_singleton] at hy
        rcases hy with rfl | rfl
        · exact mem _ h2
        · exact mem _ h3
      rw [← Finset.card_pair hfw]
      exact Finset.card_le_card this
    · exact (hc.children_iff _ _).2 (h.parent k (by rw [e']; simp))

theorem found_iff (h : A.Good) (ha : A.mixed.Ancestral) (l : List α) : (∃ j i, A.Found j i l) ↔
    ∃ x qs q b c, l = x :: (qs ++ [q, b, c]) ∧ A.mixed.Discriminating x (qs ++ [q]) b c := by
  have hA := h.anc ha
  have hc := h.1
  constructor
  · rintro ⟨j, i, hi, hij, hp, h1, h2, h3, k, hk, hcol, hkj, hext⟩
    have hkj' := (hc.children_iff _ _).1 hkj
    have hpre : A.Pre j [i, k] := by
      refine ⟨⟨i, [], k, rfl, hij, ?_, ?_⟩, ?_, ?_, ?_⟩
      · rintro (g | g | g | g)
        · exact h1 ((hc.parents_iff _ _).2 g)
        · exact h2 ((hc.children_iff _ _).2 g)
        · exact h3 ((hc.spouses_iff _ _).2 g)
        · exact ha.tails _ _ _ (hA.un_symm _ _ g) (Or.inl hkj')
      · intro y hy; simp at hy; subst hy; exact hkj'
      · simp only [List.nodup_cons, List.mem_singleton, List.not_mem_nil, not_false_eq_true, List.nodup_nil, and_true]
        rintro rfl
        exact h1 ((hc.parents_iff _ _).2 hkj')
      · intro u v w hi
        have := hi.length_le
        simp at this
      · intro u v hs
        have := hs.eq_of_length rfl
        simp at this
        obtain ⟨rfl, rfl⟩ := this
        rcases Finset.mem_union.1 hk with hk | hk
        · exact Or.inr (hA.bi_symm _ _ ((hc.spouses_iff _ _).1 hk))
        · exact Or.inl ((hc.children_iff _ _).1 hk)
    obtain ⟨x, qs, q, b, e, hd⟩ := hext.discriminating hA hc hpre
    exact ⟨x, qs, q, b, j, e, hd⟩
  · rintro ⟨x, qs, q, b, j, rfl, hd⟩
    obtain ⟨f, s, e⟩ : ∃ f s, qs ++ [q] = [f] ++ s := by
      cases qs with
      | nil => exact ⟨q, [], rfl⟩
      | cons a t => exact ⟨a, t ++ [q], rfl⟩
    have hext := ext_of_discriminating hA hc hd s [] f (by simpa using e)
    have hfj := hd.parent f (by rw [e]; simp)
    obtain ⟨w, hw, hxw⟩ : ∃ w, [x, f, w] <:+: x :: (qs ++ [q] ++ [b]) ∧ x ≠ w := by
      have hall := hd.nodup
      rw [e] at hall ⊢
      cases s with
      | nil => 
        refine ⟨b, ⟨[], [], by simp⟩, ?_⟩
        rintro rfl
        simp at hall
      | cons w s =>
        refine ⟨w, ⟨[], s ++ [b], by simp⟩, ?_⟩
        rintro rfl
        simp at hall
    obtain ⟨h2, h3⟩ := hd.collider _ _ _ hw
    have hxj : x ≠ j := by
      rintro rfl
      have := hd.nodup
      simp at this
    have mem : ∀ y, A.mixed.Into y f → y ∈ A.parents f ∪ A.spouses f := by
      rintro y (hy | hy)
      · exact Finset.mem_union_left _ ((hc.parents_iff _ _).2 hy)
      · exact Finset.mem_union_right _ ((hc.spouses_iff _ _).2 hy)
    refine ⟨j, x, ?_, hxj, ?_, ?_, ?_, ?_, f, ?_, ?_, (hc.children_iff _ _).2 hfj, by simpa using hext⟩
    · exact (h.adj_mem (hA.proper.ok.into_adj _ _ h2)).1
    · exact Finset.nonempty_iff_ne_empty.1 ⟨f, (hc.parents_iff _ _).2 hfj⟩
    · exact fun k => hd.start (Or.inl ((hc.parents_iff _ _).1 k))
    · exact fun k => hd.start (Or.inr (Or.inl ((hc.children_iff _ _).1 k)))
    · exact fun k => hd.start (Or.inr (Or.inr (Or.inl ((hc.spouses_iff _ _).1 k))))
    · rcases h2 with k | k
      · exact Finset.mem_union_right _ ((hc.children_iff _ _).2 k)
      · exact Finset.mem_union_left _ ((hc.spouses_iff _ _).2 (hA.bi_symm _ _ k))
    · refine Finset.mem_filter.2 ⟨(h.adj_mem (hA.proper.ok.into_adj _ _ h2)).2, ?_⟩
      have : ({x, w} : Finset α) ⊆ A.parents f ∪ A.spouses f := by
        intro y hy
        simp only [Finset.mem_insert, Finset.mem_singleton] at hy
        rcases hy with rfl | rfl
        · exact mem _ h2
        · exact mem _ h3
      rw [← Finset.card_pair hxw]
      exact Finset.card_le_card this

/-- On a discriminating path the label is that of a collider. -/
theorem lab_iff (hA : A.mixed.Anc) (hc : A.Consistent) {x q b c : α} {qs : List α}
    (hd : A.mixed.Discriminating x (qs ++ [q]) b c) :
    A.lab (x :: (qs ++ [q, b, c])) = true ↔ A.mixed.Collider q b c := by
  rw [show x :: (qs ++ [q, b, c]) = (x :: (qs ++ [q])) ++ [b, c] by simp, lab_append, decide_eq_true_iff, hc.spouses_iff]
  have hqb : A.mixed.Into b q := by
    obtain ⟨u, hu⟩ : ∃ u, [u, q, b] <:+: x :: (qs ++ [q] ++ [b]) := by
      rcases List.eq_nil_or_concat qs with rfl | ⟨t, u, rfl⟩
      · exact ⟨x, [], [], by simp⟩
      · exact ⟨u, x :: t, [], by simp⟩
    exact (hd.collider _ _ _ hu).2
  have hqc := hd.parent q (by simp)
  constructor
  · intro k
    refine ⟨?_, Or.inr k⟩
    rcases hqb with g | g
    · have := hA.dir_trans g hqc hd.last
      exact absurd (Or.inr k) (hA.proper.excl _ _ this)
    · exact Or.inr (hA.bi_symm _ _ g)
  · rintro ⟨-, k | k⟩
    · exact absurd (hA.into_trans hqb hqc hd.last) (hA.proper.excl _ _ k)
    · exact k

theorem discriminatingPaths_spec (h : A.Good) (ha : A.mixed.Ancestral) (o : DiscOracle α) :
    ∃ d, A.discriminatingPaths o = pure d ∧
      (∀ l, d.lookup l ≠ none ↔ ∃ x qs q b c, l = x :: (qs ++ [q, b, c]) ∧ A.mixed.Discriminating x (qs ++ [q]) b c) ∧
      ∀ x qs q b c, A.mixed.Discriminating x (qs ++ [q]) b c →
        (d.lookup (x :: (qs ++ [q, b, c])) = some true ↔ A.mixed.Collider q b c) := by
  rcases discriminatingPaths_ok h o with ⟨d, hd, hk⟩ | ⟨_, _, hk⟩
  swap
  · exact hk.elim
  have hkey : ∀ l, d.lookup l ≠ none ↔ ∃ x qs q b c, l = x :: (qs ++ [q, b, c]) ∧ A.mixed.Discriminating x (qs ++ [q]) b c := by
    intro l
    rw [← found_iff h ha]
    by_cases hl : ∃ j i, A.Found j i l
    · simp [(hk l).1 hl, hl]
    · simp [(hk l).2 hl, hl]
  refine ⟨d, hd, hkey, ?_⟩
  intro x qs q b c hdisc
  rw [← lab_iff (h.anc ha) h.1 hdisc, (hk _).1 ((found_iff h ha _).2 ⟨x, qs, q, b, c, rfl, hdisc⟩), Option.some_inj]

end AG

end Model
