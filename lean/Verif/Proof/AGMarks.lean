import Verif.Model.AGMarks
import Verif.Spec.MarkChange
import Verif.Proof.MarkMax
import Verif.Proof.AGEquiv

/-! # `legitimate_mark_changes` -/

namespace Spec.Mixed

universe u
variable {α : Type u} {M N X : Mixed α} {i j : α} {V : Set α}
open Relation

theorem flip_toBi (hM : M.Anc) (hun : ∀ u v, ¬ M.un u v) (h : M.dir i j) : Flip M (M.toBi i j) i j where
  ne := by rintro rfl; exact hM.irrefl _ h
  dir_iff u v := by
    unfold toBi; constructor
    · intro k
      by_cases e : u = i ∧ v = j
      · exact Or.inr e
      · exact Or.inl ⟨k, e⟩
    · rintro (k | ⟨rfl, rfl⟩)
      · exact k.1
      · exact h
  bi_iff u v := Iff.rfl
  un_M := hun
  un_N := hun
  dir_N k := k.2 ⟨rfl, rfl⟩
  bi_M k := hM.proper.excl _ _ h (Or.inr (hM.bi_symm _ _ k))
  bi_M' k := hM.proper.excl _ _ h (Or.inr k)

theorem flip_toDir (hM : M.Anc) (hun : ∀ u v, ¬ M.un u v) (h : M.bi i j) : Flip (M.toDir i j) M i j where
  ne := by rintro rfl; exact hM.loop _ (Or.inr (Or.inr (Or.inl h)))
  dir_iff u v := Iff.rfl
  bi_iff u v := by
    unfold toDir; constructor
    · intro k
      by_cases e : u = i ∧ v = j
      · exact Or.inr (Or.inl e)
      · by_cases e' : u = j ∧ v = i
        · exact Or.inr (Or.inr e')
        · exact Or.inl ⟨k, e, e'⟩
    · rintro (k | ⟨rfl, rfl⟩ | ⟨rfl, rfl⟩)
      · exact k.1
      · exact h
      · exact hM.bi_symm _ _ h
  un_M := hun
  un_N := hun
  dir_N k := hM.proper.excl _ _ k (Or.inr (hM.bi_symm _ _ h))
  bi_M k := k.2.1 ⟨rfl, rfl⟩
  bi_M' k := k.2.2 ⟨rfl, rfl⟩

/-- An ancestral graph got by changing marks has the other properties too. -/
theorem Flip.anc_of_N (f : Flip M N i j) (hM : M.Anc) (h : N.Ancestral) : N.Anc where
  bi_symm u v h := by
    rw [f.bi_iff] at h ⊢
    rcases h with h | ⟨h1, h2⟩ | ⟨h1, h2⟩
    · exact Or.inl (hM.bi_symm _ _ h)
    · exact Or.inr (Or.inr ⟨h2, h1⟩)
    · exact Or.inr (Or.inl ⟨h2, h1⟩)
  un_symm u v h := absurd h (f.un_N u v)
  loop v h := hM.loop v ((f.adj _ _).2 h)
  anc := h

theorem Flip.anc_of_M (f : Flip M N i j) (hN : N.Anc) (h : M.Ancestral) : M.Anc where
  bi_symm u v h := by
    rcases (f.bi_iff v u).1 (hN.bi_symm _ _ (f.bmono h)) with k | ⟨rfl, rfl⟩ | ⟨rfl, rfl⟩
    · exact k
    · exact absurd h f.bi_M'
    · exact absurd h f.bi_M
  un_symm u v h := absurd h (f.un_M u v)
  loop v h := hN.loop v ((f.adj _ _).1 h)
  anc := h

theorem Flip.legit_N (f : Flip M N i j) (hM : M.Anc) (vM : ∀ x y, M.Adj x y → x ∈ V) (mM : M.Maximal V) :
    (N.Ancestral ∧ N.Maximal V ∧ M.MarkovEquiv N V) ↔ M.Legit i j := by
  have vN : ∀ x y, N.Adj x y → x ∈ V := fun x y k => vM x y ((f.adj _ _).2 k)
  constructor
  · rintro ⟨h1, h2, h3⟩
    have hN := f.anc_of_N hM h1
    exact f.legit hM hN ((markovEquiv_iff hM hN mM h2 vM vN).1 h3)
  · intro hl
    have hN := f.anc_N hM hl.toLoose
    have m : N.Maximal V := by
      rw [maximal_iff hN.proper vN]
      intro x hx y hy hxy hna hI
      -- outside of `V` there are no edges
      have := f.max_N hM hN hl (fun x y hxy hna hI => by
        have hx : x ∈ V := by
          obtain ⟨v, w, k1, -, -, -⟩ := hI
          exact vM _ _ (hM.proper.ok.into_adj _ _ k1)
        have hy : y ∈ V := by
          obtain ⟨v, w, -, -, -, k1⟩ := hI
          exact vM _ _ (hM.proper.ok.into_adj _ _ k1)
        exact (maximal_iff hM.proper vM).1 mM x hx y hy hxy hna hI)
      exact this x y hxy hna hI
    exact ⟨hN.anc, m, (markovEquiv_iff hM hN mM m vM vN).2 (f.sameMarks hM hN hl)⟩

theorem Flip.legit_M (f : Flip M N i j) (hN : N.Anc) (vN : ∀ x y, N.Adj x y → x ∈ V) (mN : N.Maximal V) :
    (M.Ancestral ∧ M.Maximal V ∧ N.MarkovEquiv M V) ↔ N.Legit i j := by
  have vM : ∀ x y, M.Adj x y → x ∈ V := fun x y k => vN x y ((f.adj _ _).1 k)
  constructor
  · rintro ⟨h1, h2, h3⟩
    have hM := f.anc_of_M hN h1
    exact (f.legit_iff hN.anc.acyclic).1 (f.legit hM hN ((markovEquiv_iff hN hM mN h2 vN vM).1 h3).symm)
  · intro hl
    have hM := f.anc_M hN hl.toLoose
    have m : M.Maximal V := by
      rw [maximal_iff hM.proper vM]
      intro x hx y hy hxy hna hI
      have := f.max_M hN hl (fun x y hxy hna hI => by
        have hx : x ∈ V := by
          obtain ⟨v, w, k1, -, -, -⟩ := hI
          exact vN _ _ (hN.proper.ok.into_adj _ _ k1)
        have hy : y ∈ V := by
          obtain ⟨v, w, -, -, -, k1⟩ := hI
          exact vN _ _ (hN.proper.ok.into_adj _ _ k1)
        exact (maximal_iff hN.proper vN).1 mN x hx y hy hxy hna hI)
      exact this x y hxy hna hI
    refine ⟨hM.anc, m, (markovEquiv_iff hN hM mN m vN vM).2 (f.sameMarks hM hN ((f.legit_iff hN.anc.acyclic).2 hl)).symm⟩

theorem Flip.loose_N (f : Flip M N i j) (hM : M.Anc) : (N.Ancestral ∧ M.SameColliders N) ↔ M.Loose i j :=
  ⟨fun h => f.loose hM (f.anc_of_N hM h.1) h.2, fun h => ⟨(f.anc_N hM h).anc, f.sameColliders hM h⟩⟩

theorem SameColliders.symm (h : M.SameColliders N) : N.SameColliders M :=
  ⟨fun u v => (h.1 u v).symm, fun u v w => (h.2 u v w).symm⟩

theorem Flip.loose_M (f : Flip M N i j) (hN : N.Anc) : (M.Ancestral ∧ N.SameColliders M) ↔ N.Loose i j := by
  constructor
  · intro h
    exact (f.loose_iff hN.anc.acyclic).1 (f.loose (f.anc_of_M hN h.1) hN h.2.symm)
  · intro h
    have hM := f.anc_M hN h
    exact ⟨hM.anc, (f.sameColliders hM ((f.loose_iff hN.anc.acyclic).2 h)).symm⟩

end Spec.Mixed

namespace Model

universe u
variable {α : Type u} [DecidableEq α] {A : AG α}
open Relation Spec

namespace AG

theorem discBlocked_iff {d : PathDict α}
    (hd : ∀ l, d.lookup l ≠ none ↔ ∃ x qs q b c, l = x :: (qs ++ [q, b, c]) ∧ A.mixed.Discriminating x (qs ++ [q]) b c)
    (i j : α) : discBlocked d i j = true ↔ ∃ x qs, A.mixed.Discriminating x qs i j := by
  unfold discBlocked
  rw [List.any_eq_true]
  constructor
  · rintro ⟨l, hl, k⟩
    rw [Bool.and_eq_true, decide_eq_true_iff, decide_eq_true_iff] at k
    have : d.lookup l ≠ none := by
      intro h
      obtain ⟨e, he, rfl⟩ := List.mem_map.1 hl
      rw [List.lookup_eq_none_iff] at h
      simpa using h e he
    obtain ⟨x, qs, q, b, c, rfl, hD⟩ := (hd l).1 this
    have e1 : (x :: (qs ++ [q, b, c])).getLast? = some c := by
      rw [show x :: (qs ++ [q, b, c]) = (x :: (qs ++ [q, b])) ++ [c] by simp, List.getLast?_append]; simp
    have e2 : (x :: (qs ++ [q, b, c])).dropLast.getLast? = some b := by
      rw [show x :: (qs ++ [q, b, c]) = (x :: (qs ++ [q]) ++ [b]) ++ [c] by simp, List.dropLast_concat, List.getLast?_append]; simp
    rw [e1, e2] at k
    obtain ⟨rfl, rfl⟩ : b = i ∧ c = j := by simpa using k
    exact ⟨x, qs ++ [q], hD⟩
  · rintro ⟨x, qs, hD⟩
    obtain ⟨t, q, rfl⟩ : ∃ t q, qs = t ++ [q] := by
      rcases List.eq_nil_or_concat qs with e | ⟨t, q, e⟩
      · exact absurd e hD.nonempty
      · exact ⟨t, q, by simpa using e⟩
    have := (hd _).2 ⟨x, t, q, i, j, rfl, hD⟩
    refine ⟨x :: (t ++ [q, i, j]), ?_, ?_⟩
    · by_contra hn
      apply this
      rw [List.lookup_eq_none_iff]
      intro e he
      by_contra hb
      exact hn (List.mem_map.2 ⟨e, he, by simpa using (Eq.symm (by simpa using hb))⟩)
    · rw [Bool.and_eq_true, decide_eq_true_iff, decide_eq_true_iff]
      constructor
      · rw [show x :: (t ++ [q, i, j]) = (x :: (t ++ [q]) ++ [i]) ++ [j] by simp, List.dropLast_concat, List.getLast?_append]; simp
      · rw [show x :: (t ++ [q, i, j]) = (x :: (t ++ [q, i])) ++ [j] by simp, List.getLast?_append]; simp

theorem parentsCond_iff (hc : A.Consistent) {i j : α} : A.parentsCond i j = true ↔ ∀ c, A.mixed.dir c i → A.mixed.dir c j := by
  unfold parentsCond
  rw [decide_eq_true_iff, Finset.sdiff_eq_empty_iff_subset]
  constructor
  · intro h c hcd; exact (hc.parents_iff _ _).1 (h ((hc.parents_iff _ _).2 hcd))
  · intro h c hcd; exact (hc.parents_iff _ _).2 (h c ((hc.parents_iff _ _).1 hcd))

theorem noOtherPath_iff (hg : A.Good) (ha : A.mixed.Ancestral) {anc : α → Finset α}
    (h : ∀ v ∈ A.nodes, ∀ x, x ∈ anc v ↔ Path A.mixed.dir x v) {i j : α} (hj : j ∈ A.nodes) :
    A.noOtherPath anc i j = true ↔ ∀ c, A.mixed.dir i c → c ≠ j → ¬ Path A.mixed.dir c j := by
  unfold noOtherPath
  rw [decide_eq_true_iff, Finset.eq_empty_iff_forall_notMem]
  constructor
  · intro k c h1 h2 h3
    refine k c (Finset.mem_inter.2 ⟨Finset.mem_erase.2 ⟨?_, (h j hj c).2 h3⟩, (hg.1.children_iff _ _).2 h1⟩)
    rintro rfl; exact hg.1.dir_ne _ h1
  · intro k c hc
    obtain ⟨h1, h2⟩ := Finset.mem_inter.1 hc
    have h3 := (h j hj c).1 (Finset.mem_erase.1 h1).2
    refine k c ((hg.1.children_iff _ _).1 h2) ?_ h3
    rintro rfl; exact ha.acyclic _ h3

theorem mem_bothOrientations (hc : A.Consistent) {i j : α} : (i, j) ∈ A.bothOrientations ↔ A.mixed.bi i j := by
  unfold bothOrientations
  simp only [Finset.mem_biUnion, Finset.mem_offDiag]
  constructor
  · rintro ⟨e, he, h1, h2, h3⟩
    obtain ⟨a, b, hab, rfl⟩ := hc.bi_pair e he
    simp only [Finset.mem_insert, Finset.mem_singleton] at h1 h2
    rcases h1 with rfl | rfl <;> rcases h2 with rfl | rfl
    · exact absurd rfl h3
    · exact he
    · rw [Finset.pair_comm] at he; exact he
    · exact absurd rfl h3
  · intro h
    exact ⟨_, h, by simp, by simp, hc.bi_ne h⟩

theorem spousesCond_dir (hg : A.Good) {i j : α} (hd : A.mixed.dir i j) :
    (A.spouses i \ A.spouses j) \ A.parents j = ∅ ↔ ∀ d, d ≠ j → A.mixed.bi d i → A.mixed.Into d j := by
  rw [sdiff_sdiff, Finset.sdiff_eq_empty_iff_subset]
  constructor
  · intro h d hdj hb
    have := h ((hg.1.spouses_iff _ _).2 hb)
    rw [Finset.sup_eq_union, Finset.mem_union, hg.1.spouses_iff, hg.1.parents_iff] at this
    exact this.symm
  · intro h d hb
    rw [hg.1.spouses_iff] at hb
    rw [Finset.sup_eq_union, Finset.mem_union, hg.1.spouses_iff, hg.1.parents_iff]
    refine (h d ?_ hb).symm
    rintro rfl
    rw [Finset.pair_comm] at hb
    exact hg.2.dir_bi _ _ hd hb

theorem spousesCond_bi (hg : A.Good) {i j : α} :
    ((A.spouses i).erase j \ A.spouses j) \ A.parents j = ∅ ↔ ∀ d, d ≠ j → A.mixed.bi d i → A.mixed.Into d j := by
  rw [sdiff_sdiff, Finset.sdiff_eq_empty_iff_subset]
  constructor
  · intro h d hdj hb
    have := h (Finset.mem_erase.2 ⟨hdj, (hg.1.spouses_iff _ _).2 hb⟩)
    rw [Finset.sup_eq_union, Finset.mem_union, hg.1.spouses_iff, hg.1.parents_iff] at this
    exact this.symm
  · intro h d hb
    obtain ⟨hdj, hb⟩ := Finset.mem_erase.1 hb
    rw [hg.1.spouses_iff] at hb
    rw [Finset.sup_eq_union, Finset.mem_union, hg.1.spouses_iff, hg.1.parents_iff]
    exact (h d hdj hb).symm

theorem sdiff_swap (s t r : Finset α) : (s \ t) \ r = (s \ r) \ t := by
  ext x; simp only [Finset.mem_sdiff]; tauto

theorem legitimateMarkChanges_spec (hg : A.Good) (ha : A.mixed.Ancestral) (hun : A.undirected = ∅) (w : MarkOracle α) :
    ∃ D B, A.legitimateMarkChanges w = pure (D, B) ∧
      (∀ i j, (i, j) ∈ D ↔ A.mixed.dir i j ∧ A.mixed.Legit i j) ∧
      ∀ i j, (i, j) ∈ B ↔ A.mixed.bi i j ∧ A.mixed.Legit i j := by
  obtain ⟨d, hd, hk, -⟩ := discriminatingPaths_spec hg ha w.disc
  obtain ⟨anc, han, hanc⟩ := ancestorDict_spec hg ha w.top w.spouse w.kids
  refine ⟨?_, ?_, ?_, ?_, ?_⟩
  · exact A.directed.filter fun e => A.parentsCond e.1 e.2 ∧ (A.spouses e.1 \ A.spouses e.2) \ A.parents e.2 = ∅ ∧
        A.noOtherPath anc e.1 e.2 ∧ !discBlocked d e.1 e.2
  · exact A.bothOrientations.filter fun e => A.parentsCond e.1 e.2 ∧
        ((A.spouses e.1).erase e.2 \ A.spouses e.2) \ A.parents e.2 = ∅ ∧
        A.noOtherPath anc e.1 e.2 ∧ !discBlocked d e.1 e.2
  · unfold legitimateMarkChanges
    rw [if_neg (by simp [hun]), hd]
    have : ancestorDict A w.top w.spouse w.kids = pure anc := han
    rw [this]; rfl
  · intro i j
    rw [Finset.mem_filter]
    refine and_congr_right fun hij => ?_
    have hj := (hg.1.dir_mem _ _ hij).2
    rw [parentsCond_iff hg.1, spousesCond_dir hg hij, noOtherPath_iff hg ha hanc hj, Bool.not_eq_true', ← Bool.not_eq_true,
      discBlocked_iff hk]
    exact ⟨fun h => ⟨⟨h.1, h.2.1, h.2.2.1⟩, fun x qs k => h.2.2.2 ⟨x, qs, k⟩⟩,
      fun h => ⟨h.par, h.sp, h.path, fun ⟨x, qs, k⟩ => h.disc x qs k⟩⟩
  · intro i j
    rw [Finset.mem_filter, mem_bothOrientations hg.1]
    refine and_congr_right fun hij => ?_
    have hj : j ∈ A.nodes := hg.1.bi_mem _ hij (by simp)
    rw [parentsCond_iff hg.1, spousesCond_bi hg, noOtherPath_iff hg ha hanc hj, Bool.not_eq_true', ← Bool.not_eq_true,
      discBlocked_iff hk]
    exact ⟨fun h => ⟨⟨h.1, h.2.1, h.2.2.1⟩, fun x qs k => h.2.2.2 ⟨x, qs, k⟩⟩,
      fun h => ⟨h.par, h.sp, h.path, fun ⟨x, qs, k⟩ => h.disc x qs k⟩⟩

theorem looseMarkChanges_spec (hg : A.Good) (ha : A.mixed.Ancestral) (hun : A.undirected = ∅) (w : MarkOracle α) :
    ∃ D B, A.looseMarkChanges w = pure (D, B) ∧
      (∀ i j, (i, j) ∈ D ↔ A.mixed.dir i j ∧ A.mixed.Loose i j) ∧
      ∀ i j, (i, j) ∈ B ↔ A.mixed.bi i j ∧ A.mixed.Loose i j := by
  obtain ⟨anc, han, hanc⟩ := ancestorDict_spec hg ha w.top w.spouse w.kids
  refine ⟨?_, ?_, ?_, ?_, ?_⟩
  · exact A.directed.filter fun e => A.parentsCond e.1 e.2 ∧ (A.spouses e.1 \ A.parents e.2) \ A.spouses e.2 = ∅ ∧
        A.noOtherPath anc e.1 e.2
  · exact A.bothOrientations.filter fun e => A.parentsCond e.1 e.2 ∧
        ((A.spouses e.1).erase e.2 \ A.parents e.2) \ A.spouses e.2 = ∅
  · unfold looseMarkChanges
    have : ancestorDict A w.top w.spouse w.kids = pure anc := han
    rw [if_neg (by simp [hun]), this]; rfl
  · intro i j
    rw [Finset.mem_filter]
    refine and_congr_right fun hij => ?_
    have hj := (hg.1.dir_mem _ _ hij).2
    rw [parentsCond_iff hg.1, sdiff_swap, spousesCond_dir hg hij, noOtherPath_iff hg ha hanc hj]
    exact ⟨fun h => ⟨h.1, h.2.1, h.2.2⟩, fun h => ⟨h.par, h.sp, h.path⟩⟩
  · intro i j
    rw [Finset.mem_filter, mem_bothOrientations hg.1]
    refine and_congr_right fun hij => ?_
    rw [parentsCond_iff hg.1, sdiff_swap, spousesCond_bi hg]
    exact ⟨fun h => ⟨h.1, h.2, fun c h1 _ h2 => ha.almost _ _ hij (.head h1 h2)⟩, fun h => ⟨h.par, h.sp⟩⟩

theorem Good.un_empty (hun : A.undirected = ∅) (u v : α) : ¬ A.mixed.un u v := by
  change _ ∉ A.undirected; simp [hun]

theorem un_empty_of (hg : A.Good) (h : ∀ u v, ¬ A.mixed.un u v) : A.undirected = ∅ := by
  rw [Finset.eq_empty_iff_forall_notMem]
  intro e he
  obtain ⟨i, j, -, rfl⟩ := hg.1.un_pair e he
  exact h i j he

/-- What the strict mark changes are. -/
theorem legit_toBi (hg : A.Good) (ha : A.mixed.Ancestral) (hmax : A.mixed.Maximal {v | v ∈ A.nodes}) (hun : A.undirected = ∅)
    {i j : α} (h : A.mixed.dir i j) : A.mixed.Legit i j ↔ (A.mixed.toBi i j).DMAG {v | v ∈ A.nodes} ∧
      A.mixed.MarkovEquiv (A.mixed.toBi i j) {v | v ∈ A.nodes} := by
  rw [← (Mixed.flip_toBi (hg.anc ha) (Good.un_empty hun) h).legit_N (hg.anc ha) (fun _ _ k => (hg.adj_mem k).1) hmax]
  exact ⟨fun k => ⟨⟨Good.un_empty hun, k.1, k.2.1⟩, k.2.2⟩, fun k => ⟨k.1.anc, k.1.max, k.2⟩⟩

theorem legit_toDir (hg : A.Good) (ha : A.mixed.Ancestral) (hmax : A.mixed.Maximal {v | v ∈ A.nodes}) (hun : A.undirected = ∅)
    {i j : α} (h : A.mixed.bi i j) : A.mixed.Legit i j ↔ (A.mixed.toDir i j).DMAG {v | v ∈ A.nodes} ∧
      A.mixed.MarkovEquiv (A.mixed.toDir i j) {v | v ∈ A.nodes} := by
  rw [← (Mixed.flip_toDir (hg.anc ha) (Good.un_empty hun) h).legit_M (hg.anc ha) (fun _ _ k => (hg.adj_mem k).1) hmax]
  exact ⟨fun k => ⟨⟨Good.un_empty hun, k.1, k.2.1⟩, k.2.2⟩, fun k => ⟨k.1.anc, k.1.max, k.2⟩⟩

end AG

end Model
