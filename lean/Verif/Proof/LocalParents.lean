import Verif.Proof.Complete
import Verif.Spec.PDAGRest

/-! # Parents of one node in the members of a class -/

namespace Spec

universe u
variable {α : Type u} [DecidableEq α] {U E F B : α → α → Prop}

/-- An elimination order in which a clique comes first, its last member being a given vertex. -/
theorem Elim.rankClique (hsym : ∀ a b, U a b → U b a) (hirr : ∀ a, ¬ U a a) {b : α} {S : Finset α} (hb : b ∉ S)
    (hS : ∀ x ∈ insert b S, ∀ y ∈ insert b S, x ≠ y → U x y) :
    ∀ (n : ℕ) (V : Finset α), V.card = n → Elim U V → insert b S ⊆ V →
      ∃ r : α → ℕ, (∀ x ∈ V, ∀ y ∈ V, r x = r y → x = y) ∧ (∀ x ∈ V, r x < n) ∧ (∀ x ∈ V, r x < r b ↔ x ∈ S) ∧
        ∀ x ∈ V, ∀ y ∈ V, ∀ z ∈ V, U x z → U y z → r x < r z → r y < r z → x ≠ y → U x y := by
  intro n
  induction n with
  | zero =>
    intro V hV _ hb'; rw [Finset.card_eq_zero] at hV; subst hV
    exact absurd (hb' (Finset.mem_insert_self _ _)) (Finset.notMem_empty _)
  | succ n ih =>
    intro V hV hel hsub
    by_cases hone : V = insert b S
    · subst hone
      have hlen : (S.toList ++ [b]).length = n + 1 := by
        rw [List.length_append, Finset.length_toList, ← hV, Finset.card_insert_of_notMem hb]; rfl
      have hmem : ∀ x ∈ insert b S, x ∈ S.toList ++ [b] := by
        intro x hx
        rcases Finset.mem_insert.1 hx with rfl | hx
        · simp
        · simp [hx]
      have hbS : b ∉ S.toList := by rw [Finset.mem_toList]; exact hb
      have hrb : (S.toList ++ [b]).idxOf b = S.toList.length := by
        rw [List.idxOf_append_of_notMem hbS]; simp
      refine ⟨fun x => (S.toList ++ [b]).idxOf x, ?_, ?_, ?_, ?_⟩
      · intro x hx y _ hxy; exact (List.idxOf_inj (hmem x hx)).1 hxy
      · intro x hx; rw [← hlen]; exact List.idxOf_lt_length_iff.2 (hmem x hx)
      · intro x hx
        show (S.toList ++ [b]).idxOf x < (S.toList ++ [b]).idxOf b ↔ x ∈ S
        rw [hrb]
        constructor
        · intro h
          rcases Finset.mem_insert.1 hx with rfl | hx
          · rw [hrb] at h; exact absurd h (lt_irrefl _)
          · exact hx
        · intro h
          have hx' : x ∈ S.toList := Finset.mem_toList.2 h
          rw [List.idxOf_append_of_mem hx']; exact List.idxOf_lt_length_iff.2 hx'
      · intro x hx y hy z _ _ _ _ _ hne; exact hS x hx y hy hne
    · obtain ⟨v, hv, hvb, hsv⟩ : ∃ v ∈ V, v ∉ insert b S ∧ Simplicial U V v := by
        rcases hel.dirac hsym hirr with hc | ⟨x, hx, y, hy, hne, hxy, hsx, hsy⟩
        · obtain ⟨v, hv, hvb⟩ : ∃ v ∈ V, v ∉ insert b S := by
            by_contra hno
            push Not at hno
            exact hone (Finset.Subset.antisymm hno hsub)
          exact ⟨v, hv, hvb, fun x hx y hy _ _ hne => hc x hx y hy hne⟩
        · by_cases h : x ∈ insert b S
          · exact ⟨y, hy, fun h' => hxy (hS x h y h' hne), hsy⟩
          · exact ⟨x, hx, h, hsx⟩
      obtain ⟨r, h1, h2, h3, h4⟩ := ih (V.erase v) (by rw [Finset.card_erase_of_mem hv, hV]; rfl)
        (hel.mono (Finset.erase_subset _ _))
        (fun x hx => Finset.mem_erase.2 ⟨by rintro rfl; exact hvb hx, hsub hx⟩)
      have hn : ∀ x ∈ V, x ≠ v → Function.update r v n x = r x ∧ r x < n := fun x hx hxv =>
        ⟨Function.update_of_ne hxv _ _, h2 x (Finset.mem_erase.2 ⟨hxv, hx⟩)⟩
      have hvv : Function.update r v n v = n := Function.update_self _ _ _
      have hbV : b ∈ V := hsub (Finset.mem_insert_self _ _)
      have hbv : b ≠ v := by rintro rfl; exact hvb (Finset.mem_insert_self _ _)
      refine ⟨Function.update r v n, ?_, ?_, ?_, ?_⟩
      · intro x hx y hy hxy
        by_cases hxv : x = v
        · by_cases hyv : y = v
          · rw [hxv, hyv]
          · have := hn y hy hyv; rw [hxv, hvv] at hxy; omega
        · by_cases hyv : y = v
          · have := hn x hx hxv; rw [hyv, hvv] at hxy; omega
          · have hx' := hn x hx hxv
            have hy' := hn y hy hyv
            exact h1 x (Finset.mem_erase.2 ⟨hxv, hx⟩) y (Finset.mem_erase.2 ⟨hyv, hy⟩) (by omega)
      · intro x hx
        by_cases hxv : x = v
        · rw [hxv, hvv]; omega
        · have := hn x hx hxv; omega
      · intro x hx
        have hb' := hn b hbV hbv
        by_cases hxv : x = v
        · rw [hxv, hvv, hb'.1]
          refine iff_of_false (by omega) fun h => hvb (Finset.mem_insert_of_mem h)
        · rw [(hn x hx hxv).1, hb'.1]; exact h3 x (Finset.mem_erase.2 ⟨hxv, hx⟩)
      · intro x hx y hy z hz hxz hyz hlx hly hne
        by_cases hzv : z = v
        · subst hzv; exact hsv x hx y hy (hsym _ _ hxz) (hsym _ _ hyz) hne
        · have hz' := hn z hz hzv
          have hxv : x ≠ v := by rintro rfl; omega
          have hyv : y ≠ v := by rintro rfl; omega
          have hx' := hn x hx hxv
          have hy' := hn y hy hyv
          exact h4 x (Finset.mem_erase.2 ⟨hxv, hx⟩) y (Finset.mem_erase.2 ⟨hyv, hy⟩) z (Finset.mem_erase.2 ⟨hzv, hz⟩)
            hxz hyz (by omega) (by omega) hne

/-- The undecided edges have an elimination order. -/
theorem undec_elim (hE : Acyclic E) (hB : Cotrans B) (V : Finset α) : Elim (Undec E B) V := by
  refine elim_of_acyclic (D := fun x y => E x y ∧ ¬ Meek E B x y) ?_ (fun x y => Iff.rfl) ?_ _ V rfl
  · exact acyclic_mono (fun _ _ h => h.1) hE
  · rintro x y z ⟨hx, hx'⟩ ⟨hy, hy'⟩ hne
    have hadj : Adj E x y := by
      by_contra hc; exact hx' (.vstr ⟨hne, hx, hy, hc⟩)
    have hux : Undec E B x z := Or.inl ⟨hx, hx'⟩
    have huy : Undec E B y z := Or.inl ⟨hy, hy'⟩
    exact undec_of_adj hadj (fun h1 => hx' (meek_mixed hE hB h1 _ huy)) (fun h1 => hy' (meek_mixed hE hB h1 _ hux))

/-- Every clique of undecided edges around `v` is the set of undecided parents of `v` in some member of the class. -/
theorem clique_realised (hE : Acyclic E) (hB : Cotrans B) {V : Finset α} (hV : ∀ a b, E a b → a ∈ V ∧ b ∈ V) {v : α}
    {S : Finset α} (h1 : ∀ i ∈ S, Undec E B i v) (h2 : ∀ i ∈ S, ∀ j ∈ S, i ≠ j → Undec E B i j) :
    ∃ F, Acyclic F ∧ SameSkelV E F ∧ (∀ x y, B x y → (E x y ↔ F x y)) ∧ ∀ i, i ∈ S ↔ Undec E B i v ∧ F i v := by
  by_cases hS : S = ∅ ∧ v ∉ V
  · refine ⟨E, hE, SameSkelV.refl E, fun _ _ _ => Iff.rfl, fun i => ?_⟩
    rw [hS.1]
    refine iff_of_false (Finset.notMem_empty _) fun h => hS.2 (hV _ _ h.2).2
  have hUV : ∀ {a b}, Undec E B a b → a ∈ V ∧ b ∈ V := by
    intro a b h
    rcases h.adj with h | h
    · exact hV _ _ h
    · exact (hV _ _ h).symm
  have hvV : v ∈ V := by
    by_contra hv
    refine hS ⟨Finset.eq_empty_of_forall_notMem fun i hi => hv (hUV (h1 i hi)).2, hv⟩
  have hvS : v ∉ S := fun h => (h1 v h).ne hE rfl
  obtain ⟨r, r1, _, r3, r4⟩ := (undec_elim hE hB V).rankClique (fun _ _ h => h.symm) (fun x hx => hx.ne hE rfl) hvS
    (by
      intro x hx y hy hne
      rw [Finset.mem_insert] at hx hy
      rcases hx with hx | hx <;> rcases hy with hy | hy
      · exact absurd (hx.trans hy.symm) hne
      · rw [hx]; exact (h1 y hy).symm
      · rw [hy]; exact h1 x hx
      · exact h2 x hx y hy hne) V.card V rfl
    (by
      intro x hx
      rcases Finset.mem_insert.1 hx with rfl | hx
      · exact hvV
      · exact (hUV (h1 x hx)).1)
  obtain ⟨hac, hsk⟩ := ranked_equivalent hE hB hV r1 r4
  refine ⟨Ranked E B r, hac, hsk, ?_, ?_⟩
  · intro x y hxy
    constructor
    · intro hx; exact Or.inl (.base hx hxy)
    · rintro (hx | hx)
      · exact hx.sub
      · rcases hx.1.adj with h5 | h5
        · exact h5
        · exact absurd (.base h5 (hB.symm _ _ hxy)) (hx.1.symm.not hE)
  · intro i
    constructor
    · intro hi
      have hu := h1 i hi
      exact ⟨hu, Or.inr ⟨hu, (r3 i (hUV hu).1).2 hi⟩⟩
    · rintro ⟨hu, h | h⟩
      · exact absurd h (hu.not hE)
      · exact (r3 i (hUV hu).1).1 h.2

omit [DecidableEq α] in
/-- The undecided parents of a node in a member of the class form a clique of undecided edges. -/
theorem parents_clique (hE : Acyclic E) (hB : Cotrans B) (hs : SameSkelV E F) {v i j : α} (hi : Undec E B i v) (hi' : F i v) (hj : Undec E B j v)
    (hj' : F j v) (hij : i ≠ j) : Undec E B i j := by
  have hadj : Adj E i j := by
    by_contra hno
    have hv : VStruct F i v j := ⟨hij, hi', hj', fun h => hno ((hs.skel _ _).2 h)⟩
    exact hi.not hE (.vstr ((hs.vstr _ _ _).2 hv))
  exact undec_of_adj hadj (fun h1 => hi.not hE (meek_mixed hE hB h1 _ hj)) (fun h1 => hj.not hE (meek_mixed hE hB h1 _ hi))

omit [DecidableEq α] in
theorem EquivalentCut.symm {T : Set (Set α)} (hE : Acyclic E) (h : EquivalentCut T E F) : EquivalentCut T F E :=
  ⟨⟨hE, h.1.2.symm⟩, fun i j hc => (h.2 i j hc).symm⟩

omit [DecidableEq α] in
theorem EquivalentCut.trans {T : Set (Set α)} {K : α → α → Prop} (h : EquivalentCut T E F) (h' : EquivalentCut T F K) :
    EquivalentCut T E K :=
  ⟨⟨h'.1.1, h.1.2.trans h'.1.2⟩, fun i j hc => (h.2 i j hc).trans (h'.2 i j hc)⟩

end Spec

namespace Model.PDAG

open Spec
universe u
variable {α : Type u} [DecidableEq α] {G : DAG α} {P Q : PDAG α}

theorem valid_mem (hG : G.Valid) : ∀ a b, G.E a b → a ∈ G.nodes ∧ b ∈ G.nodes :=
  fun a b h => ⟨hG.fst_mem a b h, hG.snd_mem a b h⟩

theorem shows_represents (hG : G.Valid) {T : Set (Set α)} (h : Shows G (CutBy T) P) : Represents T G.E P.Arc P.Edge := by
  have hB := cutBy_cotrans T
  constructor
  · intro i j
    unfold Arc
    rw [h.arcs, meek_iff hG.acyclic hB (valid_mem hG)]
    exact ⟨fun h F hF => h F hF.1.1 hF.1.2 hF.2, fun h F h1 h2 h3 => h F ⟨⟨h1, h2⟩, h3⟩⟩
  · intro i j
    unfold Edge
    rw [h.edges, undec_iff_both hG.acyclic hB (valid_mem hG)]
    constructor
    · rintro ⟨⟨F, h1, h2, h3, h4⟩, K, k1, k2, k3, k4⟩
      exact ⟨⟨F, ⟨⟨h1, h2⟩, h3⟩, h4⟩, K, ⟨⟨k1, k2⟩, k3⟩, k4⟩
    · rintro ⟨⟨F, ⟨⟨h1, h2⟩, h3⟩, h4⟩, K, ⟨⟨k1, k2⟩, k3⟩, k4⟩
      exact ⟨⟨F, h1, h2, h3, h4⟩, K, k1, k2, k3, k4⟩

theorem represents_shows (hG : G.Valid) {T : Set (Set α)} (hP : P.Consistent) (hS : P.Simple) (hn : P.nodes = G.nodes)
    (h : Represents T G.E P.Arc P.Edge) : Shows G (CutBy T) P := by
  have hB := cutBy_cotrans T
  refine ⟨hP, hS, hn, ?_, ?_⟩
  · intro i j
    rw [meek_iff hG.acyclic hB (valid_mem hG)]
    exact (h.arcs i j).trans ⟨fun h F h1 h2 h3 => h F ⟨⟨h1, h2⟩, h3⟩, fun h F hF => h F hF.1.1 hF.1.2 hF.2⟩
  · intro i j
    rw [undec_iff_both hG.acyclic hB (valid_mem hG)]
    refine (h.edges i j).trans ?_
    constructor
    · rintro ⟨⟨F, ⟨⟨h1, h2⟩, h3⟩, h4⟩, K, ⟨⟨k1, k2⟩, k3⟩, k4⟩
      exact ⟨⟨F, h1, h2, h3, h4⟩, K, k1, k2, k3, k4⟩
    · rintro ⟨⟨F, h1, h2, h3, h4⟩, K, k1, k2, k3, k4⟩
      exact ⟨⟨F, ⟨⟨h1, h2⟩, h3⟩, h4⟩, K, ⟨⟨k1, k2⟩, k3⟩, k4⟩

end Model.PDAG
