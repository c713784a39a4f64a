import Verif.Model.Rand
import Verif.Proof.Rename
import Verif.Proof.Between
import Mathlib.Data.Nat.Choose.Basic
import Mathlib.Data.List.Nodup
import Mathlib.Data.List.Perm.Basic
import Mathlib.Data.List.Count
import Mathlib.Data.List.GetD

/-! # Lemmas about the random graph generators -/

namespace Model

open DAG Spec

section Chosen

variable {β : Type}

theorem chosen_cons (x : β) (l : List β) (b : Bool) (bs : List Bool) :
    chosen (x :: l) (b :: bs) = if b then x :: chosen l bs else chosen l bs := by
  cases b <;> simp [chosen]

theorem chosen_sublist (l : List β) (bs : List Bool) : List.Sublist (chosen l bs) l := by
  induction l generalizing bs with
  | nil => simp [chosen]
  | cons x l ih =>
    cases bs with
    | nil => simp [chosen]
    | cons b bs =>
      rw [chosen_cons]
      cases b
      · exact (ih bs).cons x
      · exact (ih bs).cons_cons x

theorem chosen_length {l : List β} {bs : List Bool} (h : bs.length = l.length) :
    (chosen l bs).length = bs.count true := by
  induction l generalizing bs with
  | nil =>
    cases bs with
    | nil => simp [chosen]
    | cons b bs => simp at h
  | cons x l ih =>
    cases bs with
    | nil => simp at h
    | cons b bs =>
      rw [chosen_cons]
      have := ih (bs := bs) (by simpa using h)
      cases b <;> simp [this]

theorem chosen_map (l : List β) (p : β → Bool) : chosen l (l.map p) = l.filter p := by
  induction l with
  | nil => simp [chosen]
  | cons x l ih =>
    rw [List.map_cons, chosen_cons, ih, List.filter_cons]

theorem chosen_inj {l : List β} (hl : l.Nodup) {bs cs : List Bool} (hb : bs.length = l.length) (hc : cs.length = l.length)
    (h : ∀ x, x ∈ chosen l bs ↔ x ∈ chosen l cs) : bs = cs := by
  induction l generalizing bs cs with
  | nil =>
    rw [List.length_nil, List.length_eq_zero_iff] at hb hc
    rw [hb, hc]
  | cons x l ih =>
    cases bs with
    | nil => simp at hb
    | cons b bs =>
      cases cs with
      | nil => simp at hc
      | cons c cs =>
        rw [List.nodup_cons] at hl
        have hx : ∀ d, x ∉ chosen l d := fun d hd => hl.1 ((chosen_sublist l d).subset hd)
        have hbc : b = c := by
          have := h x
          rw [chosen_cons, chosen_cons] at this
          cases b <;> cases c <;> simp_all
        subst hbc
        congr 1
        refine ih hl.2 (by simpa using hb) (by simpa using hc) fun y => ?_
        have := h y
        rw [chosen_cons, chosen_cons] at this
        cases b
        · exact this
        · simp only [if_true, List.mem_cons] at this
          by_cases hy : y = x
          · subst hy; exact ⟨fun h' => absurd h' (hx _), fun h' => absurd h' (hx _)⟩
          · simpa [hy] using this

end Chosen

theorem pairs_length {β : Type} (l : List β) : (pairs l).length = l.length.choose 2 := by
  induction l with
  | nil => simp [pairs]
  | cons x l ih =>
    rw [pairs, List.length_append, List.length_map, ih, List.length_cons, Nat.choose_succ_succ' l.length 1,
      Nat.choose_one_right]

theorem mem_pairs_lt {l : List ℕ} (hl : l.Pairwise (· < ·)) {i j : ℕ} :
    (i, j) ∈ pairs l ↔ i ∈ l ∧ j ∈ l ∧ i < j := by
  induction l with
  | nil => simp [pairs]
  | cons x l ih =>
    rw [List.pairwise_cons] at hl
    simp only [pairs, List.mem_append, List.mem_map, Prod.mk.injEq, ih hl.2, List.mem_cons]
    constructor
    · rintro (⟨y, hy, rfl, rfl⟩ | ⟨h1, h2, h3⟩)
      · exact ⟨Or.inl rfl, Or.inr hy, hl.1 y hy⟩
      · exact ⟨Or.inr h1, Or.inr h2, h3⟩
    · rintro ⟨rfl | h1, rfl | h2, h3⟩
      · exact absurd h3 (lt_irrefl _)
      · exact Or.inl ⟨j, h2, rfl, rfl⟩
      · exact absurd (h3.trans (hl.1 i h1)) (lt_irrefl _)
      · exact Or.inr ⟨h1, h2, h3⟩

theorem pairs_nodup {l : List ℕ} (hl : l.Pairwise (· < ·)) : (pairs l).Nodup := by
  induction l with
  | nil => simp [pairs]
  | cons x l ih =>
    rw [List.pairwise_cons] at hl
    rw [pairs, List.nodup_append]
    refine ⟨(hl.2.imp fun h => ne_of_lt h).map _ (fun a b h => by simpa using h), ih hl.2, ?_⟩
    rintro a ha b hb rfl
    obtain ⟨y, _, rfl⟩ := List.mem_map.1 ha
    exact absurd (hl.1 x ((mem_pairs_lt hl.2).1 hb).1) (lt_irrefl _)

theorem mem_pairs_range {n i j : ℕ} : (i, j) ∈ pairs (List.range n) ↔ i < j ∧ j < n := by
  rw [mem_pairs_lt List.pairwise_lt_range]
  simp only [List.mem_range]
  omega

theorem acyclic_lt {E : ℕ → ℕ → Prop} (h : ∀ i j, E i j → i < j) : Acyclic E := by
  have : ∀ i j, Path E i j → i < j := fun i j hij => by
    induction hij with
    | single h' => exact h _ _ h'
    | tail _ h' ih => exact ih.trans (h _ _ h')
  exact fun v hv => lt_irrefl _ (this v v hv)

/-- The renaming by a permutation, if there is one. -/
def relabel : Option (List ℕ) → ℕ → ℕ
  | none => id
  | some p => fun i => p.getD i 0

theorem getD_inj {n : ℕ} {p : List ℕ} (hp : p.Perm (List.range n)) {i j : ℕ} (hi : i < n) (hj : j < n)
    (h : p.getD i 0 = p.getD j 0) : i = j := by
  have hl : p.length = n := by rw [hp.length_eq, List.length_range]
  have hn : p.Nodup := hp.nodup_iff.2 List.nodup_range
  rw [List.getD_eq_getElem _ _ (hl ▸ hi), List.getD_eq_getElem _ _ (hl ▸ hj)] at h
  exact (hn.getElem_inj_iff).1 h

theorem map_getD (p : List ℕ) : (List.range p.length).map (fun k => p.getD k 0) = p := by
  apply List.ext_getElem
  · simp
  · intro k h1 h2
    rw [List.getElem_map, List.getElem_range, List.getD_eq_getElem _ _ h2]

theorem getD_sublist {p : List ℕ} {i j : ℕ} (hij : i < j) (hj : j < p.length) :
    List.Sublist [p.getD i 0, p.getD j 0] p := by
  have : List.Sublist ([i, j].map fun k => p.getD k 0) ((List.range p.length).map fun k => p.getD k 0) :=
    (pairs_iff_sublist.1 (mem_pairs_range.2 ⟨hij, hj⟩)).map _
  rwa [map_getD] at this

theorem sublist_getD {p : List ℕ} {x y : ℕ} (h : List.Sublist [x, y] p) :
    ∃ i j, i < j ∧ j < p.length ∧ p.getD i 0 = x ∧ p.getD j 0 = y := by
  have hs := h
  rw [← map_getD p] at hs
  obtain ⟨l, hl', he⟩ := List.sublist_map_iff.1 hs
  obtain ⟨i, j, rfl⟩ : ∃ i j, l = [i, j] := by
    match l, he with
    | [i, j], _ => exact ⟨i, j, rfl⟩
  simp only [List.map_cons, List.map_nil, List.cons.injEq, and_true] at he
  have := mem_pairs_range.1 (pairs_iff_sublist.2 hl')
  exact ⟨i, j, this.1, this.2, he.1.symm, he.2.symm⟩

theorem idxOf_lt_sublist {p : List ℕ} {x y : ℕ} (h : p.idxOf x < p.idxOf y) (hy : y ∈ p) : List.Sublist [x, y] p := by
  have h1 := List.idxOf_lt_length_of_mem hy
  have := getD_sublist h h1
  rwa [List.getD_eq_getElem _ _ (h.trans h1), List.getD_eq_getElem _ _ h1, List.getElem_idxOf, List.getElem_idxOf] at this

theorem linear_acyclic {V : Set ℕ} {E : ℕ → ℕ → Prop} {l : List ℕ} (h : LinearExtension V E l) : Acyclic E := by
  have : ∀ i j, Path E i j → ∃ a b, a < b ∧ b < l.length ∧ l.getD a 0 = i ∧ l.getD b 0 = j := fun i j hij => by
    induction hij with
    | single h' => exact sublist_getD (h.before _ _ h')
    | tail _ h' ih =>
      obtain ⟨a, b, h1, h2, h3, h4⟩ := ih
      obtain ⟨c, d, g1, g2, g3, g4⟩ := sublist_getD (h.before _ _ h')
      refine ⟨a, d, ?_, g2, h3, g4⟩
      rw [← h4, List.getD_eq_getElem _ _ h2, List.getD_eq_getElem _ _ (g1.trans g2)] at g3
      have := (h.nodup.getElem_inj_iff).1 g3
      omega
  intro v hv
  obtain ⟨a, b, h1, h2, h3, h4⟩ := this v v hv
  rw [← h4, List.getD_eq_getElem _ _ h2, List.getD_eq_getElem _ _ (h1.trans h2)] at h3
  have := (h.nodup.getElem_inj_iff).1 h3
  omega

/-- `shuffle` of an acyclic graph on labels below `N`. -/
theorem shuffle_spec (o : SetOrder (Option ℕ) ℕ) (oa : SetOrder Bool (ℕ × ℕ)) {N : ℕ} {perm : Option (List ℕ)}
    (hp : ∀ p, perm = some p → p.Perm (List.range N)) {G : DAG ℕ} (hG : G.Valid) (hN : ∀ v ∈ G.nodes, v < N) :
    ∃ (H : DAG ℕ) (f : ℕ → ℕ), shuffle o oa perm (some (G, none)) = some (H, none) ∧ H.Valid ∧
      f = relabel perm ∧
      (∀ i, i < N → f i < N) ∧ (∀ i j, i < N → j < N → f i = f j → i = j) ∧ H.nodes = G.nodes.image f ∧
      ∀ x y, (x, y) ∈ H.arcs ↔ ∃ i j, (i, j) ∈ G.arcs ∧ f i = x ∧ f j = y := by
  cases perm with
  | none =>
    refine ⟨G, id, rfl, hG, rfl, fun _ h => h, fun _ _ _ _ h => h, by simp, fun x y => ?_⟩
    simp
  | some p =>
    have hp := hp p rfl
    obtain ⟨H, h1, h2, h3, h4⟩ := renameNodes_spec hG o oa (f := fun i => p.getD i 0)
      (fun a ha b hb h => getD_inj hp (hN a ha) (hN b hb) h)
    refine ⟨H, _, h1, h2, rfl, fun i hi => ?_, fun i j hi hj h => getD_inj hp hi hj h, h3, h4.arcs⟩
    have hl : p.length = N := by rw [hp.length_eq, List.length_range]
    change p.getD i 0 < N
    rw [List.getD_eq_getElem _ _ (hl ▸ hi)]
    exact List.mem_range.1 (hp.subset (List.getElem_mem _))

theorem image_range {N : ℕ} {f : ℕ → ℕ} (h1 : ∀ i, i < N → f i < N) (h2 : ∀ i j, i < N → j < N → f i = f j → i = j) :
    (Finset.range N).image f = Finset.range N := by
  refine Finset.eq_of_subset_of_card_le (fun x hx => ?_) ?_
  · obtain ⟨i, hi, rfl⟩ := Finset.mem_image.1 hx
    exact Finset.mem_range.2 (h1 i (Finset.mem_range.1 hi))
  · rw [Finset.card_image_of_injOn]
    intro a ha b hb h
    exact h2 a b (by simpa using ha) (by simpa using hb) h

theorem card_arcs {N : ℕ} {f : ℕ → ℕ} (h2 : ∀ i j, i < N → j < N → f i = f j → i = j) {G H : DAG ℕ}
    (hN : ∀ i j, (i, j) ∈ G.arcs → i < N ∧ j < N)
    (hA : ∀ x y, (x, y) ∈ H.arcs ↔ ∃ i j, (i, j) ∈ G.arcs ∧ f i = x ∧ f j = y) : H.arcs.card = G.arcs.card := by
  have : H.arcs = G.arcs.image fun a => (f a.1, f a.2) := by
    ext ⟨x, y⟩
    rw [hA, Finset.mem_image]
    simp
  rw [this, Finset.card_image_of_injOn]
  rintro ⟨a, b⟩ hab ⟨c, d⟩ hcd h
  simp only [Prod.mk.injEq] at h ⊢
  have h3 := hN a b hab
  have h4 := hN c d hcd
  exact ⟨h2 _ _ h3.1 h4.1 h.1, h2 _ _ h3.2 h4.2 h.2⟩

theorem new_erdos (o : SetOrder (Option ℕ) ℕ) (oa : SetOrder Bool (ℕ × ℕ)) (n : ℕ) (bools : List Bool) :
    ∃ G, DAG.new o oa (Finset.range n) (chosen (pairs (List.range n)) bools).toFinset = some (G, none) ∧ G.Valid ∧
      G.nodes = Finset.range n ∧ (∀ i j, (i, j) ∈ G.arcs ↔ (i, j) ∈ chosen (pairs (List.range n)) bools) ∧
      G.arcs.card = (chosen (pairs (List.range n)) bools).length := by
  have hm : ∀ i j, (i, j) ∈ (chosen (pairs (List.range n)) bools).toFinset → i < j ∧ j < n := fun i j h => by
    rw [List.mem_toFinset] at h
    exact mem_pairs_range.1 ((chosen_sublist _ _).subset h)
  obtain ⟨G, h1, h2, h3, h4⟩ := new_ok o oa (Finset.range n) (chosen (pairs (List.range n)) bools).toFinset
    (acyclic_lt fun i j h => (hm i j h).1)
  refine ⟨G, h1, h2, ?_, fun i j => by rw [h3, List.mem_toFinset], ?_⟩
  · rw [h4]
    ext v
    simp only [Finset.mem_union, Finset.mem_range, Finset.mem_image, Prod.exists, exists_and_right, exists_eq_right]
    constructor
    · rintro ((h | ⟨y, h⟩) | ⟨y, h⟩)
      · exact h
      · have := hm _ _ h; omega
      · have := hm _ _ h; omega
    · intro h; exact Or.inl (Or.inl h)
  · rw [h3, List.toFinset_card_of_nodup]
    exact (pairs_nodup List.pairwise_lt_range).sublist (chosen_sublist _ _)

theorem directedErdos_spec (o : SetOrder (Option ℕ) ℕ) (oa : SetOrder Bool (ℕ × ℕ)) (n : ℕ) (bools : List Bool)
    {perm : Option (List ℕ)} (hp : ∀ p, perm = some p → p.Perm (List.range n)) :
    ∃ G, directedErdos o oa n bools perm = some (G, none) ∧ G.Valid ∧ G.nodes = Finset.range n ∧
      (∀ x y, (x, y) ∈ G.arcs ↔ ∃ i j, (i, j) ∈ chosen (pairs (List.range n)) bools ∧
        relabel perm i = x ∧
        relabel perm j = y) ∧
      G.arcs.card = (chosen (pairs (List.range n)) bools).length := by
  obtain ⟨G, h1, h2, h3, h4, h5⟩ := new_erdos o oa n bools
  obtain ⟨H, f, g1, g2, g3, g4, g5, g6, g7⟩ := shuffle_spec o oa hp h2 (fun v hv => by
    rw [h3] at hv; exact Finset.mem_range.1 hv)
  refine ⟨H, ?_, g2, ?_, ?_, ?_⟩
  · rw [directedErdos, h1, g1]
  · rw [g6, h3, image_range g4 g5]
  · intro x y
    rw [g7]
    rw [g3]
    simp only [h4]
  · rw [card_arcs g5 (fun i j h => ?_) g7, h5]
    have := h2.fst_mem i j h
    have h' := h2.snd_mem i j h
    rw [h3, Finset.mem_range] at this h'
    exact ⟨this, h'⟩

end Model

namespace Model

open DAG Spec

theorem confounders_mem {n k : ℕ} {bools bools' : List Bool} {i j : ℕ}
    (h : (i, j) ∈ (chosen (List.range k ×ˢ List.range' k n) bools).toFinset ∪
      (chosen (pairs (List.range' k n)) bools').toFinset) : i < j ∧ k ≤ j ∧ j < n + k := by
  rw [Finset.mem_union, List.mem_toFinset, List.mem_toFinset] at h
  rcases h with h | h
  · have := List.pair_mem_product.1 ((chosen_sublist _ _).subset h)
    rw [List.mem_range, List.mem_range'_1] at this
    omega
  · have := (mem_pairs_lt List.pairwise_lt_range').1 ((chosen_sublist _ _).subset h)
    simp only [List.mem_range'_1] at this
    omega

theorem erdosConfounders_spec (o : SetOrder (Option ℕ) ℕ) (oa : SetOrder Bool (ℕ × ℕ)) (n k : ℕ) (bools bools' : List Bool)
    {perm : Option (List ℕ)} (hp : ∀ p, perm = some p → p.Perm (List.range (n + k))) :
    ∃ (G H : DAG ℕ) (f : ℕ → ℕ), erdosConfounders o oa n k bools bools' perm = some (H, none) ∧ H.Valid ∧
      G.arcs = (chosen (List.range k ×ˢ List.range' k n) bools).toFinset ∪
        (chosen (pairs (List.range' k n)) bools').toFinset ∧
      G.nodes = Finset.range n ∪ G.arcs.image Prod.fst ∪ G.arcs.image Prod.snd ∧
      (∀ i, i < n + k → f i < n + k) ∧ (∀ i j, i < n + k → j < n + k → f i = f j → i = j) ∧
      H.nodes = G.nodes.image f ∧ (∀ x y, (x, y) ∈ H.arcs ↔ ∃ i j, (i, j) ∈ G.arcs ∧ f i = x ∧ f j = y) ∧
      (perm = none → f = id) := by
  obtain ⟨G, h1, h2, h3, h4⟩ := new_ok o oa (Finset.range n)
    ((chosen (List.range k ×ˢ List.range' k n) bools).toFinset ∪ (chosen (pairs (List.range' k n)) bools').toFinset)
    (acyclic_lt fun i j h => (confounders_mem h).1)
  have hN : ∀ v ∈ G.nodes, v < n + k := by
    intro v hv
    rw [h4] at hv
    simp only [Finset.mem_union, Finset.mem_image, Finset.mem_range] at hv
    rcases hv with (h | ⟨⟨a, b⟩, h, rfl⟩) | ⟨⟨a, b⟩, h, rfl⟩
    · omega
    · have := confounders_mem (Finset.mem_union.2 h); simp only; omega
    · have := confounders_mem (Finset.mem_union.2 h); simp only; omega
  obtain ⟨H, f, g1, g2, g3, g4, g5, g6, g7⟩ := shuffle_spec o oa hp h2 hN
  refine ⟨G, H, f, ?_, g2, h3, by rw [h4, h3], g4, g5, g6, g7, ?_⟩
  · rw [erdosConfounders]; rw [h1, g1]
  · rintro rfl; exact g3

end Model
