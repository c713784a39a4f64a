import Verif.Proof.Marginal

/-! # `marginal_mag` with `relabel` -/

namespace Model.DAG

universe u v
variable {α : Type u} [DecidableEq α] {β : Type v} [DecidableEq β]
open Relation Spec

/-- The image of a graph without undirected edges under a map of its nodes. -/
def imageAG (f : α → β) (A : AG α) : AG β where
  nodes := A.nodes.image f
  directed := A.directed.image fun p => (f p.1, f p.2)
  bidirected := A.bidirected.image fun e => e.image f
  undirected := ∅
  neighbors _ := ∅
  spouses y := (A.nodes.image f).filter fun x => {x, y} ∈ A.bidirected.image fun e => e.image f
  parents y := (A.nodes.image f).filter fun x => (x, y) ∈ A.directed.image fun p => (f p.1, f p.2)
  children x := (A.nodes.image f).filter fun y => (x, y) ∈ A.directed.image fun p => (f p.1, f p.2)
  adjacent y := (A.nodes.image f).filter fun x => (x, y) ∈ (A.directed.image fun p => (f p.1, f p.2)) ∨
    (y, x) ∈ (A.directed.image fun p => (f p.1, f p.2)) ∨ {x, y} ∈ A.bidirected.image fun e => e.image f

theorem image_pair (f : α → β) (i j : α) : ({i, j} : Finset α).image f = {f i, f j} := by
  rw [Finset.image_insert, Finset.image_singleton]

theorem imageAG_dir {f : α → β} {A : AG α} (hA : A.Good) (hf : Set.InjOn f A.nodes) {i j : α} (hi : i ∈ A.nodes)
    (hj : j ∈ A.nodes) : (f i, f j) ∈ (imageAG f A).directed ↔ (i, j) ∈ A.directed := by
  simp only [imageAG, Finset.mem_image, Prod.exists, Prod.mk.injEq]
  constructor
  · rintro ⟨a, b, h, h1, h2⟩
    obtain ⟨ha, hb⟩ := hA.1.dir_mem a b h
    rwa [← hf ha hi h1, ← hf hb hj h2]
  · intro h; exact ⟨i, j, h, rfl, rfl⟩

theorem imageAG_bi {f : α → β} {A : AG α} (hA : A.Good) (hf : Set.InjOn f A.nodes) {i j : α} (hi : i ∈ A.nodes)
    (hj : j ∈ A.nodes) : {f i, f j} ∈ (imageAG f A).bidirected ↔ {i, j} ∈ A.bidirected := by
  simp only [imageAG, Finset.mem_image]
  constructor
  · rintro ⟨e, h, he⟩
    obtain ⟨a, b, hab, rfl⟩ := hA.1.bi_pair e h
    have hm := hA.1.bi_mem _ h
    have ha : a ∈ A.nodes := hm (by simp)
    have hb : b ∈ A.nodes := hm (by simp)
    rw [image_pair] at he
    rcases PDAG.pair_eq_iff.1 he with ⟨h1, h2⟩ | ⟨h1, h2⟩
    · rwa [← hf ha hi h1.symm.symm, ← hf hb hj h2]
    · rw [← hf ha hj h1, ← hf hb hi h2, Finset.pair_comm]; exact h
  · intro h; exact ⟨_, h, image_pair f i j⟩

theorem imageAG_good {f : α → β} {A : AG α} (hA : A.Good) (hf : Set.InjOn f A.nodes) : (imageAG f A).Good := by
  have hd : ∀ x y, (x, y) ∈ (imageAG f A).directed → ∃ i j, (i, j) ∈ A.directed ∧ i ∈ A.nodes ∧ j ∈ A.nodes ∧ x = f i ∧ y = f j := by
    intro x y h
    simp only [imageAG, Finset.mem_image, Prod.exists, Prod.mk.injEq] at h
    obtain ⟨a, b, h, rfl, rfl⟩ := h
    exact ⟨a, b, h, (hA.1.dir_mem a b h).1, (hA.1.dir_mem a b h).2, rfl, rfl⟩
  have hb : ∀ e, e ∈ (imageAG f A).bidirected → ∃ i j, i ≠ j ∧ {i, j} ∈ A.bidirected ∧ i ∈ A.nodes ∧ j ∈ A.nodes ∧ e = {f i, f j} := by
    intro e h
    simp only [imageAG, Finset.mem_image] at h
    obtain ⟨e, h, rfl⟩ := h
    obtain ⟨i, j, hij, rfl⟩ := hA.1.bi_pair e h
    have hm := hA.1.bi_mem _ h
    exact ⟨i, j, hij, h, hm (by simp), hm (by simp), image_pair f i j⟩
  have hbm : ∀ e ∈ (imageAG f A).bidirected, e ⊆ (imageAG f A).nodes := by
    intro e h
    obtain ⟨i, j, -, -, hi, hj, rfl⟩ := hb e h
    intro x hx
    simp only [Finset.mem_insert, Finset.mem_singleton] at hx
    rcases hx with rfl | rfl
    · exact Finset.mem_image_of_mem _ hi
    · exact Finset.mem_image_of_mem _ hj
  have hdm : ∀ x y, (x, y) ∈ (imageAG f A).directed → x ∈ (imageAG f A).nodes ∧ y ∈ (imageAG f A).nodes := by
    intro x y h
    obtain ⟨i, j, -, hi, hj, rfl, rfl⟩ := hd x y h
    exact ⟨Finset.mem_image_of_mem _ hi, Finset.mem_image_of_mem _ hj⟩
  refine ⟨⟨?_, ?_, ?_, ?_, ?_, ?_, ?_, ?_, hdm, hbm, ?_⟩, ⟨?_, ?_, ?_, ?_, ?_⟩⟩
  · intro x y
    exact ⟨fun h => (Finset.mem_filter.1 h).2, fun h => Finset.mem_filter.2 ⟨(hdm x y h).1, h⟩⟩
  · intro x y
    exact ⟨fun h => (Finset.mem_filter.1 h).2, fun h => Finset.mem_filter.2 ⟨(hdm x y h).2, h⟩⟩
  · intro x y
    exact ⟨fun h => (Finset.mem_filter.1 h).2, fun h => Finset.mem_filter.2 ⟨hbm _ h (by simp), h⟩⟩
  · intro x y; simp [imageAG]
  · intro x y
    constructor
    · intro h
      rcases (Finset.mem_filter.1 h).2 with k | k | k
      · exact Or.inl k
      · exact Or.inr (Or.inl k)
      · exact Or.inr (Or.inr (Or.inl k))
    · intro h
      refine Finset.mem_filter.2 ⟨?_, ?_⟩
      · rcases h with k | k | k | k
        · exact (hdm _ _ k).1
        · exact (hdm _ _ k).2
        · exact hbm _ k (by simp)
        · simp [imageAG] at k
      · rcases h with k | k | k | k
        · exact Or.inl k
        · exact Or.inr (Or.inl k)
        · exact Or.inr (Or.inr k)
        · simp [imageAG] at k
  · intro x h
    obtain ⟨i, j, h', hi, hj, rfl, h2⟩ := hd x x h
    rw [hf hi hj h2] at h'
    exact hA.1.dir_ne _ h'
  · intro e h
    obtain ⟨i, j, hij, -, hi, hj, rfl⟩ := hb e h
    exact ⟨f i, f j, fun k => hij (hf hi hj k), rfl⟩
  · intro e h; simp [imageAG] at h
  · intro e h; simp [imageAG] at h
  · intro x y h h'
    obtain ⟨i, j, k, hi, hj, rfl, rfl⟩ := hd x y h
    rw [imageAG_dir hA hf hj hi] at h'
    exact hA.2.dir_dir _ _ k h'
  · intro x y h h'
    obtain ⟨i, j, k, hi, hj, rfl, rfl⟩ := hd x y h
    rw [imageAG_bi hA hf hi hj] at h'
    exact hA.2.dir_bi _ _ k h'
  · intro x y _ h; simp [imageAG] at h
  · intro e _ h; simp [imageAG] at h
  · intro x y z h; simp [imageAG] at h

theorem margRelabel_spec {f : α → β} {A : AG α} (hA : A.Good) (hf : Set.InjOn f A.nodes) (o : SetOrder (Fin 3) (β × β))
    (up : Unpack α) : margRelabel o f A.nodes up A = (imageAG f A, none) := by
  unfold margRelabel
  refine AG.new_ok (imageAG_good hA hf) o _ ∅ ?_ (by simp [imageAG])
  rw [Finset.image_image]
  refine Finset.image_congr ?_
  intro e he
  obtain ⟨i, j, hij, rfl⟩ := hA.1.bi_pair e he
  change ({(f (up.fn {i, j}).1), (f (up.fn {i, j}).2)} : Finset β) = ({i, j} : Finset α).image f
  rw [image_pair]
  rcases up.spec i j hij with k | k
  · simp [k]
  · rw [k]; exact Finset.pair_comm _ _

theorem defaultLabel_lt [LinearOrder α] (s : Finset α) {x y : α} (hx : x ∈ s) (hy : y ∈ s) :
    defaultLabel s x < defaultLabel s y ↔ x < y := by
  unfold defaultLabel
  have hx' : x ∈ s.sort (· ≤ ·) := (Finset.mem_sort _).2 hx
  have hy' : y ∈ s.sort (· ≤ ·) := (Finset.mem_sort _).2 hy
  have := (Finset.sortedLT_sort s).getElem_lt_getElem_iff (i := (s.sort (· ≤ ·)).idxOf x) (j := (s.sort (· ≤ ·)).idxOf y)
    (hi := List.idxOf_lt_length_iff.2 hx') (hj := List.idxOf_lt_length_iff.2 hy')
  rw [← this, List.getElem_idxOf, List.getElem_idxOf]

theorem defaultLabel_inj [LinearOrder α] (s : Finset α) : Set.InjOn (defaultLabel s) s := by
  intro x hx y hy h
  rcases lt_trichotomy x y with k | k | k
  · have := (defaultLabel_lt s hx hy).2 k; omega
  · exact k
  · have := (defaultLabel_lt s hy hx).2 k; omega

theorem defaultLabel_image [LinearOrder α] (s : Finset α) : s.image (defaultLabel s) = Finset.range s.card := by
  refine Finset.eq_of_subset_of_card_le ?_ ?_
  · intro n hn
    obtain ⟨x, hx, rfl⟩ := Finset.mem_image.1 hn
    rw [Finset.mem_range, ← Finset.length_sort (s := s) (· ≤ ·)]
    exact List.idxOf_lt_length_iff.2 ((Finset.mem_sort _).2 hx)
  · rw [Finset.card_range, Finset.card_image_of_injOn (defaultLabel_inj s)]

end Model.DAG
