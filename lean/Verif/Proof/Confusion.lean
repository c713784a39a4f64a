import Verif.Model.Confusion
import Verif.Proof.Metric
import Mathlib.Data.Finset.Powerset
import Mathlib.Tactic.Push

/-! # Confusion matrices -/

namespace Model

open Spec
universe u
variable {α : Type u} [DecidableEq α]

theorem card_eq_ncard {S : Finset (Finset α)} {R : α → α → Prop} (hp : ∀ s ∈ S, ∃ i j, i ≠ j ∧ s = {i, j})
    (hm : ∀ i j, i ≠ j → ({i, j} ∈ S ↔ R i j)) : S.card = (pairsOf R).ncard := by
  rw [← Set.ncard_coe_finset]
  congr 1
  ext s
  simp only [Finset.mem_coe, pairsOf, Set.mem_ofPred_eq]
  constructor
  · intro hs
    obtain ⟨i, j, hij, rfl⟩ := hp s hs
    exact ⟨i, j, hij, rfl, (hm i j hij).1 hs⟩
  · rintro ⟨i, j, hij, rfl, h⟩
    exact (hm i j hij).2 h

theorem mem_powersetCard_two {V : Finset α} {i j : α} (hij : i ≠ j) :
    ({i, j} : Finset α) ∈ V.powersetCard 2 ↔ i ∈ V ∧ j ∈ V := by
  rw [Finset.mem_powersetCard, Finset.card_pair hij]
  simp [Finset.insert_subset_iff]

theorem pair_of_powersetCard {V s : Finset α} (h : s ∈ V.powersetCard 2) : ∃ i j, i ≠ j ∧ s = {i, j} :=
  Finset.card_eq_two.1 (Finset.mem_powersetCard.1 h).2

/-- Counting by exclusion: the pairs in neither of two families. -/
theorem choose_sub {V : Finset α} {S T : Finset (Finset α)} (hS : S ⊆ V.powersetCard 2) (hT : T ⊆ V.powersetCard 2) :
    (((V.powersetCard 2 \ (S ∪ T)).card : ℕ) : ℤ) =
      ((V.card.choose 2 : ℕ) : ℤ) - (S ∩ T).card - (T \ S).card - (S \ T).card := by
  have h1 : (V.powersetCard 2).card = V.card.choose 2 := Finset.card_powersetCard 2 V
  have h2 := Finset.card_sdiff_add_card_eq_card (Finset.union_subset hS hT)
  have h3 : (S ∪ T).card = (S ∩ T).card + (T \ S).card + (S \ T).card := by
    have a := Finset.card_union_add_card_inter S T
    have b := Finset.card_sdiff_add_card_inter S T
    have c := Finset.card_sdiff_add_card_inter T S
    rw [Finset.inter_comm T S] at c
    omega
  omega

namespace DAG

theorem skeleton_sub {G : DAG α} (hG : G.Valid) : G.skeleton ⊆ G.nodes.powersetCard 2 := by
  intro s hs
  obtain ⟨i, j, hij, rfl⟩ := skeleton_pair hG hs
  rw [mem_powersetCard_two hij]
  rcases mem_skeleton.1 hs with h | h
  · exact ⟨hG.fst_mem _ _ h, hG.snd_mem _ _ h⟩
  · exact ⟨hG.snd_mem _ _ h, hG.fst_mem _ _ h⟩

end DAG

namespace PDAG

variable {P Q : PDAG α}

/-- Membership in the arcs obtained from the edges. -/
theorem mem_edgesAsArcs (up : Unpack α) (hP : P.Consistent) {i j : α} :
    (i, j) ∈ P.edges.image up.fn ∨ (i, j) ∈ (P.edges.image up.fn).image Prod.swap ↔ {i, j} ∈ P.edges := by
  constructor
  · intro h
    have key : ∀ {a b : α}, (a, b) ∈ P.edges.image up.fn → {a, b} ∈ P.edges := by
      intro a b hab
      obtain ⟨e, he, hab⟩ := Finset.mem_image.1 hab
      obtain ⟨x, y, hxy, rfl⟩ := hP.edge_pair e he
      rcases up.spec x y hxy with h | h
      · rw [h] at hab; obtain ⟨rfl, rfl⟩ := Prod.mk.inj hab; exact he
      · rw [h] at hab; obtain ⟨rfl, rfl⟩ := Prod.mk.inj hab; rw [Finset.pair_comm]; exact he
    rcases h with h | h
    · exact key h
    · obtain ⟨⟨a, b⟩, hab, h⟩ := Finset.mem_image.1 h
      obtain ⟨rfl, rfl⟩ := Prod.mk.inj h
      rw [Finset.pair_comm]; exact key hab
  · intro h
    obtain ⟨x, y, hxy, he⟩ := hP.edge_pair _ h
    have hij : i ≠ j := by
      rintro rfl
      have := congrArg Finset.card he
      rw [Finset.card_pair hxy] at this; simp at this
    rcases up.spec i j hij with h' | h'
    · exact Or.inl (Finset.mem_image.2 ⟨_, h, h'⟩)
    · exact Or.inr (Finset.mem_image.2 ⟨(j, i), Finset.mem_image.2 ⟨_, h, h'⟩, rfl⟩)

theorem mem_arcsAsEdges {i j : α} :
    ({i, j} : Finset α) ∈ P.arcs.image (fun a => ({a.1, a.2} : Finset α)) ↔ (i, j) ∈ P.arcs ∨ (j, i) ∈ P.arcs := by
  rw [Finset.mem_image]
  constructor
  · rintro ⟨⟨a, b⟩, h, e⟩
    rcases (pair_eq_iff).1 e with ⟨rfl, rfl⟩ | ⟨rfl, rfl⟩
    exacts [Or.inl h, Or.inr h]
  · rintro (h | h)
    · exact ⟨_, h, rfl⟩
    · exact ⟨_, h, Finset.pair_comm _ _⟩

end PDAG

end Model
