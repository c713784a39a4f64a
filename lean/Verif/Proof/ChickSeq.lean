import Verif.Proof.Chickering
import Verif.Proof.Metric

/-! # `chickering_sequence`: distance, termination, the sequence -/

namespace Spec

universe u
variable {α : Type u} {E F : α → α → Prop}
open Relation

/-- A graph with more arcs has fewer separations. -/
theorem subModel_of_sub (hE : Acyclic E) (hF : Acyclic F) (h : ∀ a b, E a b → F a b) (V : Set α) : SubModel F E V := by
  intro A B C _ _ _ _ hAC _ hs
  rw [dsep_iff] at hs ⊢
  intro a ha b hb hcon
  have haC := Set.disjoint_left.1 hAC ha
  obtain ⟨e, he⟩ := (dconn_iff_moves haC).1 hcon
  refine hs a ha b hb ((dconn_iff_moves haC).2 ⟨e, ?_⟩)
  refine ball_sub (T := fun t => Ball F C (a, false) t) .refl ?_ he
  · rintro ⟨p, dp⟩ ⟨q, dq⟩ ih hm
    refine ih.tail ?_
    rw [move_iff hE] at hm
    rw [move_iff hF]
    refine hm.imp (fun h' => ⟨h _ _ h'.1, h'.2⟩) fun h' => ⟨h _ _ h'.1, h'.2.1, h'.2.2.imp id fun h'' => ⟨h''.1, ?_⟩⟩
    obtain ⟨c, hc, hp⟩ := h''.2
    exact ⟨c, hc, path0_mono h hp⟩

end Spec

namespace Model.DAG

set_option linter.unusedSectionVars false
universe u
variable {α : Type u} [DecidableEq α] {G H : DAG α}
open Spec Relation

theorem skeleton_sub_of_imap (hG : G.Valid) (hH : H.Valid) (hn : G.nodes = H.nodes) (him : SubModel H.E G.E (G.nodes : Set α)) :
    G.skeleton ⊆ H.skeleton := by
  intro s hs
  obtain ⟨i, j, _, rfl⟩ := skeleton_pair hG hs
  rw [mem_skeleton] at hs ⊢
  exact subModel_adj hH.acyclic hG.acyclic (fun a b h => hn ▸ ⟨hH.fst_mem _ _ h, hH.snd_mem _ _ h⟩)
    (fun a b h => ⟨hG.fst_mem _ _ h, hG.snd_mem _ _ h⟩) him hs

theorem shdSkeleton_of_sub (h : G.skeleton ⊆ H.skeleton) : shdSkeleton G H = H.skeleton.card - G.skeleton.card := by
  rw [shdSkeleton, symmDiff_of_le h, Finset.card_sdiff_of_subset h]

/-- Adding an arc that the I-map also has (in some direction). -/
theorem distance_add {G' : DAG α} (h : G.skeleton ⊆ H.skeleton) (h' : G'.skeleton ⊆ H.skeleton) {x t : α}
    (hadj : ¬ Adj G.E x t) (harcs : G'.arcs = insert (x, t) G.arcs) : chickeringDistance G' H < chickeringDistance G H := by
  have hsk : G'.skeleton = insert {x, t} G.skeleton := by rw [skeleton, harcs, Finset.image_insert]; rfl
  have hnot : {x, t} ∉ G.skeleton := fun hm => hadj (mem_skeleton.1 hm)
  have hc : G'.skeleton.card = G.skeleton.card + 1 := by rw [hsk, Finset.card_insert_of_notMem hnot]
  have hle := Finset.card_le_card h'
  have hi : (G'.arcs ∩ H.arcs.image Prod.swap).card ≤ (G.arcs ∩ H.arcs.image Prod.swap).card + 1 := by
    rw [harcs]
    refine (Finset.card_le_card (t := insert (x, t) (G.arcs ∩ H.arcs.image Prod.swap)) ?_).trans (Finset.card_insert_le _ _)
    intro e he
    simp only [Finset.mem_inter, Finset.mem_insert] at he ⊢
    exact he.1.imp id fun h => ⟨h, he.2⟩
  simp only [chickeringDistance, shdSkeleton_of_sub h, shdSkeleton_of_sub h']
  omega

/-- Turning an arc the way it points in the other graph. -/
theorem distance_reverse {G' : DAG α} (hH : H.Valid) {i j : α} (hij : G.E i j) (hji : H.E j i)
    (harcs : G'.arcs = insert (j, i) (G.arcs.erase (i, j))) : chickeringDistance G' H + 1 = chickeringDistance G H := by
  have hsk : G'.skeleton = G.skeleton := by
    rw [skeleton, harcs, skeleton]
    ext s
    simp only [Finset.mem_image, Finset.mem_insert, Finset.mem_erase]
    constructor
    · rintro ⟨e, rfl | ⟨_, he⟩, rfl⟩
      · exact ⟨(i, j), hij, Finset.pair_comm _ _⟩
      · exact ⟨e, he, rfl⟩
    · rintro ⟨e, he, rfl⟩
      by_cases h : e = (i, j)
      · subst h; exact ⟨(j, i), Or.inl rfl, Finset.pair_comm _ _⟩
      · exact ⟨e, Or.inr ⟨h, he⟩, rfl⟩
  have hi : G'.arcs ∩ H.arcs.image Prod.swap = (G.arcs ∩ H.arcs.image Prod.swap).erase (i, j) := by
    rw [harcs]
    ext ⟨a, b⟩
    simp only [Finset.mem_inter, Finset.mem_insert, Finset.mem_erase, Finset.mem_image, Prod.exists, Prod.swap_prod_mk, Prod.mk.injEq]
    constructor
    · rintro ⟨⟨rfl, rfl⟩ | h, p, q, hpq, rfl, rfl⟩
      · exact absurd hpq (hH.acyclic.asymm hji)
      · exact ⟨h.1, h.2, _, _, hpq, rfl, rfl⟩
    · rintro ⟨h1, h2, h3⟩; exact ⟨Or.inr ⟨h1, h2⟩, h3⟩
  have hmem : (i, j) ∈ G.arcs ∩ H.arcs.image Prod.swap :=
    Finset.mem_inter.2 ⟨hij, Finset.mem_image.2 ⟨(j, i), hji, rfl⟩⟩
  have := Finset.card_erase_of_mem hmem
  have hpos := Finset.card_pos.2 ⟨_, hmem⟩
  simp only [chickeringDistance, shdSkeleton, hsk, hi]
  omega

theorem StepOk.distance {G' : DAG α} {m : ChickMove α} (h : StepOk G H G' m) (hG : G.Valid) (hH : H.Valid) (hn : G.nodes = H.nodes)
    (him : SubModel H.E G.E (G.nodes : Set α)) : chickeringDistance G' H < chickeringDistance G H := by
  have h1 := skeleton_sub_of_imap hG hH hn him
  have h2 := skeleton_sub_of_imap h.valid hH (h.nodes.trans hn) (h.nodes.symm ▸ h.imap)
  rcases h.step with ⟨_, x, hx, _, _, ha, _⟩ | ⟨_, x, z, _, _, hx, ha, _⟩ | ⟨_, z, hc, hz, ha, _⟩
  · exact distance_add h1 h2 hx ha
  · exact distance_add h1 h2 hx ha
  · have := distance_reverse hH hc.1 hz ha
    omega

theorem StepOk.operation {G' : DAG α} {m : ChickMove α} (h : StepOk G H G' m) (hG : G.Valid) :
    EdgeOperation (G.nodes : Set α) G.E G'.E := by
  rcases h.step with ⟨_, x, hx, hxV, hyV, _, hE⟩ | ⟨_, x, z, h1, h2, hx, _, hE⟩ | ⟨_, z, hc, _, _, hE⟩
  · rw [hE]; exact .add _ _ hxV hyV hx
  · rw [hE]; exact .add _ _ (hG.fst_mem _ _ h1) (hG.snd_mem _ _ h2) hx
  · rw [hE]; exact .reverse _ _ hc

/-- One step up: the new graph is an I-map of the old one. -/
theorem StepOk.above {G' : DAG α} {m : ChickMove α} (h : StepOk G H G' m) (hG : G.Valid) :
    SubModel G'.E G.E (G.nodes : Set α) := by
  have hV : ∀ a b, G.E a b → a ∈ G.nodes ∧ b ∈ G.nodes := fun a b h => ⟨hG.fst_mem _ _ h, hG.snd_mem _ _ h⟩
  have hadd : ∀ x t, G'.E = WithArc G.E x t → SubModel G'.E G.E (G.nodes : Set α) := fun x t hE =>
    subModel_of_sub hG.acyclic h.valid.acyclic (fun a b hab => by rw [hE]; exact Or.inl hab) _
  rcases h.step with ⟨_, x, _, _, _, _, hE⟩ | ⟨_, x, z, _, _, _, _, hE⟩ | ⟨_, z, hc, _, _, hE⟩
  · exact hadd _ _ hE
  · exact hadd _ _ hE
  · rw [hE]; exact (covered_subModels hG.acyclic G.nodes hV hc).2

/-- The part of the sequence produced from `G` on. -/
structure SeqOk (G H : DAG α) (seq : List (DAG α)) (moves : List (ChickMove α)) : Prop where
  head : ∃ K rest, seq = K :: rest ∧ K.nodes = G.nodes ∧ K.arcs = G.arcs
  last : seq.getLast? = some H
  chain : seq.IsChain fun A B => EdgeOperation (G.nodes : Set α) A.E B.E
  all : ∀ K ∈ seq, K.Valid ∧ K.nodes = G.nodes ∧ SubModel K.E G.E (G.nodes : Set α) ∧ SubModel H.E K.E (G.nodes : Set α)
  count : seq.length = moves.length + 1
  bound : moves.length ≤ chickeringDistance G H

theorem chickeringLoop_spec (w : ℕ → ChickOracle α) (hH : H.Valid) (k : ℕ) : ∀ (n : ℕ) (G : DAG α) (acc : List (DAG α))
    (ms : List (ChickMove α)), chickeringDistance G H ≤ k → G.Valid → G.nodes = H.nodes → SubModel H.E G.E (G.nodes : Set α) →
    ∃ seq moves, chickeringLoop w H n G acc ms = pure (acc ++ seq, ms ++ moves) ∧ SeqOk G H seq moves := by
  induction k with
  | zero =>
    intro n G acc ms hd hG hn him
    have harcs : G.arcs = H.arcs := by
      by_contra hne
      obtain ⟨G', m, _, h2, _⟩ := applyEdgeOperation_spec (w n) none hG hH hn him hne
      have := h2.distance hG hH hn him
      omega
    rw [chickeringLoop, if_pos ⟨hn, harcs⟩]
    have hE : H.E = G.E := by funext a b; simp only [E, harcs]
    refine ⟨[H], [], by simp, ⟨⟨H, [], rfl, hn.symm, harcs.symm⟩, rfl, by simp, ?_, rfl, by simp⟩⟩
    intro K hK
    rw [List.mem_singleton] at hK
    subst hK
    exact ⟨hH, hn.symm, him, SubModel.refl _ _⟩
  | succ k ih =>
    intro n G acc ms hd hG hn him
    by_cases harcs : G.arcs = H.arcs
    · rw [chickeringLoop, if_pos ⟨hn, harcs⟩]
      have hE : H.E = G.E := by funext a b; simp only [E, harcs]
      refine ⟨[H], [], by simp, ⟨⟨H, [], rfl, hn.symm, harcs.symm⟩, rfl, by simp, ?_, rfl, by simp⟩⟩
      intro K hK
      rw [List.mem_singleton] at hK
      subst hK
      exact ⟨hH, hn.symm, him, SubModel.refl _ _⟩
    · obtain ⟨G', m, h1, h2, _⟩ := applyEdgeOperation_spec (w n) none hG hH hn him harcs
      have hlt := h2.distance hG hH hn him
      have hn' : G'.nodes = H.nodes := h2.nodes.trans hn
      have him' : SubModel H.E G'.E (G'.nodes : Set α) := h2.nodes.symm ▸ h2.imap
      obtain ⟨seq, moves, e, s⟩ := ih (n + 1) G' (acc ++ [G]) (ms ++ [m]) (by omega) h2.valid hn' him'
      refine ⟨G :: seq, m :: moves, ?_, ?_⟩
      · rw [chickeringLoop, if_neg (fun h => harcs h.2), h1, pure_bind, e]
        simp
      · obtain ⟨K, rest, rfl, hK1, hK2⟩ := s.head
        have hKE : K.E = G'.E := by funext a b; simp only [E, hK2]
        have hall := s.all
        have hchain := s.chain
        rw [h2.nodes] at hall hchain
        refine ⟨⟨G, _, rfl, rfl, rfl⟩, ?_, ?_, ?_, ?_, ?_⟩
        · rw [List.getLast?_cons_cons]; exact s.last
        · exact List.isChain_cons_cons.2 ⟨hKE ▸ h2.operation hG, hchain⟩
        · intro J hJ
          rcases List.mem_cons.1 hJ with rfl | hJ
          · exact ⟨hG, rfl, SubModel.refl _ _, him⟩
          · obtain ⟨j1, j2, j3, j4⟩ := hall J hJ
            exact ⟨j1, j2, j3.trans (h2.above hG), j4⟩
        · have := s.count; simp only [List.length_cons] at this ⊢; omega
        · have := s.bound; simp only [List.length_cons]; omega

end Model.DAG
