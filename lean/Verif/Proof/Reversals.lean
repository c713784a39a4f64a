import Verif.Model.Covered
import Verif.Proof.Covered
import Mathlib.Combinatorics.SimpleGraph.Acyclic

/-! # Covered arcs of `DAG` objects -/

namespace Model.DAG

universe u
variable {α : Type u} [DecidableEq α] {G H : DAG α}
open Spec Relation

theorem mem_reversibleArcs (hG : G.Valid) {i j : α} : (i, j) ∈ G.reversibleArcs ↔ Covered G.E i j := by
  simp only [reversibleArcs, Finset.mem_filter, Covered, E]
  refine and_congr_right fun h => ?_
  rw [Finset.ext_iff]
  simp only [Finset.mem_sdiff, Finset.mem_singleton, hG.parents_iff]

theorem mem_predecessors {v p : α} : p ∈ G.predecessors v ↔ G.E p v := by
  simp only [predecessors, Finset.mem_image, Finset.mem_filter, E]
  constructor
  · rintro ⟨⟨a, b⟩, ⟨h, rfl⟩, rfl⟩; exact h
  · intro h; exact ⟨(p, v), ⟨h, rfl⟩, rfl⟩

theorem mem_coveredEdges {i j : α} : (i, j) ∈ G.coveredEdges ↔ Covered G.E i j := by
  simp only [coveredEdges, Finset.mem_filter, Covered]
  refine and_congr_right fun h => ?_
  rw [Finset.ext_iff]
  simp only [Finset.mem_erase, mem_predecessors]
  exact forall_congr' fun p => by rw [and_comm (a := p ≠ i)]

theorem reverseArc_covered (hG : G.Valid) {i j : α} (hc : Covered G.E i j) (check : Bool)
    (o : SetOrder (Option α) α) :
    ∃ G', reverseArc false check o G i j = some (G', none) ∧ G'.Valid ∧ G'.nodes = G.nodes ∧
      G'.arcs = insert (j, i) (G.arcs.erase (i, j)) ∧ G'.E = Reverse G.E i j := by
  have hij : (i, j) ∈ G.arcs := hc.1
  obtain ⟨G1, h1, h2, h3, h4⟩ := removeArc_spec hG.toConsistent hij (hG.acyclic.asymm hij) false
  have hE : (addArcUnchecked G1 j i).E = Reverse G.E i j := by
    funext a b
    simp only [E, addArcUnchecked_arcs, h4, Finset.mem_insert, Finset.mem_erase, Prod.mk.injEq, ne_eq, Reverse,
      eq_iff_iff]
    tauto
  have hac : Acyclic (addArcUnchecked G1 j i).E := by rw [hE]; exact covered_reverse_acyclic hG.acyclic hc
  refine ⟨addArcUnchecked G1 j i, ?_, ⟨addArcUnchecked_consistent h2 j i, hac⟩, ?_, ?_, hE⟩
  · cases check with
    | false => simp [reverseArc, h1, addArc]
    | true =>
      rw [reverseArc, h1]
      rcases addArc_cases h2 o j i with ⟨_, hr⟩ | ⟨hn, _⟩
      · exact hr
      · exact absurd hac hn
  · rw [addArcUnchecked_nodes, h3, Finset.insert_eq_of_mem (a := j) (s := G.nodes) (hG.snd_mem _ _ hij),
      Finset.insert_eq_of_mem (hG.fst_mem _ _ hij)]
  · rw [addArcUnchecked_arcs, h4]

/-- Chickering's theorem for `DAG` objects. -/
theorem exists_reversals (hH : H.Valid) (o : SetOrder (Option α) α) (check : Bool) :
    ∀ (n : ℕ) (G : DAG α), G.Valid → SameSkelV G.E H.E → (G.arcs \ H.arcs).card = n →
      ∃ K, Reversals check o n G K ∧ K.Valid ∧ K.nodes = G.nodes ∧ K.arcs = H.arcs := by
  intro n
  induction n with
  | zero =>
    intro G hG h hn
    refine ⟨G, .nil G, hG, rfl, ?_⟩
    rw [Finset.card_eq_zero, Finset.sdiff_eq_empty_iff_subset] at hn
    have := eq_of_subset hH.acyclic h fun a b hab => hn hab
    ext ⟨a, b⟩
    exact iff_of_eq (congrFun (congrFun this a) b)
  | succ n ih =>
    intro G hG h hn
    obtain ⟨⟨a, b⟩, hab⟩ := Finset.card_pos.1 (show 0 < (G.arcs \ H.arcs).card by omega)
    rw [Finset.mem_sdiff] at hab
    obtain ⟨i, j, hc, hji⟩ := exists_covered hG.acyclic hH.acyclic G.nodes
      (fun a b hab => ⟨hG.fst_mem _ _ hab, hG.snd_mem _ _ hab⟩) h ⟨a, b, hab.1, hab.2⟩
    obtain ⟨G', h1, h2, h3, h4, h5⟩ := reverseArc_covered hG hc check o
    have hsame : SameSkelV G'.E H.E := by rw [h5]; exact (covered_sameSkelV hG.acyclic hc).symm.trans h
    have hcard : (G'.arcs \ H.arcs).card = n := by
      have : G'.arcs \ H.arcs = (G.arcs \ H.arcs).erase (i, j) := by
        ext ⟨x, y⟩
        simp only [h4, Finset.mem_sdiff, Finset.mem_insert, Finset.mem_erase, Prod.mk.injEq, ne_eq]
        constructor
        · rintro ⟨⟨rfl, rfl⟩ | ⟨g1, g2⟩, g3⟩
          · exact absurd hji g3
          · exact ⟨g1, g2, g3⟩
        · rintro ⟨g1, g2, g3⟩; exact ⟨Or.inr ⟨g1, g2⟩, g3⟩
      rw [this, Finset.card_erase_of_mem, hn]; · rfl
      exact Finset.mem_sdiff.2 ⟨hc.1, hH.acyclic.asymm hji⟩
    obtain ⟨K, k1, k2, k3, k4⟩ := ih G' h2 hsame hcard
    exact ⟨K, .cons i j ((mem_reversibleArcs hG).2 hc) h1 k1, k2, k3.trans h3, k4⟩

/-! ## Imsets -/

theorem imset_covered (hG : G.Valid) {G' : DAG α} (hG' : G'.Valid) {i j : α} (hc : Covered G.E i j)
    (hn : G'.nodes = G.nodes) (hE : G'.E = Reverse G.E i j) : standardImset G' ∅ = standardImset G ∅ := by
  have hne : i ≠ j := by rintro rfl; exact hG.acyclic.irrefl hc.1
  have hp : ∀ {K : DAG α} (_ : K.Valid) (p v), p ∈ K.parents v ↔ K.E p v := fun hK p v => hK.parents_iff p v
  have hi : G'.parents i = insert j (G.parents i) := by
    ext p; rw [hp hG', hE, reverse_parent_i hG.acyclic hc, Finset.mem_insert, hp hG, or_comm]
  have hj : G'.parents j = G.parents i := by
    ext p; rw [hp hG', hE, reverse_parent_j hG.acyclic hc, hp hG]
  have hj' : G.parents j = insert i (G.parents i) := by
    ext p; rw [hp hG, Finset.mem_insert, hp hG, hc.2]
    by_cases hpi : p = i
    · subst hpi; simp [hc.1]
    · simp [hpi]
  have ho : ∀ v, v ≠ i → v ≠ j → G'.parents v = G.parents v := by
    intro v h1 h2; ext p; rw [hp hG', hE, reverse_parent_other h1 h2, hp hG]
  funext s
  have hiV : i ∈ G.nodes := hG.fst_mem _ _ hc.1
  have hjV : j ∈ G.nodes.erase i := Finset.mem_erase.2 ⟨hne.symm, hG.snd_mem _ _ hc.1⟩
  simp only [standardImset, Finset.sdiff_empty, hn]
  rw [← Finset.add_sum_erase _ _ hiV, ← Finset.add_sum_erase _ _ hjV,
    ← Finset.add_sum_erase (a := i) G.nodes _ hiV, ← Finset.add_sum_erase (a := j) (G.nodes.erase i) _ hjV]
  have hrest : ∀ v ∈ (G.nodes.erase i).erase j,
      ((if s = insert v (G'.parents v) then (1 : ℤ) else 0) - if s = G'.parents v then 1 else 0) =
      ((if s = insert v (G.parents v) then 1 else 0) - if s = G.parents v then 1 else 0) := by
    intro v hv
    rw [Finset.mem_erase, Finset.mem_erase] at hv
    rw [ho v hv.2.1 hv.1]
  rw [Finset.sum_congr rfl hrest, hi, hj, hj', Finset.insert_comm j i]
  ring

theorem imset_reversals {check : Bool} {o : SetOrder (Option α) α} {n : ℕ} (hr : Reversals check o n G H) (hG : G.Valid) : standardImset G ∅ = standardImset H ∅ := by
  induction hr with
  | nil => rfl
  | cons i j h1 h2 _ ih =>
    have hc := (mem_reversibleArcs hG).1 h1
    obtain ⟨G', g1, g2, g3, _, g5⟩ := reverseArc_covered hG hc check o
    rw [g1] at h2; cases h2
    rw [← ih g2, imset_covered hG g2 hc g3 g5]

theorem imset_congr (hG : G.Valid) (hH : H.Valid) (hn : G.nodes = H.nodes) (ha : G.arcs = H.arcs) :
    standardImset G ∅ = standardImset H ∅ := by
  have : G.parents = H.parents := by
    funext v; ext p; rw [hG.parents_iff, hH.parents_iff, ha]
  funext s
  simp only [standardImset, hn, this]

/-! ## Covered arcs form a forest -/

theorem covered_unique {E : α → α → Prop} (hE : Acyclic E) {u u' v : α} (h : Covered E u v) (h' : Covered E u' v) :
    u = u' := by
  by_contra hne
  have h1 := (h.2 u').2 ⟨h'.1, fun hh => hne hh.symm⟩
  have h2 := (h'.2 u).2 ⟨h.1, hne⟩
  exact hE.asymm h1 h2

theorem covered_forest (hG : G.Valid) : (SimpleGraph.fromRel (Covered G.E)).IsAcyclic := by
  obtain ⟨f, h1, h2, h3⟩ := exists_rank hG.acyclic _ G.nodes rfl
  have hf : ∀ {a b}, Covered G.E a b → f a < f b := fun h =>
    h2 _ (hG.fst_mem _ _ h.1) _ (hG.snd_mem _ _ h.1) h.1
  intro v c hc
  -- the last node of the cycle
  obtain ⟨w, hw, hmax⟩ := c.support.toFinset.exists_max_image f ⟨v, by simp⟩
  rw [List.mem_toFinset] at hw
  have hc' := hc.rotate hw
  have hsup : ∀ x, x ∈ (c.rotate w hw).support → f x ≤ f w := by
    intro x hx
    refine hmax x ?_
    rw [List.mem_toFinset]
    exact (c.mem_support_rotate_iff w hw).1 hx
  generalize c.rotate w hw = d at hc' hsup
  have key : ∀ x, x ∈ d.support → (SimpleGraph.fromRel (Covered G.E)).Adj w x → Covered G.E x w := by
    intro x hx hadj
    rw [SimpleGraph.fromRel_adj] at hadj
    rcases hadj.2 with h | h
    · have := hsup x hx; have := hf h; omega
    · exact h
  have hnil : ¬ d.Nil := hc'.not_nil
  have a1 := key d.snd (by simp) (d.adj_snd hnil)
  have a2 := key d.penultimate (by simp) (d.adj_penultimate hnil).symm
  exact hc'.snd_ne_penultimate (covered_unique hG.acyclic a1 a2)

end Model.DAG
