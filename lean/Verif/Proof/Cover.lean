import Mathlib.Combinatorics.SimpleGraph.Coloring.Vertex
import Verif.Proof.Greedy
import Verif.Proof.Reversals

/-! # Minimum vertex covers and `atomic_verification` -/

namespace Model.DAG

open Spec

universe u
variable {α : Type u} [DecidableEq α] {G : DAG α}

/-- The undirected graph with the given edges. -/
abbrev nxGraph (H : Finset (α × α)) : SimpleGraph α := SimpleGraph.fromRel fun i j => (i, j) ∈ H

omit [DecidableEq α] in
theorem nxGraph_bipartite {H H' : Finset (α × α)} (hs : H' ⊆ H) (h : (nxGraph H).IsBipartite) :
    (nxGraph H').IsBipartite := by
  refine SimpleGraph.Colorable.mono_left ?_ h
  intro a b hab
  rw [SimpleGraph.fromRel_adj] at hab ⊢
  exact ⟨hab.1, hab.2.imp (fun h => hs h) fun h => hs h⟩

theorem mem_nxComponents {H : Finset (α × α)} {V : Finset α} : V ∈ nxComponents H ↔
    ∃ v ∈ nxNodes H, ∀ w, w ∈ V ↔ w ∈ nxNodes H ∧ (nxGraph H).Reachable v w := by
  classical
  unfold nxComponents
  rw [Finset.mem_image]
  constructor
  · rintro ⟨v, hv, rfl⟩; exact ⟨v, hv, fun w => by rw [Finset.mem_filter]⟩
  · rintro ⟨v, hv, h⟩; exact ⟨v, hv, by ext w; rw [Finset.mem_filter, h]⟩

theorem nxComponents_disjoint {H : Finset (α × α)} {V W : Finset α} (hV : V ∈ nxComponents H)
    (hW : W ∈ nxComponents H) (hne : V ≠ W) : Disjoint V W := by
  rw [Finset.disjoint_left]
  intro x hx hx'
  apply hne
  obtain ⟨v, _, h1⟩ := mem_nxComponents.1 hV
  obtain ⟨w, _, h2⟩ := mem_nxComponents.1 hW
  have hvw : (nxGraph H).Reachable v w := ((h1 x).1 hx).2.trans ((h2 x).1 hx').2.symm
  ext y
  rw [h1, h2]
  exact and_congr_right fun _ => ⟨fun h => hvw.symm.trans h, fun h => hvw.trans h⟩

/-- The edges inside a set of nodes. -/
abbrev within (H : Finset (α × α)) (V : Finset α) : Finset (α × α) := H.filter fun e => e.1 ∈ V ∧ e.2 ∈ V

open Classical in
theorem foldlM_cover (k : CoverOracle α) (H : Finset (α × α)) (hH : (nxGraph H).IsBipartite) : ∀ (l : List (Finset α))
    (m : Finset α), l.foldlM (m := Except (Exn α)) (fun mvc V =>
      if (SimpleGraph.fromRel fun i j => (i, j) ∈ within H V).IsBipartite then .ok (mvc ∪ k.cover (within H V))
      else .error .assertion) m = .ok (m ∪ l.toFinset.biUnion fun V => k.cover (within H V)) := by
  intro l
  induction l with
  | nil => intro m; simp; rfl
  | cons V l ih =>
    intro m
    rw [List.foldlM_cons, if_pos (nxGraph_bipartite (Finset.filter_subset _ _) hH)]
    refine (ih _).trans ?_
    rw [List.toFinset_cons, Finset.biUnion_insert, Finset.union_assoc]

theorem minimumVertexCover_spec (k : CoverOracle α) (o : SetOrder Unit (Finset α)) (H : Finset (α × α))
    (hH : (nxGraph H).IsBipartite) : ∃ S, computeMinimumVertexCover k o H = .ok S ∧ MinVertexCover H S := by
  classical
  have h := foldlM_cover k H hH (o.ord () (nxComponents H)) ∅
  have hl : (o.ord () (nxComponents H)).toFinset = nxComponents H := by
    ext V; rw [List.mem_toFinset, o.mem_iff]
  rw [Finset.empty_union, hl] at h
  refine ⟨_, by unfold computeMinimumVertexCover; rw [if_pos hH]; exact h, ?_, ?_⟩
  · rintro ⟨a, b⟩ he
    have ha : a ∈ nxNodes H := Finset.mem_union_left _ (Finset.mem_image_of_mem Prod.fst he)
    have hb : b ∈ nxNodes H := Finset.mem_union_right _ (Finset.mem_image_of_mem Prod.snd he)
    let V : Finset α := (nxNodes H).filter fun w => (nxGraph H).Reachable a w
    have hV : V ∈ nxComponents H := mem_nxComponents.2 ⟨a, ha, fun w => by rw [Finset.mem_filter]⟩
    have hab : (nxGraph H).Reachable a b := by
      by_cases hne : a = b
      · subst hne; exact SimpleGraph.Reachable.refl _
      · exact SimpleGraph.Adj.reachable ((SimpleGraph.fromRel_adj _ _ _).2 ⟨hne, Or.inl he⟩)
    have hin : (a, b) ∈ within H V := Finset.mem_filter.2
      ⟨he, Finset.mem_filter.2 ⟨ha, SimpleGraph.Reachable.refl _⟩, Finset.mem_filter.2 ⟨hb, hab⟩⟩
    have := (k.spec _ (nxGraph_bipartite (Finset.filter_subset _ _) hH)).1 (a, b) hin
    simp only [Finset.mem_biUnion]
    exact this.imp (fun h => ⟨V, hV, h⟩) fun h => ⟨V, hV, h⟩
  · intro S' hS'
    refine Finset.card_biUnion_le.trans ?_
    have h1 : ∀ V ∈ nxComponents H, (k.cover (within H V)).card ≤ (S' ∩ V).card := by
      intro V _
      refine (k.spec _ (nxGraph_bipartite (Finset.filter_subset _ _) hH)).2 _ ?_
      intro e he
      obtain ⟨h2, h3, h4⟩ := Finset.mem_filter.1 he
      exact (hS' e h2).imp (fun h => Finset.mem_inter.2 ⟨h, h3⟩) fun h => Finset.mem_inter.2 ⟨h, h4⟩
    refine (Finset.sum_le_sum h1).trans ?_
    rw [← Finset.card_biUnion]
    · refine Finset.card_le_card fun x hx => ?_
      obtain ⟨V, _, hx⟩ := Finset.mem_biUnion.1 hx
      exact (Finset.mem_inter.1 hx).1
    · intro V hV W hW hne
      exact (nxComponents_disjoint hV hW hne).mono Finset.inter_subset_right Finset.inter_subset_right

theorem coveredEdges_bipartite (hG : G.Valid) : (nxGraph G.coveredEdges).IsBipartite := by
  have heq : (fun i j => (i, j) ∈ G.coveredEdges) = Covered G.E := by
    funext i j; exact propext mem_coveredEdges
  unfold nxGraph
  rw [heq]
  exact (covered_forest hG).isBipartite

/-- A set of nodes verifies the graph, starting without targets, iff it covers the covered arcs. -/
theorem verifies_iff_cover (hG : G.Valid) (S : Finset α) : Verifies G.E ∅ S ↔ VertexCover G.coveredEdges S := by
  rw [verifies_iff hG.acyclic (E_mem hG), cutBy_empty]
  simp only [false_or, VertexCover, Prod.forall, mem_coveredEdges]

theorem atomicVerification_spec (hG : G.Valid) (d : DesignOracle α) (k : CoverOracle α) (o : SetOrder Unit (Finset α))
    {cpdag : Option (PDAG α)} {c : PDAG α} (hc : (startCpdag d G cpdag).run = some (.ok c)) :
    ∃ S, (atomicVerification d k o G cpdag).run = some (.ok S) ∧ Verifies G.E ∅ S ∧
      ∀ S', Verifies G.E ∅ S' → S.card ≤ S'.card := by
  obtain ⟨S, h1, h2, h3⟩ := minimumVertexCover_spec k o _ (coveredEdges_bipartite hG)
  refine ⟨S, ?_, (verifies_iff_cover hG S).2 h2, fun S' hS' => h3 S' ((verifies_iff_cover hG S').1 hS')⟩
  unfold atomicVerification
  rw [ExceptT.run_bind, hc, h1]
  rfl

theorem cpdagArg_knows (hG : G.Valid) {iv : List (Finset α)} {cpdag : Option (PDAG α)} (h : CpdagArg G iv cpdag) :
    ∀ c, cpdag = some c → Knows G (targets iv) c := by
  have hnil : targets ([] : List (Finset α)) = ∅ := by ext; simp [targets]
  induction h with
  | none => intro c hc; simp at hc
  | cpdag h1 =>
    rename_i oa o c
    intro c' hc
    rw [← Option.some.inj hc]
    obtain ⟨Q, h2, h3⟩ := cpdag_knows hG oa o
    rw [h2] at h1
    rw [hnil]
    cases h1; exact h3
  | icpdag h1 h2 ih =>
    rename_i iv iv' oa o c c'
    intro c'' hc
    rw [← Option.some.inj hc]
    obtain ⟨Q, h3, h4⟩ := interventionalCpdag_knows hG oa o iv' (ih c rfl)
    rw [h3] at h2
    rw [targets_append]
    cases h2; exact h4

/-- The argument `cpdag`, and the graph it stands for. -/
theorem cpdagArg_spec (hG : G.Valid) {iv : List (Finset α)} {cpdag : Option (PDAG α)} (h : CpdagArg G iv cpdag)
    (d : DesignOracle α) : ∃ c, (startCpdag d G cpdag).run = some (.ok c) ∧ Knows G (targets iv) c := by
  cases cpdag with
  | some c => exact ⟨c, rfl, cpdagArg_knows hG h c rfl⟩
  | none =>
    cases h
    obtain ⟨Q, h1, h2⟩ := cpdag_knows hG d.arcs d.cpdag
    refine ⟨Q, h1, ?_⟩
    have hnil : targets ([] : List (Finset α)) = ∅ := by ext; simp [targets]
    rw [hnil]; exact h2

end Model.DAG
