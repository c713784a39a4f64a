import Verif.Proof.Components
import Verif.Props.Complete

/-! # C56: the chain components of a `PDAG` -/

namespace Props

open Model Relation

universe u
variable {α : Type u} [DecidableEq α]

/-- C56. On every consistent `PDAG`, for all orders in which Python iterates over the sets, `chain_components()` returns a
list of graphs on pairwise disjoint node sets; a node is in one of them exactly when it has an undirected edge; two nodes
are in the same one exactly when they are joined by a path of undirected edges (and have undirected edges); every returned
graph has at least two nodes and is a consistent object carrying exactly the arcs and edges of the original between its nodes. -/
theorem C56_chain_components (P : PDAG α) (hP : P.Consistent) (o : SetOrder (α × Finset α) α) (pk : Pick α)
    (oa oe : SetOrder Unit (α × α)) (up : Unpack α) :
    ∃ Qs, P.chainComponents o pk oa oe up = some Qs ∧
      Qs.Pairwise (fun Q R => Disjoint Q.nodes R.nodes) ∧
      (∀ v, (∃ Q ∈ Qs, v ∈ Q.nodes) ↔ ∃ w, {v, w} ∈ P.edges) ∧
      (∀ v w, (∃ Q ∈ Qs, v ∈ Q.nodes ∧ w ∈ Q.nodes) ↔
        (∃ x, {v, x} ∈ P.edges) ∧ ReflTransGen (fun a b => {a, b} ∈ P.edges) v w) ∧
      ∀ Q ∈ Qs, 2 ≤ Q.nodes.card ∧ Q.Consistent ∧
        (∀ i j, (i, j) ∈ Q.arcs ↔ (i, j) ∈ P.arcs ∧ i ∈ Q.nodes ∧ j ∈ Q.nodes) ∧
        ∀ e, e ∈ Q.edges ↔ e ∈ P.edges ∧ e ⊆ Q.nodes := by
  have hrel : (fun a b => b ∈ P.undirected a) = fun a b => {a, b} ∈ P.edges := by
    funext a b; rw [hP.undirected_iff, Finset.pair_comm]
  have hsym : ∀ x y, y ∈ P.undirected x → x ∈ P.undirected y := by
    intro x y h; rw [hP.undirected_iff] at h ⊢; rwa [Finset.pair_comm]
  have hne : ∀ {a b}, ({a, b} : Finset α) ∈ P.edges → a ≠ b := by
    rintro a b h rfl
    obtain ⟨i, j, hij, he⟩ := hP.edge_pair _ h
    have := congrArg Finset.card he
    simp [Finset.card_pair hij] at this
  obtain ⟨cs, h1, h2, h3, h4⟩ := components_spec P.undirected o pk (fun c => decide (1 < c.card)) P.nodes (by
    intro x _ y hy
    rw [hP.undirected_iff] at hy
    exact hP.edge_mem _ hy (by simp)) hsym
  rw [hrel] at h3 h4
  have symm : ∀ {a b}, ReflTransGen (fun a b => ({a, b} : Finset α) ∈ P.edges) a b →
      ReflTransGen (fun a b => ({a, b} : Finset α) ∈ P.edges) b a := by
    intro a b h
    induction h with
    | refl => exact .refl
    | tail _ h ih => exact ReflTransGen.head (by rwa [Finset.pair_comm]) ih
  -- the members of a component
  have hcls : ∀ c ∈ cs, ∀ v ∈ c, ∀ x, x ∈ c ↔ ReflTransGen (fun a b => ({a, b} : Finset α) ∈ P.edges) v x := by
    intro c hc v hv x
    obtain ⟨-, v0, -, -, k⟩ := h3 c hc
    rw [k] at hv ⊢
    exact ⟨fun h => (symm hv).trans h, fun h => hv.trans h⟩
  have hnon : ∀ v, (∃ c ∈ cs, v ∈ c) ↔ ∃ w, ({v, w} : Finset α) ∈ P.edges := by
    intro v
    constructor
    · rintro ⟨c, hc, hv⟩
      obtain ⟨k, -⟩ := h3 c hc
      obtain ⟨w, hw, hwv⟩ := Finset.exists_mem_ne (of_decide_eq_true k) v
      rcases (hcls c hc v hv w).1 hw |>.cases_head with rfl | ⟨x, hx, -⟩
      · exact absurd rfl hwv
      · exact ⟨x, hx⟩
    · rintro ⟨w, hw⟩
      rcases h4 v (hP.edge_mem _ hw (by simp)) with h | ⟨c, hc, k⟩
      · exact h
      · exfalso
        have : 1 < c.card := Finset.one_lt_card.2 ⟨v, (k v).2 .refl, w, (k w).2 (.single hw), hne hw⟩
        simp [this] at hc
  have hnd : ∀ c, (P.inducedSubgraph oa oe up c).nodes = c := fun c =>
    (PDAG.inducedSubgraph_spec hP oa oe up c).2.1
  have hex : ∀ p : Finset α → Prop, (∃ Q ∈ cs.map (P.inducedSubgraph oa oe up), p Q.nodes) ↔ ∃ c ∈ cs, p c := by
    intro p
    constructor
    · rintro ⟨Q, hQ, h⟩
      obtain ⟨c, hc, rfl⟩ := List.mem_map.1 hQ
      exact ⟨c, hc, by rwa [hnd] at h⟩
    · rintro ⟨c, hc, h⟩
      exact ⟨_, List.mem_map_of_mem hc, by rwa [hnd]⟩
  refine ⟨_, by unfold PDAG.chainComponents; rw [h1]; rfl, ?_, ?_, ?_, ?_⟩
  · rw [List.pairwise_map]
    simpa only [hnd] using h2
  · intro v
    rw [hex (fun s => v ∈ s), hnon]
  · intro v w
    rw [hex (fun s => v ∈ s ∧ w ∈ s), ← hnon]
    constructor
    · rintro ⟨c, hc, hv, hw⟩
      exact ⟨⟨c, hc, hv⟩, (hcls c hc v hv w).1 hw⟩
    · rintro ⟨⟨c, hc, hv⟩, h⟩
      exact ⟨c, hc, hv, (hcls c hc v hv w).2 h⟩
  · intro Q hQ
    obtain ⟨c, hc, rfl⟩ := List.mem_map.1 hQ
    obtain ⟨k1, k2, k3, k4⟩ := PDAG.inducedSubgraph_spec hP oa oe up c
    rw [k2]
    exact ⟨of_decide_eq_true (h3 c hc).1, k1, k3, k4⟩

/-- The graph `0 → 1 - 2` has the chain component `{1, 2}`. -/
example (pk : Pick (Fin 3)) (up : Unpack (Fin 3)) :
    ∃ Qs, Sample.partly.chainComponents _root_.Sample.order pk _root_.Sample.order _root_.Sample.order up = some Qs ∧
      (∃ Q ∈ Qs, 1 ∈ Q.nodes ∧ 2 ∈ Q.nodes) ∧ ¬ ∃ Q ∈ Qs, 0 ∈ Q.nodes := by
  obtain ⟨hc, -, he⟩ := Sample.partly_spec
  obtain ⟨Qs, h1, -, h2, h3, -⟩ := C56_chain_components Sample.partly hc _root_.Sample.order pk _root_.Sample.order
    _root_.Sample.order up
  refine ⟨Qs, h1, ?_, ?_⟩
  · rw [h3, he]
    exact ⟨⟨2, by decide⟩, .single (by decide)⟩
  · rw [h2, he]
    decide

end Props
