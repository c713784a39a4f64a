import Verif.Proof.ToDag

/-! # `to_dag` can return every consistent extension -/

namespace Model.PDAG

open Spec
universe u
variable {α : Type u} [DecidableEq α]

omit [DecidableEq α] in
/-- Two extensions of the same PDAG with one contained in the other are equal. -/
theorem extends_eq {A U F H : α → α → Prop} (hF : Extends A U F) (hH : Extends A U H) (h : ∀ i j, H i j → F i j) (i j : α) :
    H i j ↔ F i j := by
  refine ⟨h i j, fun hij => ?_⟩
  rcases (hH.adj i j).2 ((hF.adj i j).1 (Or.inl hij)) with h1 | h1
  · exact h1
  · exact absurd (h _ _ h1) (hF.acyclic.asymm hij)

/-- If the nodes are visited from the last to the first of an extension `F`, the arcs collected are arcs of `F`. -/
theorem toDagLoop_every (o : DagOracle α) (P₀ : PDAG α) {F : α → α → Prop} (hF : Extends P₀.Arc P₀.Edge F) (f : α → ℕ)
    (hord : ∀ n, ∀ s ⊆ P₀.nodes, (o.nodes.ord n s).Pairwise fun a b => f b ≤ f a)
    (hmono : ∀ a ∈ P₀.nodes, ∀ b ∈ P₀.nodes, F a b → f a < f b) :
    ∀ (c n : ℕ) (P : PDAG α) (A : Finset (α × α)),
    P.nodes.card ≤ c → P.nodes ⊆ P₀.nodes → DagInv P₀ P A → (∀ i j, (i, j) ∈ A → F i j) →
    ∀ A', (toDagLoop o n P A).run = some (.ok A') → ∀ i j, (i, j) ∈ A' → F i j := by
  intro c
  induction c with
  | zero =>
    intro n P A hc _ h hA A' hr
    have hn : P.nodes = ∅ := Finset.card_eq_zero.1 (by omega)
    have h1 : (o.nodes.ord n P.nodes).find? P.canSink = none := by
      rw [List.find?_eq_none]; intro x hx
      have := (o.nodes.mem_iff _ _ _).1 hx; rw [hn] at this; simp at this
    rw [toDagLoop, h1] at hr
    split_ifs at hr <;> (injection hr with hr; injection hr with hr; subst hr; exact hA)
  | succ c ih =>
    intro n P A hc hsub h hA A' hr
    rw [toDagLoop] at hr
    split_ifs at hr with h0
    · injection hr with hr; injection hr with hr; subst hr; exact hA
    · cases hl : o.nodes.ord n P.nodes with
      | nil =>
        rw [hl] at hr
        injection hr with hr; injection hr with hr; subst hr; exact hA
      | cons s l =>
        have hs : s ∈ P.nodes := (o.nodes.mem_iff n _ _).1 (by rw [hl]; exact List.mem_cons_self)
        have hmax : ∀ x ∈ P.nodes, f x ≤ f s := by
          intro x hx
          have hp := hord n P.nodes hsub
          rw [hl, List.pairwise_cons] at hp
          have := (o.nodes.mem_iff n _ _).2 hx
          rw [hl, List.mem_cons] at this
          rcases this with rfl | hx
          · exact le_rfl
          · exact hp.1 _ hx
        have hinto : ∀ {x}, P.hasEdgeOrArc x s = true → F x s := fun hx =>
          h.into_last hF hs (fun x hx y hy => hmono x (hsub hx) y (hsub hy)) hmax hx
        have hs' : P.canSink s = true := h.canSink hF hinto
        obtain ⟨Q, q1, q2, q3, q4, _, q6, q7⟩ := removeNode_spec h.cons h.simp (o.del n) hs
        rw [hl, List.find?_cons_of_pos hs'] at hr
        simp only [q1] at hr
        refine ih (n + 1) Q _ ?_ ?_ (h.step hs hs' q2 q3 q4 q6 q7) ?_ A' hr
        · rw [q4, Finset.card_erase_of_mem hs]; have := Finset.card_pos.2 ⟨s, hs⟩; omega
        · rw [q4]; exact (Finset.erase_subset _ _).trans hsub
        · intro i j hij
          rcases Finset.mem_union.1 hij with hij | hij
          · exact hA i j hij
          · obtain ⟨x, hx, h1⟩ := Finset.mem_image.1 hij
            obtain ⟨rfl, rfl⟩ := Prod.mk.inj h1
            exact hinto ((nbr_iff h.cons _ _).1 hx)

/-- `to_dag` returns the extension `F` if the nodes are visited from its last to its first. -/
theorem toDag_every (o : DagOracle α) {P : PDAG α} (hP : P.Consistent) (hS : P.Simple) {F : α → α → Prop}
    (hF : Extends P.Arc P.Edge F) (f : α → ℕ)
    (hord : ∀ n, ∀ s ⊆ P.nodes, (o.nodes.ord n s).Pairwise fun a b => f b ≤ f a)
    (hmono : ∀ a ∈ P.nodes, ∀ b ∈ P.nodes, F a b → f a < f b) :
    ∃ G, (P.toDag o).run = some (.ok G) ∧ G.Valid ∧ ∀ i j, G.E i j ↔ F i j := by
  obtain ⟨G, h1, h2, _, _, h5⟩ := toDag_spec o hP hS
  have hE := h5.resolve_right fun h => h.2 ⟨F, hF⟩
  have h0 := copy_inv hP hS o.copyArcs o.copyEdges o.unpack
  have hn := (copy_spec hP o.copyArcs o.copyEdges o.unpack).2.1
  obtain ⟨Q, A, a1, a2, _⟩ := toDagLoop_spec o P _ 0 _ ∅ le_rfl h0
  obtain ⟨G', g1, _, g3, _⟩ := DAG.new_ok o.sort o.arcs ∅ A a2.acyclic
  have hG : (P.toDag o).run = some (.ok G') := by
    unfold toDag
    simp only [ExceptT.run_bind, a1]
    simp [g1]
  obtain rfl : G = G' := by rw [h1] at hG; injection hG with hG; injection hG
  refine ⟨G, h1, h2, extends_eq hF hE fun i j hij => ?_⟩
  refine toDagLoop_every o P hF f hord hmono _ 0 _ ∅ le_rfl (by rw [hn]) h0 (by simp) A a1 i j ?_
  rw [← g3]; exact hij

end Model.PDAG
