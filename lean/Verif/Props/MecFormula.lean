import Verif.Props.AllDagsAll
import Verif.Proof.MecCount

/-! # C59: the formulas of `mec_size` -/

namespace Props

open Model Model.DAG Spec
universe u
variable {α : Type u} [DecidableEq α]

/-- C59, part. If the skeleton of the DAG is connected and has at least one node, `mec_size()` is the size of the class
whenever no three undirected edges form a triangle, and whenever no arc is directed and one of the formulas applies: as
many edges as nodes, one edge less, or all edges. Missing: graphs with undirected triangles for which `all_dags` is
called; the condition that the graph is connected cannot be dropped, see `C59_violated`. -/
theorem C59_mec_size_connected_partial (G : DAG α) (hG : G.Valid) (oa : SetOrder Unit (α × α))
    (o : PDAG.OrientOracle α) (oo : PDAG.AllOracle α) (hne : G.nodes.Nonempty)
    (hconn : ∀ a ∈ G.nodes, ∀ b ∈ G.nodes, Relation.ReflTransGen (Adj G.E) a b) :
    ∃ P n, (G.cpdag oa o).run = some (.ok P) ∧ P.mecSize oo = some (.ok n) ∧
      ((¬ ∃ a b c, {a, b} ∈ P.edges ∧ {b, c} ∈ P.edges ∧ {a, c} ∈ P.edges) ∨
        (P.arcs = ∅ ∧ (P.edges.card = P.nodes.card ∨ P.edges.card + 1 = P.nodes.card ∨
          2 * P.edges.card = P.nodes.card * (P.nodes.card - 1))) → n = (mec G.E).ncard) := by
  obtain ⟨P, n, h1, h2, h3⟩ := C59_mec_size_triangle_free_partial G hG oa o oo
  refine ⟨P, n, h1, h2, fun hcase => ?_⟩
  obtain ⟨P', h1', c2, c3, c4, c5, c6, c7⟩ := C19_cpdag G hG oa o
  obtain rfl : P = P' := by rw [h1] at h1'; injection h1' with h1'; injection h1'
  have hform : P.arcs = ∅ → (P.edges.card = P.nodes.card ∨ P.edges.card + 1 = P.nodes.card ∨
      2 * P.edges.card = P.nodes.card * (P.nodes.card - 1)) → n = (mec G.E).ncard := by
    intro harcs hf
    -- no arc is directed, so there are no v-structures
    have hnov : ∀ a c b, ¬ VStruct G.E a c b := by
      intro a c b hv
      have : (a, c) ∈ P.arcs := (c6 a c).2 fun F hF => ((hF.2.vstr a c b).1 hv).2.1
      rw [harcs] at this
      exact absurd this (Finset.notMem_empty _)
    have hJ : OnePiece G.nodes (Adj G.E) := by
      refine ⟨fun a b hab => ?_, hconn⟩
      rcases hab with h | h
      · exact ⟨hG.fst_mem _ _ h, hG.snd_mem _ _ h⟩
      · exact ⟨hG.snd_mem _ _ h, hG.fst_mem _ _ h⟩
    set M := (mec_finite hG).toFinset with hMdef
    have hM : ∀ A, A ∈ M ↔ Moral (Adj G.E) A := by
      intro A
      rw [hMdef, Set.Finite.mem_toFinset]
      constructor
      · intro h
        exact ⟨h.1, fun a b => (h.2.skel a b).symm, fun a c b hv => hnov a c b ((h.2.vstr a c b).2 hv)⟩
      · intro h
        exact ⟨h.acyclic, fun a b => (h.adj a b).symm,
          fun a c b => ⟨fun hv => absurd hv (hnov a c b), fun hv => absurd hv (h.no_vstr a c b)⟩⟩
    have hMne : M.Nonempty := ⟨G.arcs, (hM _).2 ⟨hG.acyclic, fun _ _ => Iff.rfl, hnov⟩⟩
    have hncard : (mec G.E).ncard = M.card := by rw [hMdef, Set.ncard_eq_toFinset_card _ (mec_finite hG)]
    have hedge : ∀ i j, {i, j} ∈ P.edges ↔ Adj G.E i j := by
      intro i j
      rw [← c5 i j]
      unfold PDAG.hasEdgeOrArc PDAG.hasEdge
      rw [harcs]; simp
    -- the number of arcs of every member
    have hcard : ∀ A ∈ M, A.card = P.edges.card := by
      intro A hA
      have hA' := (hM A).1 hA
      have himg : A.image (fun a => ({a.1, a.2} : Finset α)) = P.edges := by
        ext e
        rw [Finset.mem_image]
        constructor
        · rintro ⟨⟨a, b⟩, hab, rfl⟩
          exact (hedge a b).2 ((hA'.adj a b).1 (Or.inl hab))
        · intro he
          obtain ⟨i, j, _, rfl⟩ := c2.edge_pair e he
          rcases (hA'.adj i j).2 ((hedge i j).1 he) with h | h
          · exact ⟨(i, j), h, rfl⟩
          · exact ⟨(j, i), h, Finset.pair_comm _ _⟩
      rw [← himg, Finset.card_image_of_injOn]
      rintro ⟨a, b⟩ hab ⟨c, d⟩ hcd he
      have hab' : (a, b) ∈ A := hab
      have hcd' : (c, d) ∈ A := hcd
      have hne' : a ≠ b := by rintro rfl; exact hA'.acyclic.irrefl hab'
      rw [PDAG.pair_eq_iff] at he
      rcases he with ⟨rfl, rfl⟩ | ⟨rfl, rfl⟩
      · rfl
      · exact absurd hcd' (hA'.acyclic.asymm hab')
    have hpos : 0 < P.nodes.card := by rw [c4]; exact Finset.card_pos.2 hne
    unfold PDAG.mecSize at h2
    dsimp only at h2
    rw [if_neg (by rw [harcs]; simp)] at h2
    rw [hncard]
    by_cases e1 : P.edges.card = P.nodes.card
    · rw [if_pos e1] at h2
      injection h2 with h2; injection h2 with h2
      rw [count_unicyclic hJ hne M hM hMne fun A hA => by rw [hcard A hA, e1, c4], ← h2, c4]
    rw [if_neg e1] at h2
    by_cases e2 : P.edges.card + 1 = P.nodes.card
    · rw [if_pos (by omega)] at h2
      injection h2 with h2; injection h2 with h2
      rw [count_tree hJ hne M hM hMne fun A hA => by rw [hcard A hA, e2, c4], ← h2, c4]
    have e3 := (hf.resolve_left e1).resolve_left e2
    rw [if_neg (by omega), if_pos (by zify [hpos] at e3; exact e3)] at h2
    injection h2 with h2; injection h2 with h2
    -- all pairs are adjacent
    have hall : P.edges = G.nodes.powersetCard 2 := by
      refine Finset.eq_of_subset_of_card_le (fun e he => ?_) ?_
      · obtain ⟨i, j, hij, rfl⟩ := c2.edge_pair e he
        have := (hJ.mem i j ((hedge i j).1 he))
        rw [Finset.mem_powersetCard, Finset.card_pair hij]
        refine ⟨?_, rfl⟩
        intro x hx
        rw [Finset.mem_insert, Finset.mem_singleton] at hx
        rcases hx with rfl | rfl
        · exact this.1
        · exact this.2
      · rw [Finset.card_powersetCard, Nat.choose_two_right, ← c4, ← e3]
        omega
    rw [count_complete (V := G.nodes) M fun A => ?_, ← h2, c4]
    rw [hM]
    have : Adj G.E = fun a b => a ∈ G.nodes ∧ b ∈ G.nodes ∧ a ≠ b := by
      funext a b
      refine propext ?_
      rw [← hedge, hall, Finset.mem_powersetCard]
      constructor
      · rintro ⟨k1, k2⟩
        refine ⟨k1 (by simp), k1 (by simp), ?_⟩
        rintro rfl
        simp at k2
      · rintro ⟨ha, hb, hab⟩
        refine ⟨?_, Finset.card_pair hab⟩
        intro x hx
        rw [Finset.mem_insert, Finset.mem_singleton] at hx
        rcases hx with rfl | rfl
        · exact ha
        · exact hb
    rw [this]
  rcases hcase with hfree | ⟨harcs, hf⟩
  · by_cases ha : P.arcs = ∅
    · by_cases hf : P.edges.card = P.nodes.card ∨ P.edges.card + 1 = P.nodes.card ∨
          2 * P.edges.card = P.nodes.card * (P.nodes.card - 1)
      · exact hform ha hf
      · push Not at hf
        exact h3 hfree (Or.inr hf)
    · exact h3 hfree (Or.inl (Finset.nonempty_iff_ne_empty.2 ha))
  · exact hform harcs hf

/-- The class of `0 → 1 → 2` has three members. -/
example : ∃ P, (Sample.right.cpdag Sample.order ⟨Sample.order, Sample.order⟩).run = some (.ok P) ∧
    P.mecSize ⟨Sample.dagOracle 3 Sample.unpack, Sample.order, fun _ => Sample.order⟩ =
      some (.ok (mec Sample.right.E).ncard) := by
  obtain ⟨P, n, h1, h2, h3⟩ := C59_mec_size_connected_partial Sample.right Sample.right_valid Sample.order
    ⟨Sample.order, Sample.order⟩ ⟨Sample.dagOracle 3 Sample.unpack, Sample.order, fun _ => Sample.order⟩ ⟨0, by decide⟩
    (by
      have h : ∀ a b : Fin 3, a = b ∨ Adj Sample.right.E a b ∨ ∃ c, Adj Sample.right.E a c ∧ Adj Sample.right.E c b := by
        unfold Adj; decide
      intro a _ b _
      rcases h a b with rfl | h | ⟨c, h, h'⟩
      · exact .refl
      · exact .single h
      · exact .tail (.single h) h')
  refine ⟨P, h1, ?_⟩
  rw [h2, h3 (Or.inl ?_)]
  obtain ⟨P', h1', _, _, _, h5, _⟩ := C19_cpdag Sample.right Sample.right_valid Sample.order ⟨Sample.order, Sample.order⟩
  obtain rfl : P = P' := by rw [h1] at h1'; injection h1' with h1'; injection h1'
  rintro ⟨a, b, c, k1, k2, k3⟩
  have hadj : ∀ {x y}, {x, y} ∈ P.edges → Adj Sample.right.E x y := fun h =>
    (h5 _ _).1 (PDAG.adj_true.2 (Or.inr (Or.inr h)))
  have hno : ∀ a b c, ¬ (Adj Sample.right.E a b ∧ Adj Sample.right.E b c ∧ Adj Sample.right.E a c) := by
    unfold Adj; decide
  exact hno a b c ⟨hadj k1, hadj k2, hadj k3⟩

/-- C59 also fails for the graph without nodes: there are as many edges as nodes, so `mec_size()` returns 0, although the
class has one member. -/
theorem C59_violated_empty (oa : SetOrder Unit (α × α)) (o : PDAG.OrientOracle α) (oo : PDAG.AllOracle α) :
    ∃ G : DAG α, G.Valid ∧ G.nodes = ∅ ∧ ∃ P, (G.cpdag oa o).run = some (.ok P) ∧ P.mecSize oo = some (.ok 0) ∧
      (mec G.E).ncard = 1 := by
  have hno : ∀ a b, ¬ (DAG.empty (∅ : Finset α)).E a b := fun a b h => absurd h (Finset.notMem_empty _)
  have hac : ∀ F : α → α → Prop, (∀ a b, ¬ F a b) → Acyclic F := by
    intro F hF v hv
    rcases Relation.TransGen.head'_iff.1 hv with ⟨_, h, _⟩
    exact hF _ _ h
  have hG : (DAG.empty (∅ : Finset α)).Valid := ⟨DAG.empty_consistent ∅, hac _ hno⟩
  obtain ⟨P, h1, c2, c3, c4, c5, c6, c7⟩ := C19_cpdag _ hG oa o
  have hEq : Equivalent (DAG.empty (∅ : Finset α)).E (DAG.empty (∅ : Finset α)).E := ⟨hG.acyclic, SameSkelV.refl _⟩
  refine ⟨_, hG, rfl, P, h1, ?_, ?_⟩
  · have ha : P.arcs = ∅ := by
      rw [Finset.eq_empty_iff_forall_notMem]
      rintro ⟨i, j⟩ hij
      exact hno i j ((c6 i j).1 hij _ hEq)
    have he : P.edges = ∅ := by
      rw [Finset.eq_empty_iff_forall_notMem]
      intro e he
      obtain ⟨i, j, _, rfl⟩ := c2.edge_pair e he
      rcases (c5 i j).1 (PDAG.adj_true.2 (Or.inr (Or.inr he))) with h | h
      · exact hno _ _ h
      · exact hno _ _ h
    have hn : P.nodes = ∅ := c4
    unfold PDAG.mecSize
    simp [ha, he, hn]
  · rw [Set.ncard_eq_one]
    refine ⟨∅, ?_⟩
    ext A
    constructor
    · intro hA
      refine Finset.eq_empty_iff_forall_notMem.2 ?_
      rintro ⟨i, j⟩ hij
      rcases (hA.2.skel i j).2 (Or.inl hij) with h | h
      · exact hno _ _ h
      · exact hno _ _ h
    · rintro rfl
      exact hEq

end Props
