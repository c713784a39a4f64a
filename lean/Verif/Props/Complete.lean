import Verif.Props.CPDAG
import Verif.Proof.Complete

/-! # C45, C66, C67: completion of partially directed graphs -/

namespace Props

open Model Model.DAG Spec Relation
universe u
variable {α : Type u} [DecidableEq α]

/-- C45. `to_complete_pdag()` terminates without raising on every PDAG whose pairs carry one mark; it keeps nodes, all
arcs and the skeleton; every consistent extension of the PDAG contains all arcs of the result (and is a consistent
extension of the result); in the result no orientation rule applies to an undirected edge. -/
theorem C45_to_complete_pdag (P : PDAG α) (hP : P.Consistent) (hS : P.Simple) (o : PDAG.OrientOracle α) :
    ∃ Q, (P.toCompletePdag o).run = some (.ok Q) ∧ Q.Consistent ∧ Q.Simple ∧ Q.nodes = P.nodes ∧
      P.arcs ⊆ Q.arcs ∧ (∀ i j, Q.hasEdgeOrArc i j = P.hasEdgeOrArc i j) ∧
      (∀ F, Extends (fun i j => (i, j) ∈ P.arcs) (fun i j => {i, j} ∈ P.edges) F →
        Extends (fun i j => (i, j) ∈ Q.arcs) (fun i j => {i, j} ∈ Q.edges) F) ∧
      ∀ i j, Q.hasEdge i j = true →
        (∀ k, (k, i) ∈ Q.arcs → Q.hasEdgeOrArc k j = true) ∧
        (∀ k, (i, k) ∈ Q.arcs → (k, j) ∉ Q.arcs) ∧
        (∀ k l, k ≠ l → (k, j) ∈ Q.arcs → (l, j) ∈ Q.arcs → Q.hasEdge i k = true → Q.hasEdge i l = true →
          Q.hasEdgeOrArc k l = true) := by
  obtain ⟨Q, h1, h2, h3, h4⟩ := PDAG.toCompletePdag_spec o hP hS
    (fun a => ∀ F, Extends P.Arc P.Edge F → F a.1 a.2) (fun a ha F hF => hF.arcs _ _ ha)
    (fun Q hG hQ i j he hc F hF => PDAG.cfg_extends hG hF (fun a ha => hQ a ha F hF) he (hc.imp fun _ _ _ => trivial))
  refine ⟨Q, h1, h2.cons, h2.simp, h2.nodes, h2.arcs, h2.adj, ?_, ?_⟩
  · intro F hF
    refine ⟨hF.acyclic, ?_, fun a b hab => h3 _ hab F hF, ?_⟩
    · intro a b
      rw [hF.adj]
      exact (PDAG.adj_iff.symm.trans (by rw [h2.adj])).trans PDAG.adj_iff
    · intro a c b hv
      have := hF.vstr a c b hv
      exact ⟨h2.arcs this.1, h2.arcs this.2⟩
  · intro i j he
    have hno := h4 i j (of_decide_eq_true he)
    refine ⟨fun k hk => ?_, fun k hk hkj => ?_, fun k l hkl hk hl e1 e2 => ?_⟩
    · by_contra hc
      exact hno (Or.inl ⟨k, hk, Bool.not_eq_true _ ▸ hc, trivial⟩)
    · exact hno (Or.inr (Or.inl ⟨k, hk, hkj, trivial, trivial⟩))
    · by_contra hc
      exact hno (Or.inr (Or.inr ⟨k, l, hkl, hk, hl,
        ⟨of_decide_eq_true e1, of_decide_eq_true e2, Bool.not_eq_true _ ▸ hc⟩, trivial, trivial⟩))

namespace Sample

/-- `0 → 1 - 2` -/
noncomputable def partly : PDAG (Fin 3) := PDAG.new _root_.Sample.order _root_.Sample.order {0, 1, 2} {(0, 1)} {(1, 2)} ∅

theorem partly_spec : partly.Consistent ∧ partly.arcs = {(0, 1)} ∧ partly.edges = {{1, 2}} := by
  obtain ⟨h1, h2, h3, _⟩ := PDAG.new_spec _root_.Sample.order _root_.Sample.order ({0, 1, 2} : Finset (Fin 3)) {(0, 1)} {(1, 2)} ∅ (by decide)
  exact ⟨h1, h2, by unfold partly; rw [h3]; decide⟩

theorem partly_simple : partly.Simple := by
  obtain ⟨_, h2, h3⟩ := partly_spec
  constructor
  · rw [h2]; decide
  · rw [h2, h3]; decide

end Sample

/-- `0 → 1 - 2` is completed to `0 → 1 → 2`. -/
example : ∃ Q, (Sample.partly.toCompletePdag ⟨Sample.order, Sample.order⟩).run = some (.ok Q) ∧ (1, 2) ∈ Q.arcs := by
  obtain ⟨hc, ha, he⟩ := Sample.partly_spec
  obtain ⟨Q, h1, h2, h3, _, h5, h6, _, h8⟩ :=
    C45_to_complete_pdag Sample.partly hc Sample.partly_simple ⟨Sample.order, Sample.order⟩
  refine ⟨Q, h1, ?_⟩
  have h01 : (0, 1) ∈ Q.arcs := h5 (by rw [ha]; simp)
  have hn02 : Q.hasEdgeOrArc 0 2 = false := by
    rw [h6, ← Bool.not_eq_true, PDAG.adj_true, ha, he]; decide
  by_contra hc12
  have h12 : Q.hasEdgeOrArc 1 2 = true := by rw [h6, PDAG.adj_true, ha, he]; decide
  rcases PDAG.adj_true.1 h12 with h | h | h
  · exact hc12 h
  · -- the extension `0 → 1 → 2` contains `1 → 2`
    have hF : Extends (fun i j => (i, j) ∈ Sample.partly.arcs) (fun i j => {i, j} ∈ Sample.partly.edges)
        Sample.right.E := by
      rw [ha, he]
      refine ⟨Sample.right_valid.acyclic, ?_, ?_, ?_⟩
      · unfold Adj; decide
      · decide
      · unfold VStruct Adj; decide
    have hF' := (C45_to_complete_pdag Sample.partly hc Sample.partly_simple ⟨Sample.order, Sample.order⟩)
    obtain ⟨Q', h1', _, _, _, _, _, h7', _⟩ := hF'
    rw [h1] at h1'
    obtain rfl : Q = Q' := by injection h1' with h1'; injection h1'
    have := (h7' _ hF).arcs _ _ h
    revert this; decide
  · have := (h8 1 2 (decide_eq_true h)).1 0 h01
    rw [hn02] at this; simp at this

/-- C66. `cpdag_new()` terminates without raising and returns a graph with the nodes, arcs and edges of `cpdag()`. -/
theorem C66_cpdag_new (G : DAG α) (hG : G.Valid) (oa oa' oe' : SetOrder Unit (α × α)) (o o' : PDAG.OrientOracle α) :
    ∃ P Q, (G.cpdag oa o).run = some (.ok P) ∧ (G.cpdagNew oa' oe' o').run = some (.ok Q) ∧
      P.nodes = Q.nodes ∧ P.arcs = Q.arcs ∧ P.edges = Q.edges ∧ P.eq Q = true := by
  obtain ⟨P, h1, h2, _⟩ := PDAG.cpdag_shows hG oa o
  obtain ⟨Q, k1, k2⟩ := cpdagNew_shows hG oa' oe' o'
  obtain ⟨e1, e2, e3⟩ := PDAG.shows_unique h2 k2
  refine ⟨P, Q, h1, k1, e1, e2, e3, ?_⟩
  unfold PDAG.eq; simp [e1, e2, e3]

example : ∃ Q, (Sample.right.cpdagNew Sample.order Sample.order ⟨Sample.order, Sample.order⟩).run = some (.ok Q) ∧
    Q.hasEdge 0 1 = true := by
  obtain ⟨P, Q, r1, r2, _, _, re, _⟩ := C66_cpdag_new Sample.right Sample.right_valid Sample.order Sample.order
    Sample.order ⟨Sample.order, Sample.order⟩ ⟨Sample.order, Sample.order⟩
  obtain ⟨P', h1, _, _, _, _, _, h2⟩ := C19_cpdag Sample.right Sample.right_valid Sample.order ⟨Sample.order, Sample.order⟩
  rw [r1] at h1
  obtain rfl : P = P' := by injection h1 with h1; injection h1
  refine ⟨Q, r2, ?_⟩
  unfold PDAG.hasEdge at h2 ⊢
  rw [← re]
  exact (h2 0 1).2 ⟨⟨_, ⟨Sample.right_valid.acyclic, SameSkelV.refl _⟩, by decide⟩,
    ⟨_, ⟨Sample.left_valid.acyclic, Sample.left_right⟩, by decide⟩⟩

/-- C67. `d.cpdag().interventional_cpdag(d, nodes)` terminates without raising and shows, on the nodes and skeleton of
`d`, exactly the arcs common to all Markov equivalent graphs that agree with `d` on all arcs at one of the nodes. -/
theorem C67_pdag_interventional_cpdag (G : DAG α) (hG : G.Valid) (oa oa' oe' : SetOrder Unit (α × α))
    (o o' : PDAG.OrientOracle α) (up : Unpack α) (I : Finset α) :
    ∃ c P, (G.cpdag oa o).run = some (.ok c) ∧ (c.interventionalCpdag oa' oe' up o' G I).run = some (.ok P) ∧
      P.Consistent ∧ P.Simple ∧ P.nodes = G.nodes ∧
      (∀ i j, (i, j) ∈ P.arcs ↔ ∀ F, Equivalent G.E F →
        (∀ a b, a ∈ I ∨ b ∈ I → (G.E a b ↔ F a b)) → F i j) ∧
      (∀ i j, P.hasEdge i j = true ↔
        (∃ F, Equivalent G.E F ∧ (∀ a b, a ∈ I ∨ b ∈ I → (G.E a b ↔ F a b)) ∧ F i j) ∧
        ∃ F, Equivalent G.E F ∧ (∀ a b, a ∈ I ∨ b ∈ I → (G.E a b ↔ F a b)) ∧ F j i) := by
  obtain ⟨c, c1, c2, _⟩ := PDAG.cpdag_shows hG oa o
  obtain ⟨P, h1, h2⟩ := pdagInterventionalCpdag_shows hG oa' oe' up o' c2 I
  have hB := cutBy_cotrans {S : Set α | ∃ v ∈ I, S = {v}}
  have hcut : ∀ F, Acyclic F → ((∀ x y, CutBy {S : Set α | ∃ v ∈ I, S = {v}} x y → (G.E x y ↔ F x y)) ↔
      ∀ a b, a ∈ I ∨ b ∈ I → (G.E a b ↔ F a b)) := by
    intro F hF
    constructor
    · intro h a b hab
      by_cases hne : a = b
      · subst hne; exact ⟨fun h' => (hG.acyclic.irrefl h').elim, fun h' => (hF.irrefl h').elim⟩
      · exact h a b ((cutBy_atomic hne).2 hab)
    · intro h x y hxy
      have hne : x ≠ y := by
        rintro rfl; obtain ⟨_, _, h'⟩ := hxy; exact h' Iff.rfl
      exact h x y ((cutBy_atomic hne).1 hxy)
  refine ⟨c, P, c1, h1, h2.cons, h2.simp, h2.nodes, ?_, ?_⟩
  · intro i j
    rw [h2.arcs, meek_iff hG.acyclic hB (nodes_of_valid hG)]
    exact ⟨fun h F hF hc => h F hF.1 hF.2 ((hcut F hF.1).2 hc), fun h F hF hs hc => h F ⟨hF, hs⟩ ((hcut F hF).1 hc)⟩
  · intro i j
    unfold PDAG.hasEdge
    rw [decide_eq_true_eq, h2.edges, PDAG.undec_iff_both hG.acyclic hB (nodes_of_valid hG)]
    constructor
    · rintro ⟨⟨F, f1, f2, f4, f3⟩, K, k1, k2, k4, k3⟩
      exact ⟨⟨F, ⟨f1, f2⟩, (hcut F f1).1 f4, f3⟩, K, ⟨k1, k2⟩, (hcut K k1).1 k4, k3⟩
    · rintro ⟨⟨F, ⟨f1, f2⟩, f4, f3⟩, K, ⟨k1, k2⟩, k4, k3⟩
      exact ⟨⟨F, f1, f2, (hcut F f1).2 f4, f3⟩, K, k1, k2, (hcut K k1).2 k4, k3⟩

/-- An unpacking order for two-element sets. -/
noncomputable def Sample.unpack : Unpack (Fin 3) where
  fn s := if h : ∃ p : Fin 3 × Fin 3, p.1 ≠ p.2 ∧ s = {p.1, p.2} then h.choose else (0, 0)
  spec i j hij := by
    have h : ∃ p : Fin 3 × Fin 3, p.1 ≠ p.2 ∧ ({i, j} : Finset (Fin 3)) = {p.1, p.2} := ⟨(i, j), hij, rfl⟩
    rw [dif_pos h]
    have := h.choose_spec.2
    rcases PDAG.pair_eq_iff.1 this with ⟨h1, h2⟩ | ⟨h1, h2⟩
    · exact Or.inl (Prod.ext h1.symm h2.symm)
    · exact Or.inr (Prod.ext h2.symm h1.symm)

/-- Intervening on `0` fixes `0 → 1` in `0 → 1 → 2`. -/
example : ∃ c P, (Sample.right.cpdag Sample.order ⟨Sample.order, Sample.order⟩).run = some (.ok c) ∧
    (c.interventionalCpdag Sample.order Sample.order Sample.unpack ⟨Sample.order, Sample.order⟩ Sample.right {0}).run
      = some (.ok P) ∧ (0, 1) ∈ P.arcs := by
  obtain ⟨c, P, h1, h2, _, _, _, h3, _⟩ := C67_pdag_interventional_cpdag Sample.right Sample.right_valid Sample.order
    Sample.order Sample.order ⟨Sample.order, Sample.order⟩ ⟨Sample.order, Sample.order⟩ Sample.unpack {0}
  exact ⟨c, P, h1, h2, (h3 0 1).2 fun F _ hc => (hc 0 1 (by simp)).1 (by decide)⟩

end Props
