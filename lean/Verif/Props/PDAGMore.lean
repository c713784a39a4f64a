import Verif.Proof.PDAGMore
import Verif.Props.Topo

/-! # C179–C183: chain components of a CPDAG, cliques, degrees, renaming, conversions from and to `networkx` -/

namespace Props

open Model Model.PDAG Spec Relation
universe u
variable {α : Type u} [DecidableEq α]

theorem chain_of_shows {G : DAG α} (hG : G.Valid) {B : α → α → Prop} (hB : Cotrans B) {P : PDAG α} (h : Shows G B P)
    (w : ChainOracle α) :
    ∃ Qs, P.chainComponents w.o w.pk w.oa w.oe w.up = some Qs ∧ ∀ Q ∈ Qs, Q.arcs = ∅ ∧ Chordal (Joined Q.edges) ∧
      (∀ i ∈ Q.nodes, ∀ j ∈ Q.nodes, Adj G.E i j ↔ {i, j} ∈ Q.edges) := by
  obtain ⟨Qs, h1, -, -, h4, h5⟩ := C56_chain_components P h.cons w.o w.pk w.oa w.oe w.up
  refine ⟨Qs, h1, fun Q hQ => ?_⟩
  obtain ⟨-, -, a1, a2⟩ := h5 Q hQ
  have hno : ∀ i ∈ Q.nodes, ∀ j ∈ Q.nodes, (i, j) ∉ P.arcs := fun i hi j hj ha =>
    h.no_arc hG hB ha ((h4 i j).1 ⟨Q, hQ, hi, hj⟩).2
  refine ⟨Finset.eq_empty_of_forall_notMem fun a ha => ?_, chordal_sub (h.chordal hG hB) a2, fun i hi j hj => ?_⟩
  · obtain ⟨k1, k2, k3⟩ := (a1 a.1 a.2).1 ha
    exact hno _ k2 _ k3 k1
  · rw [a2]
    constructor
    · intro hadj
      refine ⟨(h.edges i j).2 (undec_of_adj hadj (fun hm => ?_) fun hm => ?_), by
        intro x hx
        simp only [Finset.mem_insert, Finset.mem_singleton] at hx
        rcases hx with rfl | rfl
        · exact hi
        · exact hj⟩
      · exact hno i hi j hj ((h.arcs i j).2 hm)
      · exact hno j hj i hi ((h.arcs j i).2 hm)
    · rintro ⟨he, -⟩
      exact ((h.edges i j).1 he).adj

/-- C179. The chain components of `cpdag()` carry no arcs, two nodes of a component are adjacent in the DAG iff the component has the edge
between them, and every cycle of at least four nodes has a chord. -/
theorem C179_cpdag (G : DAG α) (hG : G.Valid) (oa : SetOrder Unit (α × α)) (o : OrientOracle α) (w : ChainOracle α) :
    ∃ P Qs, (G.cpdag oa o).run = some (.ok P) ∧ P.chainComponents w.o w.pk w.oa w.oe w.up = some Qs ∧
      ∀ Q ∈ Qs, Q.arcs = ∅ ∧ Chordal (Joined Q.edges) ∧ ∀ i ∈ Q.nodes, ∀ j ∈ Q.nodes, Adj G.E i j ↔ {i, j} ∈ Q.edges := by
  obtain ⟨P, h1, h2, -⟩ := cpdag_shows hG oa o
  obtain ⟨Qs, k1, k2⟩ := chain_of_shows hG cotrans_false h2 w
  exact ⟨P, Qs, h1, k1, k2⟩

/-- C179. The same holds for `interventional_cpdag`. -/
theorem C179_interventional (G : DAG α) (hG : G.Valid) (oa : SetOrder Unit (α × α)) (o o' : OrientOracle α) (iv : List (Finset α))
    (w : ChainOracle α) :
    ∃ c P Qs, (G.cpdag oa o).run = some (.ok c) ∧ (G.interventionalCpdag oa o' iv c).run = some (.ok P) ∧
      P.chainComponents w.o w.pk w.oa w.oe w.up = some Qs ∧
      ∀ Q ∈ Qs, Q.arcs = ∅ ∧ Chordal (Joined Q.edges) ∧ ∀ i ∈ Q.nodes, ∀ j ∈ Q.nodes, Adj G.E i j ↔ {i, j} ∈ Q.edges := by
  obtain ⟨c, c1, -, c2⟩ := cpdag_shows hG oa o
  obtain ⟨P, h1, h2⟩ := interventionalCpdag_shows hG oa o' iv c c2
  obtain ⟨Qs, k1, k2⟩ := chain_of_shows hG (cutBy_cotrans (targets iv)) h2 w
  exact ⟨c, P, Qs, c1, h1, k1, k2⟩

example (oa : SetOrder Unit (Fin 3 × Fin 3)) (o : OrientOracle (Fin 3)) (w : ChainOracle (Fin 3)) :
    ∃ P Qs, ((_root_.Sample.graph {(0, 1), (1, 2), (0, 2)}).cpdag oa o).run = some (.ok P) ∧
      P.chainComponents w.o w.pk w.oa w.oe w.up = some Qs ∧ ∀ Q ∈ Qs, Q.arcs = ∅ := by
  obtain ⟨P, Qs, h1, h2, h3⟩ := C179_cpdag _ (_root_.Sample.graph_valid (n := 3) (arcs := {(0, 1), (1, 2), (0, 2)}) (by decide)) oa o w
  exact ⟨P, Qs, h1, h2, fun Q hQ => (h3 Q hQ).1⟩

/-- C180. `max_cliques()` of a partially directed graph whose undirected part is chordal and has an edge, and whose chain components carry
no arcs, is the set of the maximal cliques of at least two nodes of the undirected part. Missing: the cliques of one node, graphs without
undirected edges, graphs with an arc inside a chain component; see `C180_violated`, `C180_recursion_violated`. -/
theorem C180_max_cliques_partial {nx : NxCliques α} (hnx : Documented nx) (P : PDAG α) (hP : P.Consistent) (hc : Chordal (Joined P.edges))
    (ha : ∀ i j, (i, j) ∈ P.arcs → ¬ ReflTransGen (Joined P.edges) i j) (he : P.edges.Nonempty) (w : ℕ → ChainOracle α) (n : ℕ) :
    ∃ M, (P.maxCliques nx w n).run = some (.ok M) ∧ ∀ c, c ∈ M ↔ 2 ≤ c.card ∧ MaxClique P.nodes (Joined P.edges) c :=
  max_cliques_ok hnx hP hc ha he w n

/-- C180. For the same graphs `clique_size()` is the number of nodes of a largest clique. -/
theorem C180_clique_size_partial {nx : NxCliques α} (hnx : Documented nx) (P : PDAG α) (hP : P.Consistent) (hc : Chordal (Joined P.edges))
    (ha : ∀ i j, (i, j) ∈ P.arcs → ¬ ReflTransGen (Joined P.edges) i j) (he : P.edges.Nonempty) (w : ℕ → ChainOracle α) (n : ℕ) :
    ∃ k : ℕ, (P.cliqueSize nx w n).run = some (.ok ⟨k⟩) ∧ (∃ c, c ⊆ P.nodes ∧ Clique (Joined P.edges) c ∧ c.card = k) ∧
      ∀ c, c ⊆ P.nodes → Clique (Joined P.edges) c → c.card ≤ k := by
  obtain ⟨k, h1, ⟨c, h2, h3⟩, h4⟩ := clique_size_ok hnx hP hc ha he w n
  refine ⟨k, h1, ⟨c, h2.2.sub, h2.2.clique, h3⟩, fun d d1 d2 => ?_⟩
  by_cases hd : 2 ≤ d.card
  · obtain ⟨m, m1, m2⟩ := exists_big hd d1 d2
    exact (Finset.card_le_card m2).trans (h4 m m1)
  · have := h2.1
    omega

/-- C180. In particular for `cpdag()`, if it has an undirected edge. -/
theorem C180_cpdag_partial {nx : NxCliques α} (hnx : Documented nx) (G : DAG α) (hG : G.Valid) (oa : SetOrder Unit (α × α))
    (o : OrientOracle α) (w : ℕ → ChainOracle α) :
    ∃ P, (G.cpdag oa o).run = some (.ok P) ∧ (P.edges.Nonempty →
      (∃ M, (P.maxCliques nx w 0).run = some (.ok M) ∧ ∀ c, c ∈ M ↔ 2 ≤ c.card ∧ MaxClique P.nodes (Joined P.edges) c) ∧
      ∃ k : ℕ, (P.cliqueSize nx w 0).run = some (.ok ⟨k⟩) ∧ (∃ c, c ⊆ P.nodes ∧ Clique (Joined P.edges) c ∧ c.card = k) ∧
        ∀ c, c ⊆ P.nodes → Clique (Joined P.edges) c → c.card ≤ k) := by
  obtain ⟨P, h1, h2, -⟩ := cpdag_shows hG oa o
  refine ⟨P, h1, fun he => ⟨?_, ?_⟩⟩
  · exact C180_max_cliques_partial hnx P h2.cons (h2.chordal hG cotrans_false) (fun i j h => h2.no_arc hG cotrans_false h) he w 0
  · exact C180_clique_size_partial hnx P h2.cons (h2.chordal hG cotrans_false) (fun i j h => h2.no_arc hG cotrans_false h) he w 0

/-- There is a function as `networkx` documents it. -/
noncomputable def Sample.cliques : NxCliques α := fun g =>
  .ok (@Finset.filter _ (fun c => MaxClique g.nodes (Joined g.edges) c) (Classical.decPred _) g.nodes.powerset)

theorem Sample.cliques_documented : Documented (Sample.cliques : NxCliques α) := by
  intro g _ _
  refine ⟨_, rfl, fun c => ?_⟩
  refine (@Finset.mem_filter _ _ (Classical.decPred _) _ _).trans ?_
  rw [Finset.mem_powerset]
  exact ⟨fun h => h.2, fun h => ⟨h.sub, h⟩⟩

example (oa : SetOrder Unit (Fin 3 × Fin 3)) (o : OrientOracle (Fin 3)) (w : ℕ → ChainOracle (Fin 3)) :
    ∃ P M, ((_root_.Sample.graph {(0, 1)}).cpdag oa o).run = some (.ok P) ∧ (P.edges.Nonempty →
      (P.maxCliques Sample.cliques w 0).run = some (.ok M)) := by
  obtain ⟨P, h1, h2⟩ := C180_cpdag_partial Sample.cliques_documented _ (_root_.Sample.graph_valid (n := 3) (arcs := {(0, 1)}) (by decide))
    oa o w
  by_cases he : P.edges.Nonempty
  · obtain ⟨⟨M, h3, -⟩, -⟩ := h2 he
    exact ⟨P, M, h1, fun _ => h3⟩
  · exact ⟨P, ∅, h1, fun h => absurd h he⟩

/-- C180 is violated: for the CPDAG of `0 → 2 ← 1`, `max_cliques` raises `TypeError` and `clique_size` raises `ValueError`. For the graph
with nodes `0`, `1`, `2` and the edge `0 - 1`, `max_cliques` misses `{2}`. -/
theorem C180_violated {nx : NxCliques (Fin 3)} (w : ℕ → ChainOracle (Fin 3)) (oa : SetOrder Unit (Fin 3 × Fin 3)) (o : OrientOracle (Fin 3)) :
    (∃ P, ((_root_.Sample.graph {(0, 2), (1, 2)}).cpdag oa o).run = some (.ok P) ∧ (P.maxCliques nx w 0).run = some (.error .type) ∧
      (P.cliqueSize nx w 0).run = some (.error .value)) ∧
    (Documented nx → ∃ M, ((PDAG.new oa oa {0, 1, 2} ∅ {(0, 1)} ∅).maxCliques nx w 0).run = some (.ok M) ∧ {2} ∉ M ∧
      MaxClique (PDAG.new oa oa {0, 1, 2} ∅ {(0, 1)} ∅).nodes (Joined (PDAG.new oa oa {0, 1, 2} ∅ {(0, 1)} ∅).edges) {2}) := by
  constructor
  · have hG : (_root_.Sample.graph (n := 3) {(0, 2), (1, 2)}).Valid := _root_.Sample.graph_valid (by decide)
    obtain ⟨P, h1, h2, -⟩ := cpdag_shows hG oa o
    have hv : VStruct (_root_.Sample.graph (n := 3) {(0, 2), (1, 2)}).E 0 2 1 := by unfold VStruct Adj; decide
    have ha : ∀ i j, (_root_.Sample.graph (n := 3) {(0, 2), (1, 2)}).E i j →
        Meek (_root_.Sample.graph (n := 3) {(0, 2), (1, 2)}).E (fun _ _ => False) i j := by
      intro i j h
      have : (i = 0 ∧ j = 2) ∨ (i = 1 ∧ j = 2) := by
        change (i, j) ∈ ({(0, 2), (1, 2)} : Finset (Fin 3 × Fin 3)) at h
        simpa using h
      rcases this with ⟨rfl, rfl⟩ | ⟨rfl, rfl⟩
      · exact .vstr hv
      · exact .vstr (vstruct_symm hv)
    have he : P.edges = ∅ := Finset.eq_empty_of_forall_notMem fun e he => by
      obtain ⟨i, j, hij, rfl⟩ := h2.cons.edge_pair e he
      rcases (h2.edges i j).1 he with ⟨k1, k2⟩ | ⟨k1, k2⟩
      · exact k2 (ha _ _ k1)
      · exact k2 (ha _ _ k1)
    obtain ⟨k1, k2⟩ := maxCliques_directed nx w 0 h2.cons he ⟨(0, 2), (h2.arcs 0 2).2 (.vstr hv)⟩
    exact ⟨P, h1, k1, k2⟩
  · intro hnx
    obtain ⟨k1, k2, k3, -, k5⟩ := new_spec oa oa ({0, 1, 2} : Finset (Fin 3)) ∅ {(0, 1)} ∅ (by decide)
    set P := PDAG.new oa oa ({0, 1, 2} : Finset (Fin 3)) ∅ {(0, 1)} ∅ with hPdef
    have he : P.edges = {{0, 1}} := by rw [k3]; rfl
    have hne : ∀ i j : Fin 3, Joined P.edges i j → (i = 0 ∧ j = 1) ∨ (i = 1 ∧ j = 0) := by
      intro i j h
      unfold Joined at h
      rw [he, Finset.mem_singleton, UG.pair_eq] at h
      rcases h with h | h
      · exact .inl h
      · exact .inr h
    have hch : Chordal (Joined P.edges) := by
      intro n c hc hj
      have h01 := hne _ _ (hj 0)
      have h12 := hne _ _ (hj (0 + 1))
      obtain ⟨n1, n2, n3, n4⟩ := fin_succ_ne (n := n) (0 + 1)
      exfalso
      have hz : c (0 + 1 + 1) = c 0 := by
        rcases h01 with ⟨a, b⟩ | ⟨a, b⟩ <;> rcases h12 with ⟨a', b'⟩ | ⟨a', b'⟩
        · rw [b] at a'; exact absurd a' (by decide)
        · rw [b', a]
        · rw [b', a]
        · rw [b] at a'; exact absurd a' (by decide)
      have := hc hz
      exact n3 (by rw [add_sub_cancel_right]; exact this.symm)
    obtain ⟨M, m1, m2⟩ := C180_max_cliques_partial hnx P k1 hch (by rw [k2]; intro i j h; simp at h) (by rw [he]; simp) w 0
    refine ⟨M, m1, fun h => absurd ((m2 _).1 h).1 (by decide), by simp, ?_, ?_, ?_⟩
    · intro x hx
      rw [Finset.mem_singleton] at hx
      subst hx
      exact (k5 2).2 (.inl (by decide))
    · intro x hx y hy hxy
      rw [Finset.mem_singleton] at hx hy
      exact absurd (hx.trans hy.symm) hxy
    · intro d _ hd h2
      refine Finset.Subset.antisymm (fun x hx => ?_) h2
      by_contra hne'
      have hne'' : x ≠ 2 := fun e => hne' (by rw [e]; simp)
      rcases hd x hx 2 (h2 (by simp)) hne'' with h | h
      · rcases hne _ _ h with ⟨-, h⟩ | ⟨-, h⟩ <;> exact absurd h (by decide)
      · rcases hne _ _ h with ⟨h, -⟩ | ⟨h, -⟩ <;> exact absurd h (by decide)

/-- C180 is violated: if all undirected edges hang together and an arc joins two of their ends, as in `0 - 1 - 2` with `0 → 2`, then
`max_cliques` and `clique_size` call themselves forever. -/
theorem C180_recursion_violated (nx : NxCliques α) (w : ℕ → ChainOracle α) (n : ℕ) (P : PDAG α) (hP : P.Consistent)
    (ha : ∃ i j x y, (i, j) ∈ P.arcs ∧ {i, x} ∈ P.edges ∧ {j, y} ∈ P.edges)
    (hc : ∀ i x j y, {i, x} ∈ P.edges → {j, y} ∈ P.edges → ReflTransGen (Joined P.edges) i j) :
    (P.maxCliques nx w n).run = none ∧ (P.cliqueSize nx w n).run = none :=
  ⟨maxCliques_stuck nx w n P ⟨hP, ha, hc⟩, cliqueSize_stuck nx w n P ⟨hP, ha, hc⟩⟩

example (nx : NxCliques (Fin 3)) (w : ℕ → ChainOracle (Fin 3)) (oa oe : SetOrder Unit (Fin 3 × Fin 3)) :
    ((PDAG.new oa oe ∅ {(0, 2)} {(0, 1), (1, 2)} ∅).maxCliques nx w 0).run = none := by
  obtain ⟨h1, h2, h3, -⟩ := new_spec oa oe (∅ : Finset (Fin 3)) {(0, 2)} {(0, 1), (1, 2)} ∅ (by decide)
  refine (C180_recursion_violated nx w 0 _ h1 ⟨0, 2, 1, 1, by rw [h2]; decide, by rw [h3]; decide, by rw [h3]; decide⟩ ?_).1
  have h01 : Joined (PDAG.new oa oe (∅ : Finset (Fin 3)) {(0, 2)} {(0, 1), (1, 2)} ∅).edges 0 1 := by unfold Joined; rw [h3]; decide
  have h12 : Joined (PDAG.new oa oe (∅ : Finset (Fin 3)) {(0, 2)} {(0, 1), (1, 2)} ∅).edges 1 2 := by unfold Joined; rw [h3]; decide
  have h10 : Joined (PDAG.new oa oe (∅ : Finset (Fin 3)) {(0, 2)} {(0, 1), (1, 2)} ∅).edges 1 0 := by unfold Joined; rw [h3]; decide
  have h21 : Joined (PDAG.new oa oe (∅ : Finset (Fin 3)) {(0, 2)} {(0, 1), (1, 2)} ∅).edges 2 1 := by unfold Joined; rw [h3]; decide
  have hto : ∀ j : Fin 3, ReflTransGen (Joined (PDAG.new oa oe (∅ : Finset (Fin 3)) {(0, 2)} {(0, 1), (1, 2)} ∅).edges) 1 j := by
    intro j
    fin_cases j
    · exact .single h10
    · exact .refl
    · exact .single h12
  have hfrom : ∀ j : Fin 3, ReflTransGen (Joined (PDAG.new oa oe (∅ : Finset (Fin 3)) {(0, 2)} {(0, 1), (1, 2)} ∅).edges) j 1 := by
    intro j
    fin_cases j
    · exact .single h01
    · exact .refl
    · exact .single h21
  exact fun i _ j _ _ _ => (hfrom i).trans (hto j)

/-- C181. In a graph without double adjacencies `total_degree_of` is the sum of the three other degrees; the in-degrees and the out-degrees
sum to `num_arcs`, the undirected degrees to `2 * num_edges`, the total degrees to `2 * num_adjacencies`; `num_adjacencies` is the size of
the skeleton. -/
theorem C181_degrees (P : PDAG α) (hP : P.Consistent) (hS : P.Simple) :
    (∀ v, P.totalDegreeOf v = P.indegreeOf v + P.outdegreeOf v + P.undirectedDegreeOf v) ∧
    ∑ v ∈ P.nodes, P.indegreeOf v = P.arcs.card ∧ ∑ v ∈ P.nodes, P.outdegreeOf v = P.arcs.card ∧
    ∑ v ∈ P.nodes, P.undirectedDegreeOf v = 2 * P.edges.card ∧ ∑ v ∈ P.nodes, P.totalDegreeOf v = 2 * P.numAdjacencies ∧
    P.skeleton.card = P.numAdjacencies := by
  refine ⟨total_degree hP hS, sum_in hP, sum_out hP, sum_undirected hP, ?_, skeleton_card hS⟩
  rw [Finset.sum_congr rfl fun v _ => total_degree hP hS v, Finset.sum_add_distrib, Finset.sum_add_distrib, sum_in hP, sum_out hP,
    sum_undirected hP, numAdjacencies]
  omega

example : Sample.partly.totalDegreeOf 1 = 2 ∧ Sample.partly.skeleton.card = 2 := by
  obtain ⟨h1, h2, h3⟩ := Sample.partly_spec
  obtain ⟨k1, -, -, -, -, k2⟩ := C181_degrees Sample.partly h1 Sample.partly_simple
  refine ⟨?_, by rw [k2, numAdjacencies, h2, h3]; decide⟩
  have e : Sample.partly.neighbors 1 = {0, 2} := by
    ext x
    rw [h1.neighbors_iff, h2, h3]
    revert x
    decide
  rw [totalDegreeOf, e]
  decide

/-- C182. `rename_nodes` by a map that is injective on the nodes: the new nodes, arcs and edges are the renamed ones, all views agree. A
missing name raises `KeyError`. Missing: the known arcs, see `C182_violated`. -/
theorem C182_rename_partial {β : Type u} [DecidableEq β] (P : PDAG α) (hP : P.Consistent) (on : SetOrder Unit α) (oa : SetOrder Unit (α × α))
    (oe : SetOrder Unit (Finset α)) (up : Unpack α) (oa' oe' : SetOrder Unit (β × β)) (f : α → Option β)
    (hi : ∀ v ∈ P.nodes, ∀ v' ∈ P.nodes, f v = f v' → v = v') :
    ((∀ v ∈ P.nodes, ∃ w, f v = some w) → ∃ Q, P.renameNodes on oa oe up oa' oe' f = .ok Q ∧ Q.Consistent ∧
      (∀ w, w ∈ Q.nodes ↔ ∃ v ∈ P.nodes, f v = some w) ∧
      (∀ x y, (x, y) ∈ Q.arcs ↔ ∃ i j, (i, j) ∈ P.arcs ∧ f i = some x ∧ f j = some y) ∧
      (∀ x y, Q.hasEdge x y = true ↔ ∃ i j, P.hasEdge i j = true ∧ f i = some x ∧ f j = some y) ∧ (P.Simple → Q.Simple)) ∧
    ((∃ v ∈ P.nodes, f v = none) → P.renameNodes on oa oe up oa' oe' f = .error .key) := by
  refine ⟨fun hf => ?_, fun ⟨v, hv, h⟩ => renameNodes_error on oa oe up oa' oe' f hv h⟩
  obtain ⟨ns, as, es, h1, h2, h3, h4, h5⟩ := renameNodes_ok hP on oa oe up oa' oe' f hf hi
  obtain ⟨k1, k2, k3, -, k5⟩ := new_spec oa' oe' ns as es ∅ fun e he => (h4 e.1 e.2 he).1
  have harc : ∀ x y, (x, y) ∈ (new oa' oe' ns as es ∅).arcs ↔ ∃ i j, (i, j) ∈ P.arcs ∧ f i = some x ∧ f j = some y := fun x y => by
    rw [k2]; exact h3 x y
  have hedge : ∀ x y, {x, y} ∈ (new oa' oe' ns as es ∅).edges ↔ ∃ i j, {i, j} ∈ P.edges ∧ f i = some x ∧ f j = some y := by
    intro x y
    rw [k3, Finset.mem_image]
    constructor
    · rintro ⟨⟨a, b⟩, hab, e⟩
      obtain ⟨-, i, j, l1, l2, l3⟩ := h4 a b hab
      rcases UG.pair_eq.1 e with ⟨rfl, rfl⟩ | ⟨rfl, rfl⟩
      · exact ⟨i, j, l1, l2, l3⟩
      · exact ⟨j, i, by rwa [Finset.pair_comm], l3, l2⟩
    · rintro ⟨i, j, l1, l2, l3⟩
      rcases h5 i j x y l1 l2 l3 with h | h
      · exact ⟨_, h, rfl⟩
      · exact ⟨_, h, Finset.pair_comm _ _⟩
  have hinj : ∀ {v v' w}, v ∈ P.nodes → v' ∈ P.nodes → f v = some w → f v' = some w → v = v' := fun hv hv' e e' =>
    hi _ hv _ hv' (e.trans e'.symm)
  refine ⟨_, h1, k1, fun w => ?_, harc, fun x y => ?_, fun hS => ⟨?_, ?_⟩⟩
  · rw [k5, h2]
    constructor
    · rintro (h | ⟨⟨x, y⟩, ha, h⟩ | ⟨⟨x, y⟩, ha, h⟩)
      · exact h
      · obtain ⟨i, j, l1, l2, l3⟩ := (h3 x y).1 ha
        rcases h with rfl | rfl
        · exact ⟨i, (hP.arc_mem i j l1).1, l2⟩
        · exact ⟨j, (hP.arc_mem i j l1).2, l3⟩
      · obtain ⟨-, i, j, l1, l2, l3⟩ := h4 x y ha
        rcases h with rfl | rfl
        · exact ⟨i, hP.edge_mem _ l1 (by simp), l2⟩
        · exact ⟨j, hP.edge_mem _ l1 (by simp), l3⟩
    · exact .inl
  · unfold hasEdge
    simp only [decide_eq_true_eq]
    exact hedge x y
  · intro x y hxy hyx
    obtain ⟨i, j, l1, l2, l3⟩ := (harc x y).1 hxy
    obtain ⟨j', i', m1, m2, m3⟩ := (harc y x).1 hyx
    obtain rfl := hinj (hP.arc_mem _ _ l1).1 (hP.arc_mem _ _ m1).2 l2 m3
    obtain rfl := hinj (hP.arc_mem _ _ l1).2 (hP.arc_mem _ _ m1).1 l3 m2
    exact hS.one_arc _ _ l1 m1
  · intro x y hxy hyx
    obtain ⟨i, j, l1, l2, l3⟩ := (harc x y).1 hxy
    obtain ⟨i', j', m1, m2, m3⟩ := (hedge x y).1 hyx
    obtain rfl := hinj (hP.arc_mem _ _ l1).1 (hP.edge_mem _ m1 (by simp)) l2 m2
    obtain rfl := hinj (hP.arc_mem _ _ l1).2 (hP.edge_mem _ m1 (by simp)) l3 m3
    exact hS.no_edge _ _ l1 m1

example (up : Unpack (Fin 3)) : ∃ Q : PDAG (Fin 3), Sample.partly.renameNodes _root_.Sample.order _root_.Sample.order _root_.Sample.order up _root_.Sample.order _root_.Sample.order
    (fun v => some (v + 1)) = .ok Q ∧ (1, 2) ∈ Q.arcs := by
  obtain ⟨h1, h2, -⟩ := Sample.partly_spec
  obtain ⟨Q, k1, -, -, k2, -⟩ := (C182_rename_partial Sample.partly h1 _root_.Sample.order _root_.Sample.order _root_.Sample.order up
    _root_.Sample.order _root_.Sample.order (fun v => some (v + 1)) (by
      intro v _ v' _ h
      exact add_right_cancel (Option.some.inj h))).1 fun v _ => ⟨_, rfl⟩
  exact ⟨Q, k1, (k2 1 2).2 ⟨0, 1, by rw [h2]; decide, rfl, rfl⟩⟩

/-- C182 is violated: `rename_nodes` loses the known arcs. In the graph `0 → 1` with this arc known, `remove_unprotected_orientations` keeps
the arc; after `rename_nodes`, with names unchanged, it drops the orientation. -/
theorem C182_violated (on : SetOrder Unit (Fin 2)) (oa : SetOrder Unit (Fin 2 × Fin 2)) (oe : SetOrder Unit (Finset (Fin 2)))
    (up : Unpack (Fin 2)) (o o' : OrientOracle (Fin 2)) :
    ∃ Q R S, (PDAG.new oa oa {0, 1} {(0, 1)} ∅ {(0, 1)}).renameNodes on oa oe up oa oa some = .ok Q ∧
      ((PDAG.new oa oa {0, 1} {(0, 1)} ∅ {(0, 1)}).removeUnprotectedOrientations o).run = some (.ok R) ∧ R.hasArc 0 1 = true ∧
      (Q.removeUnprotectedOrientations o').run = some (.ok S) ∧ S.hasArc 0 1 = false ∧ S.hasEdge 0 1 = true := by
  have hG : (_root_.Sample.graph (n := 2) {(0, 1)}).Valid := _root_.Sample.graph_valid (by decide)
  have hE : ∀ i j, (_root_.Sample.graph (n := 2) {(0, 1)}).E i j ↔ i = 0 ∧ j = 1 := by
    intro i j
    change (i, j) ∈ ({(0, 1)} : Finset (Fin 2 × Fin 2)) ↔ _
    simp
  have hv : ∀ i j l, ¬ VStruct (_root_.Sample.graph (n := 2) {(0, 1)}).E i j l := by
    rintro i j l ⟨h3, h1, h2, -⟩
    exact h3 (((hE _ _).1 h1).1.trans ((hE _ _).1 h2).1.symm)
  obtain ⟨k1, k2, k3, k4, k5⟩ := new_spec oa oa ({0, 1} : Finset (Fin 2)) {(0, 1)} ∅ {(0, 1)} (by simp)
  obtain ⟨ns, as, es, h1, h2, h3, h4, -⟩ := renameNodes_ok k1 on oa oe up oa oa some (fun v _ => ⟨v, rfl⟩)
    fun v _ v' _ e => Option.some.inj e
  have has : as = {(0, 1)} := by
    ext ⟨x, y⟩
    rw [h3, k2]
    constructor
    · rintro ⟨i, j, h, e1, e2⟩
      cases e1; cases e2
      exact h
    · exact fun h => ⟨x, y, h, rfl, rfl⟩
  have hes : es = ∅ := Finset.eq_empty_of_forall_notMem fun ⟨x, y⟩ h => by
    obtain ⟨-, i, j, h, -⟩ := h4 x y h
    rw [k3] at h
    simp at h
  have hns : ns = {0, 1} := by
    ext x
    rw [h2]
    constructor
    · rintro -
      clear h2
      revert x
      decide
    · exact fun h => ⟨x, (k5 x).2 (.inl h), rfl⟩
  subst has hes hns
  obtain ⟨R, r1, r2, -⟩ := orient_spec hG oa o {(0, 1)} (fun i j => i = 0 ∧ j = 1) fun i j h => by
    obtain ⟨rfl, rfl⟩ := (hE i j).1 h
    exact ⟨fun _ => .inr ⟨rfl, rfl⟩, fun _ => by simp⟩
  obtain ⟨S, s1, s2, -⟩ := orient_spec hG oa o' ∅ (fun _ _ => False) fun i j h => by
    constructor
    · intro h; simp at h
    · rintro (⟨l, h⟩ | h)
      · exact absurd h (hv _ _ _)
      · exact h.elim
  have hm : ∀ i j, ¬ Meek (_root_.Sample.graph (n := 2) {(0, 1)}).E (fun _ _ => False) i j := by
    intro i j h
    induction h with
    | base _ h => exact h
    | vstr h => exact hv _ _ _ h
    | r1 _ _ _ _ ih => exact ih
    | r2 _ _ _ ih _ => exact ih
    | r3 h _ _ _ _ => exact hv _ _ _ h
  have h01 : (_root_.Sample.graph (n := 2) {(0, 1)}).E 0 1 := (hE _ _).2 ⟨rfl, rfl⟩
  refine ⟨_, R, S, h1, r1, ?_, s1, ?_, ?_⟩
  · simp only [hasArc, decide_eq_true_eq]
    exact (r2.arcs 0 1).2 (.base h01 ⟨rfl, rfl⟩)
  · simp only [hasArc, decide_eq_false_iff_not]
    exact fun h => hm _ _ ((s2.arcs 0 1).1 h)
  · simp only [hasEdge, decide_eq_true_eq]
    exact (s2.edges 0 1).2 (.inl ⟨h01, hm _ _⟩)

/-- C183. `DAG.from_nx(g.to_nx())` is the graph; `DAG.from_nx(g).to_nx()` is `g` for an acyclic `g`; a cyclic `g` raises. -/
theorem C183_dag (o : SetOrder (Option α) α) (oa : SetOrder Bool (α × α)) :
    (∀ G : DAG α, G.Valid → DAG.fromNx o oa G.toNx = some (G, none)) ∧
    (∀ g : NxDiGraph α, (∀ a ∈ g.arcs, a.1 ∈ g.nodes ∧ a.2 ∈ g.nodes) →
      ((∀ v, ¬ Path (fun i j => (i, j) ∈ g.arcs) v v) → ∃ G, DAG.fromNx o oa g = some (G, none) ∧ G.toNx = g) ∧
      ((∃ v, Path (fun i j => (i, j) ∈ g.arcs) v v) → ∃ G e, DAG.fromNx o oa g = some (G, some e))) := by
  have key : ∀ (ns : Finset α) (as : Finset (α × α)), (∀ a ∈ as, a.1 ∈ ns ∧ a.2 ∈ ns) →
      ns ∪ as.image Prod.fst ∪ as.image Prod.snd = ns := by
    intro ns as h
    ext x
    simp only [Finset.mem_union, Finset.mem_image]
    constructor
    · rintro ((h1 | ⟨a, ha, rfl⟩) | ⟨a, ha, rfl⟩)
      · exact h1
      · exact (h a ha).1
      · exact (h a ha).2
    · exact fun h => .inl (.inl h)
  refine ⟨fun G hG => ?_, fun g hg => ⟨fun h => ?_, (C05_constructor o oa g.nodes g.arcs).2⟩⟩
  · have hk := key G.nodes G.arcs fun a ha => ⟨hG.fst_mem a.1 a.2 ha, hG.snd_mem a.1 a.2 ha⟩
    obtain ⟨G', h1, h2, h3, h4⟩ := DAG.new_ok o oa G.toNx.nodes G.toNx.arcs hG.acyclic
    have h3' : G'.arcs = G.arcs := h3
    have h4' : G'.nodes = G.nodes := by
      rw [h4]
      simp only [DAG.toNx]
      rw [hk, hk]
    have : G' = G := by
      refine DAG.ext h4' h3' ?_ ?_ ?_ <;> funext v <;> ext x
      · rw [h2.neighbors_iff, hG.neighbors_iff, h3']
      · rw [h2.parents_iff, hG.parents_iff, h3']
      · rw [h2.children_iff, hG.children_iff, h3']
    rw [this] at h1
    exact h1
  · obtain ⟨G, h1, h2, h3, h4⟩ := DAG.new_ok o oa g.nodes g.arcs h
    refine ⟨G, h1, ?_⟩
    rw [key _ _ hg] at h4
    unfold DAG.toNx
    rw [h3, h4, key _ _ hg]

/-- C183. `UndirectedGraph.from_nx` and `to_nx` are inverse to each other. -/
theorem C183_undirected (oe : SetOrder Unit (Finset α)) (ou : SetOrder Unit α) (up : Unpack α) :
    (∀ U : UG α, U.Consistent → U.Closed → UG.fromNx oe ou up U.toNx = U) ∧
    (∀ g : NxGraph α, (∀ e ∈ g.edges, e ⊆ g.nodes ∧ e.card = 2) → (UG.fromNx oe ou up g).toNx = g) := by
  have key : ∀ (ns : Finset α) (es : Finset (Finset α)), (∀ e ∈ es, e ⊆ ns) → ns ∪ es.biUnion id = ns := by
    intro ns es h
    refine Finset.union_eq_left.2 fun x hx => ?_
    obtain ⟨e, he, hx⟩ := Finset.mem_biUnion.1 hx
    exact h e he hx
  have main : ∀ g : NxGraph α, (∀ e ∈ g.edges, e ⊆ g.nodes ∧ e.card = 2) →
      (UG.fromNx oe ou up g).nodes = g.nodes ∧ (UG.fromNx oe ou up g).edges = g.edges := by
    intro g hg
    have he : (UG.fromNx oe ou up g).edges = g.edges := by
      unfold UG.fromNx
      rw [UG.new_edges]
      ext e
      rw [Finset.mem_image]
      constructor
      · rintro ⟨a, ha, rfl⟩
        obtain ⟨ha, -⟩ := Finset.mem_filter.1 ha
        obtain ⟨e, he, rfl⟩ := Finset.mem_image.1 ha
        obtain ⟨i, j, hij, rfl⟩ := Finset.card_eq_two.1 (hg e he).2
        rcases up.spec i j hij with h | h
        · rw [h]; exact he
        · rw [h]; rwa [Finset.pair_comm]
      · intro he
        obtain ⟨i, j, hij, rfl⟩ := Finset.card_eq_two.1 (hg e he).2
        refine ⟨up.fn {i, j}, Finset.mem_filter.2 ⟨Finset.mem_image_of_mem _ he, ?_⟩, ?_⟩
        · rcases up.spec i j hij with h | h
          · rw [h]; exact hij
          · rw [h]; exact hij.symm
        · rcases up.spec i j hij with h | h
          · rw [h]
          · rw [h]; exact Finset.pair_comm _ _
    refine ⟨?_, he⟩
    ext v
    unfold UG.fromNx at he ⊢
    rw [(UG.new_spec oe ou g.nodes (g.edges.image up.fn)).2.2, he]
    constructor
    · rintro (h | ⟨e, h1, h2⟩)
      · exact h
      · exact (hg e h1).1 h2
    · exact .inl
  refine ⟨fun U hU hc => ?_, fun g hg => ?_⟩
  · have hn := key _ _ hc
    obtain ⟨h1, h2⟩ := main U.toNx fun e he => ⟨fun x hx => Finset.mem_union_left _ (hc e he hx), by
      obtain ⟨i, j, hij, rfl⟩ := hU.edge_pair e he
      exact Finset.card_pair hij⟩
    refine UG.Consistent.ext (UG.new_spec oe ou _ _).1 hU (h1.trans ?_) h2
    simp only [UG.toNx]
    rw [hn]
  · obtain ⟨h1, h2⟩ := main g hg
    unfold UG.toNx
    rw [h1, h2, key _ _ fun e he => (hg e he).1]

/-- C183. `PDAG.from_nx(p.to_nx())` is `p` if `p` has no arcs, no known arcs and no isolated nodes, `PDAG.from_nx(g).to_nx()` is `g` if `g`
has no isolated nodes. With arcs, `to_nx` raises `NotImplementedError`. Missing: isolated nodes, see `C183_violated`. -/
theorem C183_pdag_partial (oa oe : SetOrder Unit (α × α)) (up : Unpack α) :
    (∀ P : PDAG α, P.Consistent → P.arcs = ∅ → P.known = ∅ → (∀ v ∈ P.nodes, ∃ e ∈ P.edges, v ∈ e) →
      ∃ g, P.toNx = .ok g ∧ PDAG.fromNx oa oe up g = P) ∧
    (∀ P : PDAG α, P.arcs ≠ ∅ → P.toNx = .error .plain) ∧
    (∀ g : NxGraph α, (∀ e ∈ g.edges, e ⊆ g.nodes ∧ e.card = 2) → (∀ v ∈ g.nodes, ∃ e ∈ g.edges, v ∈ e) →
      (PDAG.fromNx oa oe up g).toNx = .ok g) := by
  have main : ∀ g : NxGraph α, (∀ e ∈ g.edges, e ⊆ g.nodes ∧ e.card = 2) → (PDAG.fromNx oa oe up g).Consistent ∧
      (PDAG.fromNx oa oe up g).arcs = ∅ ∧ (PDAG.fromNx oa oe up g).edges = g.edges ∧ (PDAG.fromNx oa oe up g).nodes = g.nodes ∧
      (PDAG.fromNx oa oe up g).known = ∅ := by
    intro g hg
    have hup : ∀ e ∈ g.edges, (up.fn e).1 ≠ (up.fn e).2 ∧ ({(up.fn e).1, (up.fn e).2} : Finset α) = e := by
      intro e he
      obtain ⟨i, j, hij, rfl⟩ := Finset.card_eq_two.1 (hg e he).2
      rcases up.spec i j hij with h | h
      · rw [h]; exact ⟨hij, rfl⟩
      · rw [h]; exact ⟨hij.symm, Finset.pair_comm _ _⟩
    obtain ⟨h1, h2, h3, h4, h5⟩ := new_spec oa oe g.nodes ∅ (g.edges.image up.fn) ∅ (by
      intro a ha
      obtain ⟨e, he, rfl⟩ := Finset.mem_image.1 ha
      exact (hup e he).1)
    refine ⟨h1, h2, ?_, ?_, h4⟩
    · change (PDAG.new oa oe g.nodes ∅ (g.edges.image up.fn) ∅).edges = _
      rw [h3, Finset.image_image]
      refine (Finset.image_congr fun e he => ?_).trans Finset.image_id
      exact (hup e he).2
    · ext v
      refine (h5 v).trans ⟨?_, .inl⟩
      rintro (h | ⟨a, ha, -⟩ | ⟨a, ha, h⟩)
      · exact h
      · simp at ha
      · obtain ⟨e, he, rfl⟩ := Finset.mem_image.1 ha
        refine (hg e he).1 ?_
        rw [← (hup e he).2, Finset.mem_insert, Finset.mem_singleton]
        exact h
  refine ⟨fun P hP ha hk hn => ?_, fun P ha => ?_, fun g hg hn => ?_⟩
  · have hb : P.edges.biUnion id = P.nodes := by
      ext v
      rw [Finset.mem_biUnion]
      exact ⟨fun ⟨e, he, hv⟩ => hP.edge_mem e he hv, hn v⟩
    obtain ⟨h1, h2, h3, h4, h5⟩ := main ⟨P.edges.biUnion id, P.edges⟩ fun e he => ⟨fun x hx => Finset.mem_biUnion.2 ⟨e, he, hx⟩, by
      obtain ⟨i, j, hij, rfl⟩ := hP.edge_pair e he
      exact Finset.card_pair hij⟩
    exact ⟨_, toNx_ok ha, Consistent.ext' h1 hP (h4.trans hb) (h2.trans ha.symm) h3 (h5.trans hk.symm)⟩
  · unfold toNx
    rw [if_pos (Finset.nonempty_iff_ne_empty.2 ha)]
  · obtain ⟨h1, h2, h3, h4, h5⟩ := main g hg
    rw [toNx_ok h2, h3]
    have hb : g.edges.biUnion id = g.nodes := by
      ext v
      rw [Finset.mem_biUnion]
      exact ⟨fun ⟨e, he, hv⟩ => (hg e he).1 hv, hn v⟩
    rw [hb]

example : DAG.fromNx _root_.Sample.order _root_.Sample.order (_root_.Sample.graph (n := 3) {(0, 1), (0, 2)}).toNx =
    some (_root_.Sample.graph {(0, 1), (0, 2)}, none) :=
  (C183_dag _ _).1 _ (_root_.Sample.graph_valid (by decide))

example (oe : SetOrder Unit (Finset (Fin 3))) (ou : SetOrder Unit (Fin 3)) (up : Unpack (Fin 3)) :
    (UG.fromNx oe ou up ⟨{0, 1, 2}, {{0, 1}}⟩).toNx = ⟨{0, 1, 2}, {{0, 1}}⟩ :=
  (C183_undirected oe ou up).2 _ (by decide)

example (oa oe : SetOrder Unit (Fin 2 × Fin 2)) (up : Unpack (Fin 2)) :
    (PDAG.fromNx oa oe up ⟨{0, 1}, {{0, 1}}⟩).toNx = .ok ⟨{0, 1}, {{0, 1}}⟩ :=
  (C183_pdag_partial oa oe up).2.2 _ (by decide) (by decide)

/-- C183 is violated: `PDAG.to_nx` loses an isolated node. -/
theorem C183_violated (oa oe : SetOrder Unit (Fin 3 × Fin 3)) (up : Unpack (Fin 3)) :
    ∃ g, (PDAG.new oa oe {0, 1, 2} ∅ {(0, 1)} ∅).toNx = .ok g ∧ 2 ∉ g.nodes ∧ 2 ∈ (PDAG.new oa oe {0, 1, 2} ∅ {(0, 1)} ∅).nodes ∧
      2 ∉ (PDAG.fromNx oa oe up g).nodes := by
  obtain ⟨h1, h2, h3, -, h5⟩ := new_spec oa oe ({0, 1, 2} : Finset (Fin 3)) ∅ {(0, 1)} ∅ (by decide)
  have hb : (PDAG.new oa oe {0, 1, 2} ∅ {(0, 1)} ∅).edges = {{0, 1}} := by rw [h3]; rfl
  refine ⟨_, toNx_ok h2, ?_, (h5 2).2 (.inl (by decide)), ?_⟩
  · rw [hb]; decide
  · rw [hb]
    have hup : up.fn {0, 1} = (0, 1) ∨ up.fn {0, 1} = (1, 0) := up.spec 0 1 (by decide)
    have hup' : (up.fn {0, 1}).1 ≠ (up.fn {0, 1}).2 ∧ (2 ≠ (up.fn {0, 1}).1 ∧ 2 ≠ (up.fn {0, 1}).2) := by
      rcases hup with h | h <;> rw [h] <;> decide
    obtain ⟨-, -, -, -, k5⟩ := new_spec oa oe ((({{0, 1}} : Finset (Finset (Fin 3)))).biUnion id) ∅
      (({{0, 1}} : Finset (Finset (Fin 3))).image up.fn) ∅ (by
        intro a ha
        rw [Finset.image_singleton, Finset.mem_singleton] at ha
        rw [ha]
        exact hup'.1)
    intro h
    rcases (k5 2).1 h with h | ⟨a, ha, -⟩ | ⟨a, ha, h⟩
    · exact absurd h (by decide)
    · simp at ha
    · rw [Finset.image_singleton, Finset.mem_singleton] at ha
      subst ha
      rcases h with h | h
      · exact hup'.2.1 h
      · exact hup'.2.2 h

end Props
