import Verif.Props.UG
import Verif.Proof.UGConvert

/-! # C171–C173: conversions and bulk mutators of `UndirectedGraph` -/

namespace Props

open Model Model.UG
universe u
variable {α : Type u} [DecidableEq α]

/-- C171. If the ends of all edges are nodes and `node_list` has every node once, `to_amat(node_list)` has entry 1 at `[a, b]` iff
`node_list[a]` and `node_list[b]` are joined by an edge, and 0 otherwise; a list that lacks an end of an edge, and is not longer than
the number of nodes, raises `KeyError`. Missing: graphs with edges outside the nodes, see `C171_violated`. -/
theorem C171_to_amat_partial [LinearOrder α] (U : UG α) (hU : U.Consistent) (oe : SetOrder Unit (Finset α)) (ou : SetOrder Unit α) (x : α)
    (l : List α) (hn : (x :: l).Nodup) :
    (U.Closed → (∀ v, v ∈ x :: l ↔ v ∈ U.nodes) → ∃ A, U.toAmat oe ou (some (x :: l)) = .ok A ∧ A.n = U.nodes.card ∧
      ∀ a b i j, (x :: l)[a]? = some i → (x :: l)[b]? = some j → A.entry a b = if U.hasEdge i j then 1 else 0) ∧
    ((x :: l).length ≤ U.nodes.card → (∃ i j, U.hasEdge i j = true ∧ i ∉ x :: l) →
      U.toAmat oe ou (some (x :: l)) = .error .key) := by
  constructor
  · intro hc hs
    have hlen : (x :: l).length = U.nodes.card := by
      rw [← List.toFinset_card_of_nodup hn]
      congr 1
      ext v
      rw [List.mem_toFinset, hs]
    obtain ⟨A, h1, h2, h3⟩ := setEdges_spec ou hn (oe.ord () U.edges) (.zeros U.nodes.card) hlen.le fun e he => by
      have he := (oe.mem_iff () _ e).1 he
      obtain ⟨i, j, hij, rfl⟩ := hU.edge_pair e he
      exact ⟨i, j, hij, rfl, (hs i).2 (hc _ he (by simp)), (hs j).2 (hc _ he (by simp))⟩
    refine ⟨A, h1, h2, fun a b i j hi hj => ?_⟩
    rw [h3 a b i j hi hj, hasEdge]
    simp only [oe.mem_iff, decide_eq_true_eq, Amat.zeros]
  · rintro hlen ⟨i, j, hij, hi⟩
    refine setEdges_error ou hn _ (.zeros U.nodes.card) hlen (fun e he => ?_) ⟨{i, j}, (oe.mem_iff () _ _).2 ?_, i, by simp, hi⟩
    · exact hU.edge_pair e ((oe.mem_iff () _ e).1 he)
    · simpa [hasEdge] using hij

/-- C171. `from_amat` gives a graph on `0..n-1` with an edge iff one of the two entries is not zero; the diagonal is ignored. -/
theorem C171_from_amat (oe : SetOrder Unit (Finset ℕ)) (ou : SetOrder Unit ℕ) (A : Amat) :
    (fromAmat oe ou A).nodes = Finset.range A.n ∧
      ∀ i j, (fromAmat oe ou A).hasEdge i j = true ↔ i ≠ j ∧ i < A.n ∧ j < A.n ∧ (A.entry i j ≠ 0 ∨ A.entry j i ≠ 0) := by
  have key : ∀ i j, (fromAmat oe ou A).hasEdge i j = true ↔ i ≠ j ∧ i < A.n ∧ j < A.n ∧ (A.entry i j ≠ 0 ∨ A.entry j i ≠ 0) := by
    intro i j
    rw [fromAmat, new_hasEdge]
    simp only [Finset.mem_filter, Finset.mem_product, Finset.mem_range]
    tauto
  refine ⟨?_, key⟩
  ext v
  have h := new_spec oe ou (Finset.range A.n) ((Finset.range A.n ×ˢ Finset.range A.n).filter fun p => A.entry p.1 p.2 ≠ 0)
  change v ∈ (new oe ou _ _).nodes ↔ _
  rw [h.2.2]
  refine ⟨?_, .inl⟩
  rintro (hv | ⟨e, he, hv⟩)
  · exact hv
  · obtain ⟨i, j, -, rfl⟩ := h.1.edge_pair e he
    obtain ⟨-, hi, hj, -⟩ := (key i j).1 (by rw [hasEdge, decide_eq_true_eq]; exact he)
    simp only [Finset.mem_insert, Finset.mem_singleton] at hv
    rw [Finset.mem_range]
    rcases hv with rfl | rfl <;> assumption

/-- C171. For a graph on `0..n-1`, `from_amat(to_amat())` is the graph, with all its views. -/
theorem C171_round_trip (U : UG ℕ) (hU : U.Consistent) (hc : U.Closed) (n : ℕ) (hn : U.nodes = Finset.range n)
    (oe oe' : SetOrder Unit (Finset ℕ)) (ou ou' : SetOrder Unit ℕ) :
    ∃ A, U.toAmat oe ou none = .ok A ∧ fromAmat oe' ou' A = U := by
  have hs : DAG.orSorted U.nodes none = List.range n := by unfold DAG.orSorted; rw [hn, sort_range]
  have hcard : U.nodes.card = n := by rw [hn, Finset.card_range]
  obtain ⟨A, h1, h2, h3⟩ := setEdges_spec ou (List.nodup_range (n := n)) (oe.ord () U.edges) (.zeros U.nodes.card)
    (by rw [List.length_range]; exact hcard.ge) fun e he => by
      have he := (oe.mem_iff () _ e).1 he
      obtain ⟨i, j, hij, rfl⟩ := hU.edge_pair e he
      have hi := hc _ he (show i ∈ _ by simp)
      have hj := hc _ he (show j ∈ _ by simp)
      rw [hn, Finset.mem_range] at hi hj
      exact ⟨i, j, hij, rfl, List.mem_range.2 hi, List.mem_range.2 hj⟩
  have hAn : A.n = n := h2.trans hcard
  refine ⟨A, by rw [toAmat, hs]; exact h1, ?_⟩
  obtain ⟨k1, k2⟩ := C171_from_amat oe' ou' A
  have hcons : (fromAmat oe' ou' A).Consistent := (new_spec _ _ _ _).1
  have hent : ∀ i j, i < n → j < n → (A.entry i j ≠ 0 ↔ ({i, j} : Finset ℕ) ∈ U.edges) := by
    intro i j hi hj
    rw [h3 i j i j (by simp [hi]) (by simp [hj])]
    simp only [oe.mem_iff, Amat.zeros]
    by_cases h : ({i, j} : Finset ℕ) ∈ U.edges <;> simp [h]
  refine hcons.ext hU (by rw [k1, hAn, hn]) ?_
  ext e
  constructor
  · intro he
    obtain ⟨i, j, -, rfl⟩ := hcons.edge_pair e he
    obtain ⟨-, hi, hj, h⟩ := (k2 i j).1 (by rw [hasEdge, decide_eq_true_eq]; exact he)
    rw [hAn] at hi hj
    rcases h with h | h
    · exact (hent i j hi hj).1 h
    · rw [Finset.pair_comm]; exact (hent j i hj hi).1 h
  · intro he
    obtain ⟨i, j, hij, rfl⟩ := hU.edge_pair e he
    have hi := hc _ he (show i ∈ _ by simp)
    have hj := hc _ he (show j ∈ _ by simp)
    rw [hn, Finset.mem_range] at hi hj
    have := (k2 i j).2 ⟨hij, hAn ▸ hi, hAn ▸ hj, .inl ((hent i j hi hj).2 he)⟩
    rwa [hasEdge, decide_eq_true_eq] at this

/-- The graph of `UndirectedGraph({0}).add_edge(0, 1)`: the node 1 is missing. -/
noncomputable def outside : UG ℕ := (UG.Op.exec _root_.Sample.order (UG.new _root_.Sample.order _root_.Sample.order {0} ∅) (.addEdge 0 1)).1

theorem outside_spec : UG.Reachable Distinct outside ∧ outside.Consistent ∧ outside.nodes = {0} ∧ outside.hasEdge 1 0 = true := by
  have h0 := UG.new_spec _root_.Sample.order _root_.Sample.order ({0} : Finset ℕ) ∅
  obtain ⟨h1, h2, h3⟩ := addEdge_spec h0.1 (show (0 : ℕ) ≠ 1 by decide)
  refine ⟨.call _ _root_.Sample.order (.addEdge 0 1) (.new _ _ _ _) (show (0 : ℕ) ≠ 1 by decide), h1, ?_, ?_⟩
  · refine h2.trans ?_
    ext v
    rw [h0.2.2, new_edges]
    simp
  · rw [hasEdge, decide_eq_true_eq]
    change _ ∈ (addEdge _ 0 1).edges
    rw [h3, Finset.pair_comm]
    exact Finset.mem_insert_self _ _

/-- C171 is violated: after `add_edge(0, 1)` on a graph with the only node 0, `to_amat()` raises `KeyError`. -/
theorem C171_violated : ∃ U : UG ℕ, UG.Reachable Distinct U ∧ ∀ oe ou, U.toAmat oe ou none = .error .key := by
  obtain ⟨h1, h2, h3, h4⟩ := outside_spec
  refine ⟨_, h1, fun oe ou => ?_⟩
  have hs : DAG.orSorted outside.nodes none = [0] := by
    rw [h3]
    exact sort_range 1
  rw [toAmat, hs]
  refine setEdges_error ou (by simp) _ _ (by simp [h3, Amat.zeros]) (fun e he => h2.edge_pair e ((oe.mem_iff () _ e).1 he))
    ⟨{1, 0}, (oe.mem_iff () _ _).2 (by simpa [hasEdge] using h4), 1, by simp, by simp⟩

/-- C172. `copy` gives the same graph, with all its views, if the ends of all edges are nodes. Missing: other graphs, see
`C172_violated`. -/
theorem C172_copy_partial (U : UG α) (hU : U.Consistent) (hc : U.Closed) (oe : SetOrder Unit (Finset α)) (ou : SetOrder Unit α) :
    U.copy oe ou = .ok U := by
  obtain ⟨V, h1, h2, h3, h4⟩ := copy_ok hU oe ou
  rw [h1, h2.ext hU ?_ h3]
  ext v
  rw [h4]
  exact ⟨fun h => h.elim id fun ⟨e, he, hv⟩ => hc e he hv, .inl⟩

/-- C172. `rename_nodes` of a graph whose edges join nodes: the new nodes are the new names, and two new names are joined iff they are
different and nodes with these names are. A node without a new name raises `KeyError`. -/
theorem C172_rename {β : Type u} [DecidableEq β] (U : UG α) (hU : U.Consistent) (hc : U.Closed) (on : SetOrder Unit α)
    (oe : SetOrder Unit (Finset α)) (ou : SetOrder Unit α) (oe' : SetOrder Unit (Finset β)) (ou' : SetOrder Unit β) (f : α → Option β) :
    ((∀ v ∈ U.nodes, ∃ w, f v = some w) → ∃ V, U.renameNodes on oe ou oe' ou' f = .ok V ∧ V.Consistent ∧ V.Closed ∧
      (∀ w, w ∈ V.nodes ↔ ∃ v ∈ U.nodes, f v = some w) ∧
      ∀ a b, V.hasEdge a b = true ↔ a ≠ b ∧ ∃ i j, U.hasEdge i j = true ∧ f i = some a ∧ f j = some b) ∧
    ((∃ v ∈ U.nodes, f v = none) → U.renameNodes on oe ou oe' ou' f = .error .key) := by
  refine ⟨fun hf => ?_, fun ⟨v, hv, hf⟩ => renameNodes_error on oe ou oe' ou' f hv hf⟩
  obtain ⟨V, h1, h2, h3, h4⟩ := renameNodes_ok hU hc on oe ou oe' ou' f hf
  refine ⟨V, h1, h2, fun e he x hx => ?_, h3, fun a b => ?_⟩
  · obtain ⟨a, b, -, rfl⟩ := h2.edge_pair e he
    obtain ⟨-, i, j, k1, k2, k3⟩ := (h4 a b).1 he
    simp only [Finset.mem_insert, Finset.mem_singleton] at hx
    rcases hx with rfl | rfl
    · exact (h3 _).2 ⟨i, hc _ k1 (by simp), k2⟩
    · exact (h3 _).2 ⟨j, hc _ k1 (by simp), k3⟩
  · simp only [hasEdge, decide_eq_true_eq]
    exact h4 a b

/-- C172. Renaming by a map that is injective on the nodes, and back, gives the graph with all its views. -/
theorem C172_rename_back {β : Type u} [DecidableEq β] (U : UG α) (hU : U.Consistent) (hc : U.Closed) (on : SetOrder Unit α)
    (oe : SetOrder Unit (Finset α)) (ou : SetOrder Unit α) (on' : SetOrder Unit β) (oe' : SetOrder Unit (Finset β)) (ou' : SetOrder Unit β)
    (f : α → Option β) (g : β → Option α) (hfg : ∀ v ∈ U.nodes, ∃ w, f v = some w ∧ g w = some v) :
    ∃ V, U.renameNodes on oe ou oe' ou' f = .ok V ∧ V.renameNodes on' oe' ou' oe ou g = .ok U := by
  obtain ⟨V, h1, h2, h3, h4, h5⟩ := (C172_rename U hU hc on oe ou oe' ou' f).1 fun v hv => (hfg v hv).imp fun _ h => h.1
  have hg : ∀ w ∈ V.nodes, ∃ v ∈ U.nodes, f v = some w ∧ g w = some v := by
    intro w hw
    obtain ⟨v, hv, hf⟩ := (h4 w).1 hw
    obtain ⟨w', k1, k2⟩ := hfg v hv
    rw [k1] at hf
    cases hf
    exact ⟨v, hv, k1, k2⟩
  obtain ⟨W, w1, w2, w3, w4, w5⟩ := (C172_rename V h2 h3 on' oe' ou' oe ou g).1 fun w hw => by
    obtain ⟨v, -, -, h⟩ := hg w hw
    exact ⟨v, h⟩
  refine ⟨V, h1, ?_⟩
  have hn : W.nodes = U.nodes := by
    ext v
    rw [w4]
    constructor
    · rintro ⟨w, hw, h⟩
      obtain ⟨v', hv', -, k⟩ := hg w hw
      rw [k] at h
      cases h
      exact hv'
    · intro hv
      obtain ⟨w, k1, k2⟩ := hfg v hv
      exact ⟨w, (h4 w).2 ⟨v, hv, k1⟩, k2⟩
  have hE : ∀ i j, W.hasEdge i j = true ↔ U.hasEdge i j = true := by
    intro i j
    rw [w5]
    constructor
    · rintro ⟨-, a, b, hab, ha, hb⟩
      obtain ⟨-, i', j', k1, k2, k3⟩ := (h5 a b).1 hab
      have e1 := k1
      rw [hasEdge, decide_eq_true_eq] at e1
      obtain ⟨a', p1, p2⟩ := hfg i' (hc _ e1 (by simp))
      obtain ⟨b', q1, q2⟩ := hfg j' (hc _ e1 (by simp))
      rw [k2] at p1; cases p1
      rw [k3] at q1; cases q1
      rw [ha] at p2; cases p2
      rw [hb] at q2; cases q2
      exact k1
    · intro h
      have e1 := h
      rw [hasEdge, decide_eq_true_eq] at e1
      have hij : i ≠ j := by
        rintro rfl
        exact hU.irrefl i ((hU.neighbors_iff i i).2 e1)
      obtain ⟨a, p1, p2⟩ := hfg i (hc _ e1 (by simp))
      obtain ⟨b, q1, q2⟩ := hfg j (hc _ e1 (by simp))
      refine ⟨hij, a, b, (h5 a b).2 ⟨?_, i, j, h, p1, q1⟩, p2, q2⟩
      rintro rfl
      rw [p2] at q2
      exact hij (by simpa using q2)
  rw [w1, w2.ext hU hn]
  ext e
  simp only [hasEdge, decide_eq_true_eq] at hE
  constructor
  · intro he
    obtain ⟨i, j, -, rfl⟩ := w2.edge_pair e he
    exact (hE i j).1 he
  · intro he
    obtain ⟨i, j, -, rfl⟩ := hU.edge_pair e he
    exact (hE i j).2 he

/-- C172 is violated: `UndirectedGraph({0})` after `add_edge(0, 1)` differs from its copy. -/
theorem C172_violated : ∃ U : UG ℕ, UG.Reachable Distinct U ∧ ∀ oe ou, ∃ V, U.copy oe ou = .ok V ∧ U.eq V = false := by
  obtain ⟨h1, h2, h3, h4⟩ := outside_spec
  refine ⟨_, h1, fun oe ou => ?_⟩
  obtain ⟨V, k1, -, -, k4⟩ := copy_ok h2 oe ou
  refine ⟨V, k1, ?_⟩
  rw [UG.eq, decide_eq_false_iff_not]
  rintro ⟨hn, -⟩
  have : 1 ∈ V.nodes := (k4 1).2 (.inr ⟨{1, 0}, by simpa [hasEdge] using h4, by simp⟩)
  rw [← hn, h3] at this
  simp at this

/-- C173. `add_edges_from` with distinct ends adds exactly these edges; no nodes. `delete_edges_from` removes exactly the edges of its
list if all are there and none is listed twice. Otherwise it raises `KeyError` at the first edge that is not there (any more); the edges
listed before it are gone, the others stay. -/
theorem C173_bulk (U : UG α) (hU : U.Consistent) (l : List (α × α)) :
    ((∀ e ∈ l, e.1 ≠ e.2) → (U.addEdgesFrom l).Consistent ∧ (U.addEdgesFrom l).nodes = U.nodes ∧
      ∀ a b, (U.addEdgesFrom l).hasEdge a b = true ↔ U.hasEdge a b = true ∨ (a, b) ∈ l ∨ (b, a) ∈ l) ∧
    ((∀ e ∈ l, U.hasEdge e.1 e.2 = true) → l.Pairwise (fun e f => e ≠ f ∧ e ≠ (f.2, f.1)) →
      ∃ V, U.deleteEdgesFrom l = (V, none) ∧ V.Consistent ∧ V.nodes = U.nodes ∧
        ∀ a b, V.hasEdge a b = true ↔ U.hasEdge a b = true ∧ (a, b) ∉ l ∧ (b, a) ∉ l) ∧
    ∀ l1 p l2, l = l1 ++ p :: l2 → (∀ e ∈ l1, U.hasEdge e.1 e.2 = true) → l1.Pairwise (fun e f => e ≠ f ∧ e ≠ (f.2, f.1)) →
      (U.hasEdge p.1 p.2 = false ∨ p ∈ l1 ∨ (p.2, p.1) ∈ l1) →
      ∃ V, U.deleteEdgesFrom l = (V, some .key) ∧ V.Consistent ∧ V.nodes = U.nodes ∧
        ∀ a b, V.hasEdge a b = true ↔ U.hasEdge a b = true ∧ (a, b) ∉ l1 ∧ (b, a) ∉ l1 := by
  have hpair : ∀ (d : List (α × α)) (a b : α), (∀ p ∈ d, ({a, b} : Finset α) ≠ {p.1, p.2}) ↔ (a, b) ∉ d ∧ (b, a) ∉ d := by
    intro d a b
    constructor
    · exact fun h => ⟨fun k => h _ k rfl, fun k => h _ k (Finset.pair_comm _ _)⟩
    · rintro ⟨h, h'⟩ p hp he
      rcases pair_eq.1 he with ⟨rfl, rfl⟩ | ⟨rfl, rfl⟩
      · exact h hp
      · exact h' hp
  -- how far the loop gets
  have key : ∀ l1 l2, l = l1 ++ l2 → (∀ e ∈ l1, U.hasEdge e.1 e.2 = true) → l1.Pairwise (fun e f => e ≠ f ∧ e ≠ (f.2, f.1)) →
      (l2 = [] ∨ ∃ p r, l2 = p :: r ∧ (U.hasEdge p.1 p.2 = false ∨ p ∈ l1 ∨ (p.2, p.1) ∈ l1)) →
      ∃ V, U.deleteEdgesFrom l = (V, if l2 = [] then none else some .key) ∧ V.Consistent ∧ V.nodes = U.nodes ∧
        ∀ a b, V.hasEdge a b = true ↔ U.hasEdge a b = true ∧ (a, b) ∉ l1 ∧ (b, a) ∉ l1 := by
    intro l1 l2 hl he hp hs
    obtain ⟨V, done, rest, h1, h2, h3, h4, h5, h6, h7⟩ := deleteEdgesFrom_spec l hU
    have heq : done = l1 ∧ rest = l2 := by
      rw [hl] at h1
      rcases List.append_eq_append_iff.1 h1 with ⟨m, k1, k2⟩ | ⟨m, k1, k2⟩
      · -- `done = l1 ++ m`
        rcases m with _ | ⟨p, m⟩
        · simp only [List.append_nil] at k1
          exact ⟨k1, k2.symm⟩
        · exfalso
          rcases hs with h | ⟨q, r, hq, hs⟩
          · rw [h] at k2; simp at k2
          · rw [hq, List.cons_append, List.cons.injEq] at k2
            obtain ⟨rfl, -⟩ := k2
            have hin : q ∈ done := by rw [k1]; simp
            have k := h5 q hin
            rw [k1, List.map_append, List.map_cons, List.nodup_append] at h6
            rcases hs with hs | hs | hs
            · simp [hasEdge, k] at hs
            · exact h6.2.2 _ (List.mem_map.2 ⟨_, hs, rfl⟩) _ List.mem_cons_self rfl
            · exact h6.2.2 _ (List.mem_map.2 ⟨_, hs, rfl⟩) _ List.mem_cons_self (Finset.pair_comm _ _)
      · -- `l1 = done ++ m`
        rcases m with _ | ⟨p, m⟩
        · simp only [List.append_nil] at k1
          exact ⟨k1.symm, by simpa using k2⟩
        · exfalso
          rcases h7 with ⟨h, -⟩ | ⟨q, r, hq, hs', -⟩
          · rw [h] at k2; simp at k2
          · rw [hq, List.cons_append, List.cons.injEq] at k2
            obtain ⟨rfl, -⟩ := k2
            rw [h4] at hs'
            have hin : q ∈ l1 := by rw [k1]; simp
            have k := he q hin
            rw [hasEdge, decide_eq_true_eq] at k
            rw [k1, List.pairwise_append] at hp
            refine hs' ⟨k, (hpair _ _ _).2 ⟨fun hd => ?_, fun hd => ?_⟩⟩
            · exact (hp.2.2 _ hd _ List.mem_cons_self).1 rfl
            · exact (hp.2.2 _ hd _ List.mem_cons_self).2 rfl
    obtain ⟨rfl, rfl⟩ := heq
    refine ⟨V, ?_, h2, h3, fun a b => ?_⟩
    · rcases h7 with ⟨h, h'⟩ | ⟨q, r, h, -, h'⟩
      · rw [h', if_pos h]
      · rw [h', if_neg (by rw [h]; simp)]
    · rw [hasEdge, hasEdge, decide_eq_true_eq, decide_eq_true_eq, h4, hpair]
  refine ⟨fun h => ?_, fun he hp => ?_, fun l1 p l2 hl he hp hs => ?_⟩
  · obtain ⟨h1, h2, h3⟩ := addEdgesFrom_spec l hU h
    refine ⟨h1, h2, fun a b => ?_⟩
    rw [hasEdge, hasEdge, decide_eq_true_eq, decide_eq_true_eq, h3]
    have := hpair l a b
    refine or_congr Iff.rfl ?_
    rw [← not_iff_not]
    push Not
    exact this
  · obtain ⟨V, h⟩ := key l [] (by simp) he hp (.inl rfl)
    rw [if_pos rfl] at h
    exact ⟨V, h⟩
  · obtain ⟨V, h⟩ := key l1 (p :: l2) hl he hp (.inr ⟨p, l2, rfl, hs⟩)
    rw [if_neg (by simp)] at h
    exact ⟨V, h⟩

/-- The path `0 - 1 - 2` meets the hypotheses: it survives the round trip through its matrix and `copy`; deleting `1 - 0` twice raises
after the first deletion. -/
example : ∃ U : UG ℕ, U.Consistent ∧ U.Closed ∧ U.hasEdge 1 2 = true ∧ (∃ A, U.toAmat _root_.Sample.order _root_.Sample.order none = .ok A ∧
    fromAmat _root_.Sample.order _root_.Sample.order A = U) ∧ U.copy _root_.Sample.order _root_.Sample.order = .ok U ∧
    ∃ V, U.deleteEdgesFrom [(1, 0), (0, 1)] = (V, some .key) ∧ V.hasEdge 0 1 = false ∧ V.hasEdge 1 2 = true := by
  have h0 := (C70_undirected_effects (α := ℕ)).1 _root_.Sample.order _root_.Sample.order ∅ {(0, 1), (1, 2)}
  have hc := UG.new_spec _root_.Sample.order _root_.Sample.order (∅ : Finset ℕ) {(0, 1), (1, 2)}
  have e1 : (UG.new _root_.Sample.order _root_.Sample.order (∅ : Finset ℕ) {(0, 1), (1, 2)}).hasEdge 1 0 = true := (h0.1 1 0).2 (by decide)
  have e2 : (UG.new _root_.Sample.order _root_.Sample.order (∅ : Finset ℕ) {(0, 1), (1, 2)}).hasEdge 1 2 = true := (h0.1 1 2).2 (by decide)
  have hn : (UG.new _root_.Sample.order _root_.Sample.order (∅ : Finset ℕ) {(0, 1), (1, 2)}).nodes = Finset.range 3 := by
    ext v
    rw [h0.2 v, Finset.mem_range]
    constructor
    · rintro (h | ⟨w, -, h | h⟩)
      · simp at h
      · simp at h; omega
      · simp at h; omega
    · intro hv
      rcases (by omega : v = 0 ∨ v = 1 ∨ v = 2) with rfl | rfl | rfl
      · exact .inr ⟨1, by decide, by decide⟩
      · exact .inr ⟨2, by decide, by decide⟩
      · exact .inr ⟨1, by decide, by decide⟩
  obtain ⟨V, v1, -, -, v2⟩ := (C173_bulk _ hc.1 [(1, 0), (0, 1)]).2.2 [(1, 0)] (0, 1) [] rfl (by simpa using e1) (by simp) (by simp)
  refine ⟨_, hc.1, hc.2.1, e2, C171_round_trip _ hc.1 hc.2.1 3 hn _ _ _ _, C172_copy_partial _ hc.1 hc.2.1 _ _, V, v1, ?_, ?_⟩
  · rw [Bool.eq_false_iff]
    intro h
    have := (v2 0 1).1 h
    simp at this
  · exact (v2 1 2).2 ⟨e2, by decide, by decide⟩

/-- Renaming the edge `0 - 1` to `5 - 3` and back. -/
example : ∃ U : UG ℕ, U.hasEdge 0 1 = true ∧ ∃ V, U.renameNodes _root_.Sample.order _root_.Sample.order _root_.Sample.order _root_.Sample.order
    _root_.Sample.order (fun v => if v = 0 then some 5 else if v = 1 then some 3 else none) = .ok V ∧ V.hasEdge 5 3 = true := by
  have h0 := (C70_undirected_effects (α := ℕ)).1 _root_.Sample.order _root_.Sample.order ∅ {(0, 1)}
  have hc := UG.new_spec _root_.Sample.order _root_.Sample.order (∅ : Finset ℕ) {(0, 1)}
  obtain ⟨V, h1, -, -, -, h2⟩ := (C172_rename _ hc.1 hc.2.1 _root_.Sample.order _root_.Sample.order _root_.Sample.order _root_.Sample.order
    _root_.Sample.order (fun v => if v = 0 then some 5 else if v = 1 then some 3 else none)).1 (by
      intro v hv
      rcases (h0.2 v).1 hv with h | ⟨w, -, h | h⟩
      · simp at h
      · simp at h; exact ⟨5, by simp [h.1]⟩
      · simp at h; exact ⟨3, by simp [h.2]⟩)
  exact ⟨_, (h0.1 0 1).2 (by decide), V, h1, (h2 5 3).2 ⟨by decide, 0, 1, (h0.1 0 1).2 (by decide), rfl, rfl⟩⟩

end Props
