import Verif.Proof.DAGSimple
import Mathlib.Data.Fintype.Card
import Mathlib.Algebra.Order.Field.Basic

/-! # C176–C178: degrees, `triples`, data frames -/

namespace Props

open Model Model.DAG Spec Relation
universe u
variable {α : Type u} [DecidableEq α]

/-- C176. The in-degrees sum to the number of arcs, and so do the out-degrees. `incoming_arcs(v)` and `outgoing_arcs(v)` are the arcs into
and out of `v`; their numbers are `indegree_of(v)` and `outdegree_of(v)`. `max_in_degree` and `max_out_degree` are the largest degrees, and
raise `ValueError` on a graph without nodes. -/
theorem C176_degrees (G : DAG α) (hG : G.Consistent) (o : SetOrder Unit α) :
    ∑ v ∈ G.nodes, G.indegreeOf v = G.arcs.card ∧ ∑ v ∈ G.nodes, G.outdegreeOf v = G.arcs.card ∧
    (∀ v a b, (a, b) ∈ G.incomingArcs o v ↔ (a, b) ∈ G.arcs ∧ b = v) ∧ (∀ v a b, (a, b) ∈ G.outgoingArcs o v ↔ (a, b) ∈ G.arcs ∧ a = v) ∧
    (∀ v, (G.incomingArcs o v).card = G.indegreeOf v ∧ (G.outgoingArcs o v).card = G.outdegreeOf v) ∧
    (G.nodes.Nonempty → ∃ m m', G.maxInDegree o = .ok m ∧ G.maxOutDegree o = .ok m' ∧ (∀ v ∈ G.nodes, G.indegreeOf v ≤ m) ∧
      (∃ v ∈ G.nodes, G.indegreeOf v = m) ∧ (∀ v ∈ G.nodes, G.outdegreeOf v ≤ m') ∧ ∃ v ∈ G.nodes, G.outdegreeOf v = m') ∧
    (G.nodes = ∅ → G.maxInDegree o = .error .value ∧ G.maxOutDegree o = .error .value) := by
  have hin : ∀ v, G.incomingArcs o v = G.arcs.filter fun a => a.2 = v := by
    intro v
    rw [incoming_eq hG]
    ext x
    unfold incomingArcs
    rw [foldl_insert_spec (fun p => (p, v)), Finset.mem_image]
    simp only [Finset.notMem_empty, false_or, o.mem_iff]
    exact ⟨fun ⟨p, h, e⟩ => ⟨p, h, e.symm⟩, fun ⟨p, h, e⟩ => ⟨p, h, e.symm⟩⟩
  have hout : ∀ v, G.outgoingArcs o v = G.arcs.filter fun a => a.1 = v := by
    intro v
    rw [outgoing_eq hG]
    ext x
    unfold outgoingArcs
    rw [foldl_insert_spec (fun c => (v, c)), Finset.mem_image]
    simp only [Finset.notMem_empty, false_or, o.mem_iff]
    exact ⟨fun ⟨p, h, e⟩ => ⟨p, h, e.symm⟩, fun ⟨p, h, e⟩ => ⟨p, h, e.symm⟩⟩
  refine ⟨sum_indegree hG, sum_outdegree hG, fun v a b => by rw [hin, Finset.mem_filter], fun v a b => by rw [hout, Finset.mem_filter],
    fun v => ⟨?_, ?_⟩, fun hn => ?_, fun hn => ?_⟩
  · rw [hin, incoming_eq hG, Finset.card_image_of_injective _ fun a b h => (Prod.mk.inj h).1]; rfl
  · rw [hout, outgoing_eq hG, Finset.card_image_of_injective _ fun a b h => (Prod.mk.inj h).2]; rfl
  · obtain ⟨m, h1, h2, h3⟩ := maxOf_spec G.indegreeOf (ord_ne_nil o () hn)
    obtain ⟨m', k1, k2, k3⟩ := maxOf_spec G.outdegreeOf (ord_ne_nil o () hn)
    simp only [o.mem_iff] at h2 h3 k2 k3
    exact ⟨m, m', h1, k1, h2, h3, k2, k3⟩
  · unfold maxInDegree maxOutDegree
    rw [hn, ord_empty]
    exact ⟨rfl, rfl⟩

/-- C176. `sparsity` of an acyclic graph with at least two nodes lies between 0 and 1; it is 0 iff there are no arcs and 1 iff any two nodes
are adjacent. With fewer nodes it raises `ZeroDivisionError`. -/
theorem C176_sparsity (G : DAG α) (hG : G.Valid) :
    (2 ≤ G.nodes.card → ∃ s, G.sparsity = .ok s ∧ 0 ≤ s ∧ s ≤ 1 ∧ (s = 0 ↔ G.arcs = ∅) ∧
      (s = 1 ↔ ∀ a ∈ G.nodes, ∀ b ∈ G.nodes, a ≠ b → Adj G.E a b)) ∧
    (G.nodes.card < 2 → G.sparsity = .error .plain) := by
  obtain ⟨h1, h2⟩ := twice_arcs hG
  have hcard : 2 * G.arcs.card ≤ G.nodes.card * (G.nodes.card - 1) := by
    rw [← h1, ← offDiag_card_eq]
    exact Finset.card_le_card h2
  constructor
  · intro hp
    set p := G.nodes.card with hpdef
    have p0 : (p : ℚ) ≠ 0 := by
      have : p ≠ 0 := by omega
      exact_mod_cast this
    have p1 : (p : ℚ) - 1 ≠ 0 := by
      have : p ≠ 1 := by omega
      intro h
      exact this (by exact_mod_cast sub_eq_zero.1 h)
    have hq : ((p * (p - 1) : ℕ) : ℚ) = (p : ℚ) * ((p : ℚ) - 1) := by
      rw [Nat.cast_mul, Nat.cast_sub (by omega), Nat.cast_one]
    have hpos : (0 : ℚ) < (p : ℚ) * ((p : ℚ) - 1) := by
      rw [← hq]
      have : 0 < p * (p - 1) := Nat.mul_pos (by omega) (by omega)
      exact_mod_cast this
    have hs : (G.arcs.card : ℚ) / p / (p - 1) * 2 = ((2 * G.arcs.card : ℕ) : ℚ) / ((p : ℚ) * ((p : ℚ) - 1)) := by
      rw [Nat.cast_mul, Nat.cast_ofNat, div_div, div_mul_eq_mul_div, mul_comm (2 : ℚ)]
    refine ⟨(G.arcs.card : ℚ) / p / (p - 1) * 2, ?_, ?_, ?_, ?_, ?_⟩
    · rw [sparsity]
      rw [if_neg p0, if_neg p1]
    · rw [hs]
      exact div_nonneg (Nat.cast_nonneg _) hpos.le
    · rw [hs, div_le_one hpos, ← hq]
      exact_mod_cast hcard
    · rw [hs, div_eq_zero_iff, or_iff_left hpos.ne']
      rw [Nat.cast_eq_zero]
      simp
    · rw [hs, div_eq_one_iff_eq hpos.ne', ← hq, Nat.cast_inj, ← h1, ← offDiag_card_eq]
      constructor
      · intro h a ha b hb hab
        have := Finset.eq_of_subset_of_card_le h2 h.ge
        have hm : (a, b) ∈ G.arcs ∪ G.arcs.image Prod.swap := by
          rw [this, Finset.mem_offDiag]
          exact ⟨ha, hb, hab⟩
        rcases Finset.mem_union.1 hm with h | h
        · exact .inl h
        · obtain ⟨⟨c, d⟩, hc, he⟩ := Finset.mem_image.1 h
          simp only [Prod.swap_prod_mk, Prod.mk.injEq] at he
          obtain ⟨rfl, rfl⟩ := he
          exact .inr hc
      · intro h
        refine congrArg Finset.card (Finset.Subset.antisymm h2 ?_)
        rintro ⟨a, b⟩ hab
        obtain ⟨ha, hb, hab⟩ := Finset.mem_offDiag.1 hab
        rcases h a ha b hb hab with k | k
        · exact Finset.mem_union_left _ k
        · exact Finset.mem_union_right _ (Finset.mem_image.2 ⟨(b, a), k, rfl⟩)
  · intro hp
    rw [sparsity]
    rcases (by omega : G.nodes.card = 0 ∨ G.nodes.card = 1) with h | h
    · rw [if_pos (by simp [h])]
    · rw [if_neg (by simp [h]), if_pos (by simp [h])]

/-- C176. For a nonempty set, `parents_of`, `children_of` and `neighbors_of` return the union over its nodes; the empty set raises
`TypeError`. -/
theorem C176_views_of_sets (G : DAG α) (hG : G.Consistent) (o : SetOrder Unit α) (s : Finset α) :
    (s.Nonempty → ∃ p c n, G.parentsOfSet o s = .ok p ∧ G.childrenOfSet o s = .ok c ∧ G.neighborsOfSet o s = .ok n ∧
      (∀ x, x ∈ p ↔ ∃ v ∈ s, (x, v) ∈ G.arcs) ∧ (∀ x, x ∈ c ↔ ∃ v ∈ s, (v, x) ∈ G.arcs) ∧
      ∀ x, x ∈ n ↔ ∃ v ∈ s, (x, v) ∈ G.arcs ∨ (v, x) ∈ G.arcs) ∧
    (s = ∅ → G.parentsOfSet o s = .error .type ∧ G.childrenOfSet o s = .error .type ∧ G.neighborsOfSet o s = .error .type) := by
  constructor
  · intro hs
    obtain ⟨p, p1, p2⟩ := unionOver_spec G.parents (ord_ne_nil o () hs)
    obtain ⟨c, c1, c2⟩ := unionOver_spec G.children (ord_ne_nil o () hs)
    obtain ⟨n, n1, n2⟩ := unionOver_spec G.neighbors (ord_ne_nil o () hs)
    simp only [o.mem_iff] at p2 c2 n2
    refine ⟨p, c, n, p1, c1, n1, fun x => ?_, fun x => ?_, fun x => ?_⟩
    · simp only [p2, hG.parents_iff]
    · simp only [c2, hG.children_iff]
    · simp only [n2, hG.neighbors_iff]
  · rintro rfl
    unfold parentsOfSet childrenOfSet neighborsOfSet
    rw [ord_empty]
    exact ⟨rfl, rfl, rfl⟩

/-- C177. `triples` returns the sets `{i, j, k}` of three nodes with `i` and `k` adjacent to `j`. Missing: which of them is in the middle,
and the triples themselves; see `C177_violated`. -/
theorem C177_triples_partial (G : DAG α) (hG : G.Valid) (o : SetOrder Unit α) (on : SetOrder α α) (t : Finset α) :
    t ∈ G.triples o on ↔ t.card = 3 ∧ ∃ i j k, t = {i, j, k} ∧ Adj G.E i j ∧ Adj G.E j k := by
  have irr : ∀ a b, Adj G.E a b → a ≠ b := by
    rintro a b (h | h) rfl
    · exact hG.acyclic a (.single h)
    · exact hG.acyclic a (.single h)
  rw [triples_spec hG.toConsistent]
  constructor
  · rintro ⟨i, j, k, hik, h1, h2, rfl⟩
    refine ⟨Finset.card_eq_three.2 ⟨i, j, k, irr _ _ h1, hik, irr _ _ h2, rfl⟩, i, j, k, rfl, h1, h2⟩
  · rintro ⟨hc, i, j, k, rfl, h1, h2⟩
    refine ⟨i, j, k, ?_, h1, h2, rfl⟩
    rintro rfl
    have : ({i, j, i} : Finset α) = {i, j} := by ext x; simp; tauto
    rw [this] at hc
    have := Finset.card_le_two (a := i) (b := j)
    omega

/-- C177 is violated: `0 → 1 → 2` and `1 ← 0 → 2` have different triples `(i, j, k)`, but `triples` returns the same. -/
theorem C177_violated : ∃ G H : DAG (Fin 3), G.Valid ∧ H.Valid ∧ (∀ o on, G.triples o on = H.triples o on) ∧
    Adj G.E 0 1 ∧ Adj G.E 1 2 ∧ ¬ Adj H.E 1 2 := by
  have hG : (Sample.graph {(0, 1), (1, 2)} : DAG (Fin 3)).Valid := Sample.graph_valid (by decide)
  have hH : (Sample.graph {(0, 1), (0, 2)} : DAG (Fin 3)).Valid := Sample.graph_valid (by decide)
  refine ⟨_, _, hG, hH, fun o on => ?_, ?_, ?_, ?_⟩
  · ext t
    rw [C177_triples_partial _ hG, C177_triples_partial _ hH]
    unfold Adj E
    constructor
    · rintro ⟨hc, -⟩
      rw [(Finset.card_eq_iff_eq_univ t).1 hc]
      decide
    · rintro ⟨hc, -⟩
      rw [(Finset.card_eq_iff_eq_univ t).1 hc]
      decide
  · unfold Adj E; decide
  · unfold Adj E; decide
  · unfold Adj E; decide

/-- C178. `from_dataframe` terminates. It returns a graph iff the nonzero entries, read as arcs from row to column label, have no cycle; the
graph then has the labels as nodes and exactly these arcs. Otherwise it raises. -/
theorem C178_from_dataframe (o : ℕ → SetOrder (Option α) α) (D : Frame α) :
    let R := fun a b => ∃ i j, D.index[i]? = some a ∧ D.columns[j]? = some b ∧ D.values i j ≠ 0
    (Acyclic R → ∃ G, fromDataframe o D = some (.ok G) ∧ G.Valid ∧ (∀ v, v ∈ G.nodes ↔ v ∈ D.index ∨ v ∈ D.columns) ∧
      ∀ a b, (a, b) ∈ G.arcs ↔ R a b) ∧
    (¬ Acyclic R → ∃ e, fromDataframe o D = some (.error e)) := by
  intro R
  have hR : ∀ a b, CellE (cells D) a b ↔ R a b := by
    intro a b
    unfold CellE
    simp only [mem_cells]
    constructor
    · rintro ⟨x, ⟨i, j, h1, h2, rfl⟩, hx⟩; exact ⟨i, j, h1, h2, hx⟩
    · rintro ⟨i, j, h1, h2, hx⟩; exact ⟨_, ⟨i, j, h1, h2, rfl⟩, hx⟩
  have hE : (fun a b => (empty (D.index.toFinset ∪ D.columns.toFinset)).E a b ∨ CellE (cells D) a b) = R := by
    funext a b
    rw [hR]
    simp [E, empty]
  have hv : (empty (D.index.toFinset ∪ D.columns.toFinset)).Valid := ⟨empty_consistent _, fun v h => by
    rcases TransGen.head'_iff.1 h with ⟨w, h, -⟩
    simp [E, empty] at h⟩
  obtain ⟨h1, h2⟩ := addCells_spec o (cells D) hv (by
    rintro ⟨⟨a, b⟩, x⟩ hc
    obtain ⟨i, j, h1, h2, -⟩ := (mem_cells D a b x).1 hc
    simp only [empty, Finset.mem_union, List.mem_toFinset]
    exact ⟨.inl (List.mem_of_getElem? h1), .inr (List.mem_of_getElem? h2)⟩)
  rw [hE] at h1 h2
  refine ⟨fun h => ?_, h2⟩
  obtain ⟨G, g1, g2, g3, g4⟩ := h1 h
  refine ⟨G, g1, g2, fun v => ?_, fun a b => ?_⟩
  · rw [g3]; simp [empty]
  · rw [g4, hR]; simp [empty]

/-- C178. For every list of the nodes, `from_dataframe(to_dataframe(node_list))` is the graph, with all its views. -/
theorem C178_round_trip [LinearOrder α] (G : DAG α) (hG : G.Valid) (oa : SetOrder Unit (α × α)) (o : ℕ → SetOrder (Option α) α)
    (nl : Option (List α)) (hn : ∀ l, nl = some l → l.Nodup ∧ ∀ v, v ∈ l ↔ v ∈ G.nodes) :
    ∃ D, G.toDataframe oa nl = .ok D ∧ fromDataframe o D = some (.ok G) := by
  have hl : (orSorted G.nodes nl).Nodup ∧ ∀ v, v ∈ orSorted G.nodes nl ↔ v ∈ G.nodes := by
    rcases nl with _ | _ | ⟨x, l⟩
    · exact ⟨Finset.sort_nodup _ _, fun v => Finset.mem_sort _⟩
    · exact ⟨Finset.sort_nodup _ _, fun v => Finset.mem_sort _⟩
    · exact hn _ rfl
  obtain ⟨A, h1, h2, h3, h4⟩ := toAmat_spec (fun i j h => ⟨hG.fst_mem i j h, hG.snd_mem i j h⟩) oa nl _ rfl hl.1 hl.2
  have h1' : setOnes (orSorted G.nodes nl) (oa.ord () G.arcs) (.zeros G.nodes.card) = .ok A := by
    have h1 : (setOnes (orSorted G.nodes nl) (oa.ord () G.arcs) (.zeros G.nodes.card)).map (fun A => (A, orSorted G.nodes nl)) =
      .ok (A, orSorted G.nodes nl) := h1
    cases hs : setOnes (orSorted G.nodes nl) (oa.ord () G.arcs) (.zeros G.nodes.card) with
    | error e => rw [hs] at h1; cases h1
    | ok B =>
      rw [hs] at h1
      cases h1
      rfl
  refine ⟨⟨orSorted G.nodes nl, orSorted G.nodes nl, A.entry⟩, ?_, ?_⟩
  · rw [toDataframe]
    rw [h1']
    simp only [Except.bind]
    rw [if_pos (by rw [h2, ← h3])]
  · have hR : (fun a b => ∃ i j, (orSorted G.nodes nl)[i]? = some a ∧ (orSorted G.nodes nl)[j]? = some b ∧ A.entry i j ≠ 0) = G.E := by
      funext a b
      apply propext
      constructor
      · rintro ⟨i, j, k1, k2, k3⟩
        rw [h4 i j a b k1 k2] at k3
        by_contra hc
        exact k3 (if_neg hc)
      · intro h
        obtain ⟨i, hi⟩ := List.getElem?_of_mem ((hl.2 a).2 (hG.fst_mem a b h))
        obtain ⟨j, hj⟩ := List.getElem?_of_mem ((hl.2 b).2 (hG.snd_mem a b h))
        refine ⟨i, j, hi, hj, ?_⟩
        rw [h4 i j a b hi hj, if_pos (show (a, b) ∈ G.arcs from h)]
        simp
    obtain ⟨k1, -⟩ := C178_from_dataframe o ⟨orSorted G.nodes nl, orSorted G.nodes nl, A.entry⟩
    simp only [hR] at k1
    obtain ⟨G', g1, g2, g3, g4⟩ := k1 hG.acyclic
    rw [g1]
    have e1 : G'.nodes = G.nodes := by ext v; rw [g3]; simp only [or_self]; exact hl.2 v
    have e2 : G'.arcs = G.arcs := by ext ⟨a, b⟩; exact (g4 a b).trans (iff_of_eq (congrFun (congrFun hR a) b))
    have e3 : G' = G := by
      refine DAG.ext e1 e2 ?_ ?_ ?_
      · funext v; ext w; rw [g2.neighbors_iff, hG.neighbors_iff, e2]
      · funext v; ext w; rw [g2.parents_iff, hG.parents_iff, e2]
      · funext v; ext w; rw [g2.children_iff, hG.children_iff, e2]
    rw [e3]

/-- The diamond meets the hypotheses: 2 nodes and more, a nonempty arc set, and its own labels as node list. -/
example : ∃ s D, Sample.diamond.sparsity = .ok s ∧ 0 < s ∧ s < 1 ∧ Sample.diamond.toDataframe Sample.order none = .ok D ∧
    fromDataframe (fun _ => Sample.order) D = some (.ok Sample.diamond) := by
  obtain ⟨s, h1, h2, h3, h4, h5⟩ := (C176_sparsity Sample.diamond Sample.diamond_valid).1 (by decide)
  obtain ⟨D, d1, d2⟩ := C178_round_trip Sample.diamond Sample.diamond_valid Sample.order (fun _ => Sample.order) none (by simp)
  refine ⟨s, D, h1, lt_of_le_of_ne h2 fun h => ?_, lt_of_le_of_ne h3 fun h => ?_, d1, d2⟩
  · have := h4.1 h.symm
    revert this
    decide
  · have := h5.1 h
    revert this
    unfold Adj E
    decide

end Props
