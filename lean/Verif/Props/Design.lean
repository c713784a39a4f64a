import Verif.Props.CPDAG
import Verif.Proof.Cover

/-! # C88 - C93: intervention design -/

namespace Props

open Model Model.DAG Spec
universe u
variable {α : Type u} [DecidableEq α]

theorem essential_of_knows {G : DAG α} (hG : G.Valid) {T : Set (Set α)} {c : PDAG α} (h : Knows G T c) :
    EssentialGraph G.nodes G.E T c.nodes c.arcs c.edges := by
  refine ⟨h.shows.nodes, fun i j => by rw [h.shows.arcs, forced_iff hG.acyclic (E_mem hG)], fun e => ?_⟩
  constructor
  · intro he
    obtain ⟨i, j, hij, rfl⟩ := h.shows.cons.edge_pair e he
    rcases (h.shows.edges i j).1 he with h1 | h1
    · exact ⟨i, j, rfl, h1.1, fun h2 => h1.2 ((forced_iff hG.acyclic (E_mem hG) _).1 h2)⟩
    · exact ⟨j, i, Finset.pair_comm _ _, h1.1, fun h2 => h1.2 ((forced_iff hG.acyclic (E_mem hG) _).1 h2)⟩
  · rintro ⟨i, j, rfl, h1, h2⟩
    exact (h.shows.edges i j).2 (Or.inl ⟨h1, fun h3 => h2 ((forced_iff hG.acyclic (E_mem hG) _).2 h3)⟩)

/-- C88. Starting from an essential graph `c` of `d`, the arcs that `d.interventional_cpdag(iv + iv', c)` directs are those
directed by `d.interventional_cpdag(iv, c)` together with those directed by `d.interventional_cpdag(iv', c)`. -/
theorem C88_union (G : DAG α) (hG : G.Valid) {iv0 : List (Finset α)} {c : PDAG α} (hc : CpdagArg G iv0 (some c))
    (oa : SetOrder Unit (α × α)) (o o' o'' : PDAG.OrientOracle α) (iv iv' : List (Finset α)) :
    ∃ P P' Q, (G.interventionalCpdag oa o iv c).run = some (.ok P) ∧
      (G.interventionalCpdag oa o' iv' c).run = some (.ok P') ∧
      (G.interventionalCpdag oa o'' (iv ++ iv') c).run = some (.ok Q) ∧
      EssentialGraph G.nodes G.E (targets (iv0 ++ iv ++ iv')) Q.nodes Q.arcs Q.edges ∧ Q.arcs = P.arcs ∪ P'.arcs := by
  have hk := cpdagArg_knows hG hc c rfl
  obtain ⟨P, h1, k1⟩ := interventionalCpdag_knows hG oa o iv hk
  obtain ⟨P', h2, k2⟩ := interventionalCpdag_knows hG oa o' iv' hk
  obtain ⟨Q, h3, k3⟩ := interventionalCpdag_knows hG oa o'' (iv ++ iv') hk
  refine ⟨P, P', Q, h1, h2, h3, ?_, ?_⟩
  · have := essential_of_knows hG k3
    rw [List.append_assoc, targets_append iv0]; exact this
  · ext ⟨a, b⟩
    rw [Finset.mem_union, k1.arcs, k2.arcs, k3.arcs, mem_dirArcs, mem_dirArcs, mem_dirArcs, targets_append,
      show targets iv0 ∪ (targets iv ∪ targets iv') = (targets iv0 ∪ targets iv) ∪ (targets iv0 ∪ targets iv') by
        rw [Set.union_union_distrib_left], meek_union hG.acyclic]

noncomputable def Sample.design {β : Type} : DesignOracle β :=
  ⟨_root_.Sample.order, _root_.Sample.order, ⟨_root_.Sample.order, _root_.Sample.order⟩,
    fun _ _ => ⟨_root_.Sample.order, _root_.Sample.order⟩⟩

theorem Sample.chain_arg : ∃ c, CpdagArg Sample.right [] (some c) ∧
    (Sample.right.cpdag _root_.Sample.order ⟨_root_.Sample.order, _root_.Sample.order⟩).run = some (.ok c) := by
  obtain ⟨c, h, _⟩ := cpdag_knows Sample.right_valid _root_.Sample.order ⟨_root_.Sample.order, _root_.Sample.order⟩
  exact ⟨c, .cpdag h, h⟩

/-- On `0 → 1 → 2`, first nothing known. -/
example : ∃ c P P' Q, CpdagArg Sample.right [] (some c) ∧
    (Sample.right.interventionalCpdag _root_.Sample.order ⟨_root_.Sample.order, _root_.Sample.order⟩ [{0}] c).run
      = some (.ok P) ∧
    (Sample.right.interventionalCpdag _root_.Sample.order ⟨_root_.Sample.order, _root_.Sample.order⟩ [{2}] c).run
      = some (.ok P') ∧ Q = P.arcs ∪ P'.arcs := by
  obtain ⟨c, hc, _⟩ := Sample.chain_arg
  obtain ⟨P, P', Q, h1, h2, _, _, h3⟩ := C88_union Sample.right Sample.right_valid hc _root_.Sample.order
    ⟨_root_.Sample.order, _root_.Sample.order⟩ ⟨_root_.Sample.order, _root_.Sample.order⟩
    ⟨_root_.Sample.order, _root_.Sample.order⟩ [{0}] [{2}]
  exact ⟨c, P, P', Q.arcs, hc, h1, h2, h3⟩

/-- C89 (when something is left to orient). `optimal_fully_orienting_single_node_interventions(cpdag)` returns a set of
nodes of the graph whose single-node interventions, added to what `cpdag` already stands for, leave the graph as the only
candidate; no smaller set of nodes does. Missing: the case in which `cpdag` has no undirected edge, see `C89_violated`. -/
theorem C89_optimal_partial (G : DAG α) (hG : G.Valid) (d : DesignOracle α) {iv : List (Finset α)}
    {cpdag : Option (PDAG α)} (ha : CpdagArg G iv cpdag) {c : PDAG α}
    (hc : (startCpdag d G cpdag).run = some (.ok c)) (hne : c.edges ≠ ∅) :
    ∃ S, (optimalInterventions d G cpdag).run = some (.ok (some S)) ∧ S ⊆ G.nodes ∧ Verifies G.E (targets iv) S ∧
      ∀ S', Verifies G.E (targets iv) S' → S.card ≤ S'.card := by
  obtain ⟨c', h1, h2⟩ := cpdagArg_spec hG ha d
  rw [h1] at hc
  cases hc
  obtain ⟨r, h3, _, h4⟩ := optimal_spec hG d h2
  obtain ⟨S, rfl, h5⟩ := h4 (fun h => hne (Finset.card_eq_zero.1 h))
  refine ⟨S, ?_, h5⟩
  rw [← h3]
  unfold optimalInterventions
  simp only [ExceptT.run_bind, h1, startCpdag_some, ExceptT.run_pure]
  rfl

/-- When `cpdag` has no undirected edge, the call returns `None`, although the empty set is a smallest solution. -/
theorem C89_none (G : DAG α) (hG : G.Valid) (d : DesignOracle α) {iv : List (Finset α)}
    {cpdag : Option (PDAG α)} (ha : CpdagArg G iv cpdag) {c : PDAG α}
    (hc : (startCpdag d G cpdag).run = some (.ok c)) (he : c.edges = ∅) :
    (optimalInterventions d G cpdag).run = some (.ok none) ∧ Verifies G.E (targets iv) ∅ := by
  obtain ⟨c', h1, h2⟩ := cpdagArg_spec hG ha d
  rw [h1] at hc
  cases hc
  obtain ⟨r, h3, h4, _⟩ := optimal_spec hG d h2
  rw [h4 (Finset.card_eq_zero.2 he)] at h3
  constructor
  · rw [← h3]
    unfold optimalInterventions
    simp only [ExceptT.run_bind, h1, startCpdag_some, ExceptT.run_pure]
    rfl
  · rw [verifies_iff_card hG, singles_empty, Set.union_empty, ← h2.arcs, ← h2.card hG, he]
    simp

/-- C89 fails: on `0 → 2 ← 1` the call returns `None`, whatever the iteration orders. -/
theorem C89_violated : ∃ (G : DAG (Fin 3)), G.Valid ∧ (∀ d, (optimalInterventions d G none).run = some (.ok none)) ∧
    Verifies G.E (targets []) ∅ := by
  have hv : (_root_.Sample.graph (n := 3) {(0, 2), (1, 2)}).Valid := _root_.Sample.graph_valid (by decide)
  have hcov : ∀ i j : Fin 3, ¬ Covered (_root_.Sample.graph (n := 3) {(0, 2), (1, 2)}).E i j := by
    intro i j hc
    have h1 : (i, j) ∈ ({(0, 2), (1, 2)} : Finset (Fin 3 × Fin 3)) := hc.1
    simp only [Finset.mem_insert, Finset.mem_singleton, Prod.mk.injEq] at h1
    rcases h1 with ⟨rfl, rfl⟩ | ⟨rfl, rfl⟩
    · exact absurd ((hc.2 1).2 ⟨by decide, by decide⟩) (by decide)
    · exact absurd ((hc.2 0).2 ⟨by decide, by decide⟩) (by decide)
  have hver : Verifies (_root_.Sample.graph (n := 3) {(0, 2), (1, 2)}).E (targets []) ∅ := by
    rw [verifies_iff hv.acyclic (E_mem hv)]
    exact fun i j hc => absurd hc (hcov i j)
  refine ⟨_, hv, fun d => ?_, hver⟩
  obtain ⟨c, h1, h2⟩ := cpdagArg_spec hv .none d
  refine (C89_none _ hv d .none h1 (Finset.card_eq_zero.1 ?_)).1
  have h3 := (verifies_iff_card hv _ _).1 hver
  rw [singles_empty, Set.union_empty, ← h2.arcs] at h3
  have := h2.card hv
  omega

/-- On `0 → 1 → 2` an edge is left: the graph is not determined without interventions. -/
theorem Sample.chain_left (d : DesignOracle (Fin 3)) :
    ∃ c, (startCpdag d Sample.right none).run = some (.ok c) ∧ c.edges ≠ ∅ := by
  obtain ⟨c, h1, h2⟩ := cpdagArg_spec Sample.right_valid .none d
  refine ⟨c, h1, fun he => ?_⟩
  have h3 := (C89_none _ Sample.right_valid d .none h1 he).2
  rw [verifies_iff Sample.right_valid.acyclic (E_mem Sample.right_valid)] at h3
  have hc : Covered Sample.right.E 0 1 := mem_coveredEdges.1 (by decide)
  rcases h3 0 1 hc with ⟨_, ⟨_, h, _⟩, _⟩ | h | h <;> simp at h

example : ∃ S, (optimalInterventions Sample.design Sample.right none).run = some (.ok (some S)) := by
  obtain ⟨c, h1, h2⟩ := Sample.chain_left Sample.design
  obtain ⟨S, h3, _⟩ := C89_optimal_partial Sample.right Sample.right_valid Sample.design .none h1 h2
  exact ⟨S, h3⟩

/-- C90 (without earlier targets). `atomic_verification(cpdag)` never trips its assertions and returns a set of nodes whose
single-node interventions leave the graph as the only candidate. If `cpdag` is omitted or `d.cpdag()`, no smaller set
does. Missing: minimality relative to a `cpdag` with more orientations, see `C90_violated`. -/
theorem C90_atomic_verification_partial (G : DAG α) (hG : G.Valid) (d : DesignOracle α) (k : CoverOracle α)
    (o : SetOrder Unit (Finset α)) {iv : List (Finset α)} {cpdag : Option (PDAG α)} (ha : CpdagArg G iv cpdag) :
    ∃ S, (atomicVerification d k o G cpdag).run = some (.ok S) ∧ Verifies G.E (targets iv) S ∧
      (iv = [] → ∀ S', Verifies G.E (targets iv) S' → S.card ≤ S'.card) := by
  obtain ⟨c, h1, _⟩ := cpdagArg_spec hG ha d
  obtain ⟨S, h2, h3, h4⟩ := atomicVerification_spec hG d k o h1
  have hnil : targets ([] : List (Finset α)) = ∅ := by ext; simp [targets]
  refine ⟨S, h2, ?_, by rintro rfl; rw [hnil]; exact h4⟩
  rw [verifies_iff hG.acyclic (E_mem hG)] at h3 ⊢
  intro i j hc
  refine Or.inr ((h3 i j hc).resolve_left ?_)
  rw [cutBy_empty]; exact id

/-- `atomic_verification` computes a minimum vertex cover of the covered arcs; these covers are exactly the sets of nodes
that verify the graph. -/
theorem C90_covers (G : DAG α) (hG : G.Valid) (S : Finset α) :
    Verifies G.E ∅ S ↔ ∀ i j, (i, j) ∈ G.coveredEdges → i ∈ S ∨ j ∈ S := by
  rw [verifies_iff_cover hG]
  exact ⟨fun h i j hij => h (i, j) hij, fun h e he => h e.1 e.2 he⟩

/-- A networkx that does what it documents. -/
theorem Sample.coverOracle : Nonempty (CoverOracle α) := by
  classical
  have h : ∀ H : Finset (α × α), ∃ S, MinVertexCover H S := by
    intro H
    have hex : ∃ n, ∃ S, VertexCover H S ∧ S.card = n :=
      ⟨_, H.image Prod.fst, fun e he => Or.inl (Finset.mem_image_of_mem _ he), rfl⟩
    obtain ⟨S, h1, h2⟩ := Nat.find_spec hex
    exact ⟨S, h1, fun S' hS' => h2 ▸ Nat.find_min' hex ⟨S', hS', rfl⟩⟩
  choose f hf using h
  exact ⟨⟨f, fun H _ => hf H⟩⟩

/-- C90 fails for a `cpdag` with known orientations: with the graph `0 → 1` and the CPDAG in which an intervention has
already directed the arc, nothing is left to orient, yet a nonempty set is returned. -/
theorem C90_violated : ∃ (G : DAG (Fin 2)) (iv : List (Finset (Fin 2))) (c : PDAG (Fin 2)), G.Valid ∧
    CpdagArg G iv (some c) ∧ c.edges = ∅ ∧ Verifies G.E (targets iv) ∅ ∧
    ∀ d k o, ∃ S, (atomicVerification d k o G (some c)).run = some (.ok S) ∧ S ≠ ∅ := by
  have hv : (_root_.Sample.graph (n := 2) {(0, 1)}).Valid := _root_.Sample.graph_valid (by decide)
  obtain ⟨c, hc, k⟩ := cpdag_knows hv _root_.Sample.order ⟨_root_.Sample.order, _root_.Sample.order⟩
  obtain ⟨c', hc', k'⟩ := interventionalCpdag_knows hv _root_.Sample.order
    ⟨_root_.Sample.order, _root_.Sample.order⟩ [{0}] k
  have ha : CpdagArg (_root_.Sample.graph (n := 2) {(0, 1)}) ([] ++ [{0}]) (some c') := .icpdag (.cpdag hc) hc'
  have hver : Verifies (_root_.Sample.graph (n := 2) {(0, 1)}).E (targets ([] ++ [{0}])) ∅ := by
    rw [verifies_iff hv.acyclic (E_mem hv)]
    intro i j hij
    have h1 : (i, j) ∈ ({(0, 1)} : Finset (Fin 2 × Fin 2)) := hij.1
    simp only [Finset.mem_singleton, Prod.mk.injEq] at h1
    obtain ⟨rfl, rfl⟩ := h1
    exact Or.inl ⟨{0}, ⟨{0}, by simp, by simp⟩, by simp⟩
  refine ⟨_, _, c', hv, ha, ?_, hver, fun d k o => ?_⟩
  · have h2 := cpdagArg_knows hv ha c' rfl
    have h3 := (verifies_iff_card hv _ _).1 hver
    rw [singles_empty, Set.union_empty, ← h2.arcs] at h3
    have := h2.card hv
    exact Finset.card_eq_zero.1 (by omega)
  · obtain ⟨S, h1, h2, _⟩ := atomicVerification_spec hv d k o (cpdag := some c') (c := c') rfl
    refine ⟨S, h1, ?_⟩
    rintro rfl
    have h3 := (C90_covers _ hv ∅).1 h2 0 1 (by decide)
    simp at h3

example : ∃ S, ∃ k, (atomicVerification Sample.design k _root_.Sample.order Sample.right none).run = some (.ok S) := by
  obtain ⟨k⟩ := Sample.coverOracle (α := Fin 3)
  obtain ⟨S, h, _⟩ := C90_atomic_verification_partial Sample.right Sample.right_valid Sample.design k
    _root_.Sample.order .none
  exact ⟨S, k, h⟩

theorem greedy_start {G : DAG α} {d : DesignOracle α} {cpdag : Option (PDAG α)} {c : PDAG α}
    (hc : (startCpdag d G cpdag).run = some (.ok c)) (num : ℤ) :
    (greedyInterventions d G cpdag num).run = (greedySingle d 0 G c num).run := by
  unfold greedyInterventions
  rw [ExceptT.run_bind, hc]
  rfl

/-- C91 (for a positive number of interventions). `greedy_optimal_single_node_intervention(cpdag, num)` terminates without
raising and returns `num` interventions and `num` graphs. The `k`-th graph is the essential graph for the targets known
before and the first `k + 1` interventions. The `k`-th intervention, if not `None`, is a node of the graph, and no node
would have directed more arcs; it is `None` only when no undirected edge is left. Missing: `num = 0`, see
`C91_violated`. -/
theorem C91_greedy_partial (G : DAG α) (hG : G.Valid) (d : DesignOracle α) {iv : List (Finset α)}
    {cpdag : Option (PDAG α)} (ha : CpdagArg G iv cpdag) (num : ℕ) (hn : num ≠ 0) :
    ∃ ivs gs, (greedyInterventions d G cpdag num).run = some (.ok (ivs, gs)) ∧ ivs.length = num ∧ gs.length = num ∧
      (∀ k P, gs[k]? = some P → EssentialGraph G.nodes G.E (targets iv ∪ singles (chosen (ivs.take (k + 1))))
        P.nodes P.arcs P.edges) ∧
      (∀ (k : ℕ) v P, ivs[k]? = some (some v) → gs[k]? = some P → v ∈ G.nodes ∧
        ∀ w nodes arcs edges, EssentialGraph G.nodes G.E
          (targets iv ∪ singles (chosen (ivs.take k)) ∪ {{w}}) nodes arcs edges → arcs.card ≤ P.arcs.card) ∧
      (∀ (k : ℕ) P, ivs[k]? = some none → gs[k]? = some P → P.edges = ∅) := by
  obtain ⟨m, rfl⟩ := Nat.exists_eq_succ_of_ne_zero hn
  obtain ⟨c, h1, h2⟩ := cpdagArg_spec hG ha d
  obtain ⟨ivs, gs, P, h3, h4, h5, _, _⟩ := greedySingle_spec hG d ∅ Nat.one_pos (by simp) 0 m 0 _ c h2 (by positivity)
  refine ⟨ivs, gs, by rw [greedy_start h1]; exact h3, h5, h4.len ▸ h5, fun k P hP => essential_of_knows hG (h4.knows k P hP),
    fun k v P hv hP => ⟨(h4.best k v P hv hP).1, fun w nodes arcs edges he => ?_⟩,
    fun k P hv hP => Finset.card_eq_zero.1 (h4.stop k P hv hP)⟩
  refine le_trans (le_of_eq ?_) ((h4.best k v P hv hP).2 w)
  congr 1
  ext ⟨a, b⟩
  rw [he.arcs_iff, forced_iff hG.acyclic (E_mem hG), mem_dirArcs]

/-- C91 fails for `num_interventions=0`: on `0 → 1` one intervention is returned. -/
theorem C91_violated : ∃ (G : DAG (Fin 2)), G.Valid ∧ ∀ d, ∃ ivs gs,
    (greedyInterventions d G none 0).run = some (.ok (ivs, gs)) ∧ ivs ≠ [] ∧ gs ≠ [] := by
  have hv : (_root_.Sample.graph (n := 2) {(0, 1)}).Valid := _root_.Sample.graph_valid (by decide)
  refine ⟨_, hv, fun d => ?_⟩
  obtain ⟨c, h1, h2⟩ := cpdagArg_spec hv .none d
  obtain ⟨ivs, gs, h3, h4, h5⟩ := greedySingle_nonpos hv d _ 0 _ c 0 h2 rfl le_rfl
  have hgs : gs ≠ [] := by
    rintro rfl
    have hver := (C89_none _ hv d .none h1 (by simpa using h5)).2
    rw [verifies_iff hv.acyclic (E_mem hv)] at hver
    rcases hver 0 1 (mem_coveredEdges.1 (by decide)) with ⟨_, ⟨_, h, _⟩, _⟩ | h | h <;> simp at h
  refine ⟨ivs, gs, by rw [greedy_start h1]; exact h3, ?_, hgs⟩
  rintro rfl
  have := h4.len
  exact hgs (List.length_eq_zero_iff.1 this.symm)

example : ∃ ivs gs, (greedyInterventions Sample.design Sample.right none (2 : ℕ)).run = some (.ok (ivs, gs)) ∧
    ivs.length = 2 := by
  obtain ⟨ivs, gs, h1, h2, _⟩ := C91_greedy_partial Sample.right Sample.right_valid Sample.design .none 2 (by decide)
  exact ⟨ivs, gs, h1, h2⟩

/-- C92. The documented guarantee of `greedy_optimal_single_node_intervention(cpdag, num)`: compared with the arcs already
directed in `cpdag`, the returned interventions direct at least `(1 - 1/e)` as many new arcs as any set of at most `num`
single-node interventions. -/
theorem C92_greedy_guarantee (G : DAG α) (hG : G.Valid) (d : DesignOracle α) {iv : List (Finset α)}
    {cpdag : Option (PDAG α)} (ha : CpdagArg G iv cpdag) (num : ℕ) (hn : num ≠ 0) :
    ∃ c ivs gs last, (startCpdag d G cpdag).run = some (.ok c) ∧
      (greedyInterventions d G cpdag num).run = some (.ok (ivs, gs)) ∧ gs.getLast? = some last ∧
      ∀ (S : Finset α), S.card ≤ num → ∀ nodes arcs edges,
        EssentialGraph G.nodes G.E (targets iv ∪ singles S) nodes arcs edges →
        (1 - Real.exp (-1)) * ((arcs.card : ℝ) - c.arcs.card) ≤ last.arcs.card - c.arcs.card := by
  obtain ⟨m, rfl⟩ := Nat.exists_eq_succ_of_ne_zero hn
  obtain ⟨c, h1, h2⟩ := cpdagArg_spec hG ha d
  obtain ⟨ivs, gs, P, h3, h4, h5, h6, _⟩ := greedySingle_spec hG d ∅ Nat.one_pos (by simp) 0 m 0 _ c h2 (by positivity)
  have hlen : gs.length = m + 1 := h4.len ▸ h5
  refine ⟨c, ivs, gs, P, h1, by rw [greedy_start h1]; exact h3, ?_, ?_⟩
  · rw [List.getLast?_eq_getElem?, hlen]; exact h6
  · intro S hS nodes arcs edges he
    obtain ⟨ivs', gs', P', h3', _, _, h6', h7⟩ := greedySingle_spec hG d S (Nat.succ_pos m) hS arcs.card m 0 _ c h2 (by
      refine le_of_eq ?_
      congr 2
      ext ⟨a, b⟩
      rw [he.arcs_iff, forced_iff hG.acyclic (E_mem hG), mem_dirArcs])
    rw [h3] at h3'
    cases h3'
    rw [h6] at h6'
    cases h6'
    have h8 : (1 - 1 / (m + 1 : ℕ) : ℝ) ^ (m + 1) ≤ Real.exp (-1) :=
      Real.one_sub_div_pow_le_exp_neg (n := m + 1) (t := 1) (by push_cast; linarith [Nat.cast_nonneg (α := ℝ) m])
    have h9 : (c.arcs.card : ℝ) ≤ arcs.card := by
      have : c.arcs ⊆ arcs := by
        rintro ⟨a, b⟩ hab
        rw [he.arcs_iff, forced_iff hG.acyclic (E_mem hG), ← mem_dirArcs]
        rw [h2.arcs] at hab
        exact dirArcs_mono Set.subset_union_left hab
      exact_mod_cast Finset.card_le_card this
    have h10 := mul_le_mul_of_nonneg_right h8 (sub_nonneg.2 h9)
    have h11 := h7.trans h10
    linarith

example := C92_greedy_guarantee Sample.right Sample.right_valid Sample.design .none 1 (by decide)

/-- C93. `greedy_optimal_fully_orienting_interventions(cpdag)` terminates without raising; each returned graph is the
essential graph for the interventions so far; the last one (`cpdag` itself if there is none) has no undirected edge; and
the documented bound holds: at most `(1 + ln K)` times as many interventions as any fully orienting set of single-node
interventions, `K` being the number of undirected edges of `cpdag`. -/
theorem C93_greedy_fully (G : DAG α) (hG : G.Valid) (d : DesignOracle α) {iv : List (Finset α)}
    {cpdag : Option (PDAG α)} (ha : CpdagArg G iv cpdag) :
    ∃ c ivs gs, (startCpdag d G cpdag).run = some (.ok c) ∧ (greedyFully d G cpdag).run = some (.ok (ivs, gs)) ∧
      ivs.length = gs.length ∧ none ∉ ivs ∧ chosen ivs ⊆ G.nodes ∧ Verifies G.E (targets iv) (chosen ivs) ∧
      (∀ k P, gs[k]? = some P → EssentialGraph G.nodes G.E (targets iv ∪ singles (chosen (ivs.take (k + 1))))
        P.nodes P.arcs P.edges) ∧
      (gs.getLast?.getD c).edges = ∅ ∧
      ∀ S, Verifies G.E (targets iv) S → (ivs.length : ℝ) ≤ (1 + Real.log c.edges.card) * S.card := by
  obtain ⟨c, h1, h2⟩ := cpdagArg_spec hG ha d
  obtain ⟨ivs, gs, h3, h4, h5, h6, h7⟩ := greedyLoop_spec hG d _ 0 _ c [] [] h2 rfl
  refine ⟨c, ivs, gs, h1, ?_, h4.len, fun h => h5 _ h rfl, ?_, ?_,
    fun k P hP => essential_of_knows hG (h4.knows k P hP), h6, fun S hS => ?_⟩
  · unfold greedyFully
    rw [ExceptT.run_bind, h1]
    simpa using h3
  · intro v hv
    simp only [chosen, List.mem_toFinset, List.mem_filterMap, id] at hv
    obtain ⟨x, hx, rfl⟩ := hv
    obtain ⟨k, hk, he⟩ := List.mem_iff_getElem.1 hx
    have hk' : k < gs.length := h4.len ▸ hk
    exact (h4.best k v gs[k] (by rw [List.getElem?_eq_getElem hk, he]) (List.getElem?_eq_getElem hk')).1
  · rcases List.eq_nil_or_concat gs with hgs | ⟨l, P, hgs⟩
    · rw [hgs] at h6
      have hi : ivs = [] := List.length_eq_zero_iff.1 (by rw [h4.len, hgs]; rfl)
      rw [hi]
      have h0 : c.edges = ∅ := by simpa using h6
      rw [verifies_iff_card hG]
      have := h2.card hG
      rw [h0, Finset.card_empty, zero_add, h2.arcs] at this
      simpa [chosen, singles_empty] using this
    · have hk : gs[l.length]? = some P := by rw [hgs]; simp
      have h8 := h4.knows l.length P hk
      have hlen : ivs.length = l.length + 1 := by rw [h4.len, hgs]; simp
      rw [List.take_of_length_le (by omega)] at h8
      have h9 : P.edges = ∅ := by rw [hgs] at h6; simpa using h6
      rw [verifies_iff_card hG]
      have := h8.card hG
      rw [h9, Finset.card_empty, zero_add, h8.arcs] at this
      exact this
  · have h8 := h7 S hS
    have h9 := harmonic_le_one_add_log c.edges.card
    have h10 : (ivs.length : ℝ) ≤ S.card * (harmonic c.edges.card : ℝ) := by exact_mod_cast h8
    have h11 : (0 : ℝ) ≤ S.card := by positivity
    nlinarith

example := C93_greedy_fully Sample.right Sample.right_valid Sample.design .none

end Props
