import Verif.Proof.AGImap2
import Verif.Props.AGImap

/-! # C215 – C217: the other tests for minimal I-maps of `AncestralGraph` -/

namespace Props

open Model Model.AG Relation Spec

universe u
variable {α : Type u} [DecidableEq α]

/-! ## C215 -/

/-- C215. For a maximal ancestral graph `g` without undirected edges that is an I-map of `h`, `g.is_minimal_imap2(h, ...)` terminates and
does not raise, whatever `certify`, `check_imap` and `validate` are. The verdict is `True` iff no maximal graph that has some of the
directed and bidirected edges of `g`, but not all, is an I-map of `h`. The certificate is an edge such that the graph without it is a
maximal I-map of `h`. -/
theorem C215_is_minimal_imap2 (w : MinImap2Oracle α) (certify checkImap validate : Bool) (G H : AG α) (hG : Reachable G)
    (hH : Reachable H) (ha : G.mixed.Ancestral) (hm : G.mixed.Maximal {v | v ∈ G.nodes}) (hu : G.undirected = ∅)
    (hi : G.mixed.Imap H.mixed {v | v ∈ G.nodes}) :
    ∃ b c, isMinimalImap2 w certify checkImap validate G H = some (.ok (if certify then .tuple b c else .bool b)) ∧
      (b = true ↔ ∀ P : Mixed α, P.Sub G.mixed → ¬ G.mixed.Sub P → P.Maximal {v | v ∈ G.nodes} →
        ¬ P.Imap H.mixed {v | v ∈ G.nodes}) ∧ (b = true ↔ c = none) ∧
      ∀ e, c = some e → (G.mixed.dir e.1 e.2 ∨ G.mixed.bi e.1 e.2) ∧ ∃ P : Mixed α, P.Maximal {v | v ∈ G.nodes} ∧
        P.Imap H.mixed {v | v ∈ G.nodes} ∧ (∀ x y, P.dir x y ↔ G.mixed.dir x y ∧ (x, y) ≠ e) ∧
        (∀ x y, P.bi x y ↔ G.mixed.bi x y ∧ (x, y) ≠ e ∧ (y, x) ≠ e) ∧ ∀ x y, ¬ P.un x y := by
  obtain ⟨c, h2, h3, h4⟩ := isMinimalImap2_spec hG.good ha hu hH.good hm hi w certify checkImap validate
  have hn : c.isNone = true ↔ c = none := by cases c <;> simp
  refine ⟨_, c, h2, ?_, hn, ?_⟩
  · rw [hn, h3]
    exact ⟨fun k P p1 p2 p3 p4 => p2 (k P p1 p3 p4), fun k P p1 p2 p3 => by_contra fun n => k P p1 n p2 p3⟩
  · rintro e rfl
    obtain ⟨k1, B, k2, k3, k4⟩ := h4 e rfl
    refine ⟨k1, B.mixed, k2.nodes ▸ k3, k2.nodes ▸ k4, ?_, ?_, ?_⟩
    · intro x y
      change _ ∈ B.directed ↔ _ ∈ G.directed ∧ _
      rw [k2.dir, Finset.mem_erase, and_comm]
    · intro x y
      change _ ∈ B.bidirected ↔ _ ∈ G.bidirected ∧ _
      rw [k2.bi, Finset.mem_erase, and_comm, ne_eq, UG.pair_eq, not_or, ne_eq, ne_eq, Prod.ext_iff, Prod.ext_iff,
        and_comm (a := (y, x).1 = e.1)]
    · intro x y k
      have : _ ∈ B.undirected := k
      rw [k2.un, hu] at this; simp at this

/-- C215, the case of a graph that is not an I-map: `(False, None)`. -/
theorem C215_not_imap (w : MinImap2Oracle α) (certify validate : Bool) (G H : AG α) (hG : Reachable G) (hH : Reachable H)
    (ha : G.mixed.Ancestral) (hm : G.mixed.Maximal {v | v ∈ G.nodes}) (hu : G.undirected = ∅)
    (hi : ¬ G.mixed.Imap H.mixed {v | v ∈ G.nodes}) :
    isMinimalImap2 w certify true validate G H = some (.ok (.tuple false none)) :=
  isMinimalImap2_not hG.good ha hu hH.good hm hi w certify validate

/-- C215, in terms of `is_minimal_imap`: with certificates the two verdicts agree, whatever the iteration orders. -/
theorem C215_agree (w : MinImapOracle α) (w' : MinImap2Oracle α) (validate : Bool) (G H : AG α) (hG : Reachable G) (hH : Reachable H)
    (ha : G.mixed.Ancestral) (hm : G.mixed.Maximal {v | v ∈ G.nodes}) (hu : G.undirected = ∅) :
    ∃ b c c', isMinimalImap w true true G H = some (.ok (.tuple b c)) ∧
      isMinimalImap2 w' true true validate G H = some (.ok (.tuple b c')) := by
  obtain ⟨b, c, h1, h2, -⟩ := C105_is_minimal_imap w G H hG hH ha hm hu
  by_cases hi : G.mixed.Imap H.mixed {v | v ∈ G.nodes}
  · obtain ⟨b', c', k1, k2, -⟩ := C215_is_minimal_imap2 w' true true validate G H hG hH ha hm hu hi
    have : b = b' := by rw [Bool.eq_iff_iff, h2, k2]; exact ⟨fun k => k.2, fun k => ⟨hi, k⟩⟩
    exact ⟨b, c, c', h1, this ▸ k1⟩
  · have : b = false := by
      cases b
      · rfl
      · exact absurd (h2.1 rfl).1 hi
    exact ⟨b, c, none, h1, this ▸ C215_not_imap w' true validate G H hG hH ha hm hu hi⟩

/-! ## C216 -/

/-- What holds of C216: for a graph without directed and bidirected edges that is an I-map, both return `True`. Missing: all other
graphs, where the code is wrong. -/
theorem C216_minimal_partial (w : MinImapOracle α) (certify checkImap : Bool) (G H : AG α) (hG : Reachable G) (hH : Reachable H)
    (ha : G.mixed.Ancestral) (hm : G.mixed.Maximal {v | v ∈ G.nodes}) (hu : G.undirected = ∅)
    (hi : G.mixed.Imap H.mixed {v | v ∈ G.nodes}) (hd : G.directed = ∅) (hb : G.bidirected = ∅) :
    isMinimalImap3 w certify checkImap G H = some (.ok (if certify then .tuple true none else .bool true)) ∧
    isMinimalImap4 w certify checkImap G H = some (.ok (if certify then .tuple true none else .bool true)) := by
  have hl : (w.edges.ord () (G.directed.disjSum G.bidirected)) = [] := by
    refine List.eq_nil_iff_forall_not_mem.2 fun x hx => ?_
    rw [w.edges.mem_iff, hd, hb] at hx
    simp at hx
  obtain ⟨r, hr, hr', -⟩ := isImap_spec hG.good ha hu hH.good w.self hm
  obtain rfl := hr'.2 hi
  cases checkImap <;> simp [isMinimalImap3, isMinimalImap4, hl, hr]

/-- C216, what happens otherwise: an I-map with a directed or bidirected edge is an `AttributeError`, for all flags. -/
theorem C216_raises (w : MinImapOracle α) (certify checkImap : Bool) (G H : AG α) (hG : Reachable G) (hH : Reachable H)
    (ha : G.mixed.Ancestral) (hm : G.mixed.Maximal {v | v ∈ G.nodes}) (hu : G.undirected = ∅)
    (hi : G.mixed.Imap H.mixed {v | v ∈ G.nodes}) (he : G.directed ≠ ∅ ∨ G.bidirected ≠ ∅) :
    isMinimalImap3 w certify checkImap G H = some (.error .plain) ∧
    isMinimalImap4 w certify checkImap G H = some (.error .plain) := by
  obtain ⟨r, hr, hr', -⟩ := isImap_spec hG.good ha hu hH.good w.self hm
  obtain rfl := hr'.2 hi
  obtain ⟨hl, -⟩ := edges_spec hG.good w
  obtain ⟨e, l, hel⟩ : ∃ e l, (w.edges.ord () (G.directed.disjSum G.bidirected)).map (Sum.elim id w.unpack.fn) = e :: l := by
    rw [← List.ne_nil_iff_exists_cons, ne_eq, List.map_eq_nil_iff]
    intro k
    rcases he with q | q
    · obtain ⟨x, hx⟩ := Finset.nonempty_iff_ne_empty.2 q
      have := (w.edges.mem_iff () (G.directed.disjSum G.bidirected) (.inl x)).2 (Finset.inl_mem_disjSum.2 hx)
      rw [k] at this; simp at this
    · obtain ⟨x, hx⟩ := Finset.nonempty_iff_ne_empty.2 q
      have := (w.edges.mem_iff () (G.directed.disjSum G.bidirected) (.inr x)).2 (Finset.inr_mem_disjSum.2 hx)
      rw [k] at this; simp at this
  have hee : e ∈ G.directed ∨ ({e.1, e.2} : Finset α) ∈ G.bidirected := hl e (by rw [hel]; exact List.mem_cons_self)
  obtain ⟨B, hB, -⟩ := withoutEdge_spec hG.good w hee
  rw [← withoutEdge2_eq hG.good w hee] at hB
  have hB' : ((G.copy (w.copy e) (w.copyUnpack e)).andThen fun B => B.removeEdge false e.1 e.2) = (B, none) := by
    rw [← hB, withoutEdge2, copy_spec hG.good]
    rcases hee with k | k
    · have : ({e.1, e.2} : Finset α) ∉ G.bidirected := hG.good.2.dir_bi _ _ k
      simp [AG.Step.andThen, removeEdge, this, k]
    · simp [AG.Step.andThen, removeEdge, k]
  constructor
  · cases checkImap <;> simp [isMinimalImap3, hel, hr, hB]
  · cases checkImap <;> simp only [isMinimalImap4, hel, hr, hB', Option.bind_some, Option.isNone_none, Bool.false_eq_true, if_true, if_false]

/-- C216, the case of a graph that is not an I-map: `is_minimal_imap3` says `(False, None)`, `is_minimal_imap4` raises. -/
theorem C216_not_imap (w : MinImapOracle α) (certify : Bool) (G H : AG α) (hG : Reachable G) (hH : Reachable H)
    (ha : G.mixed.Ancestral) (hm : G.mixed.Maximal {v | v ∈ G.nodes}) (hu : G.undirected = ∅)
    (hi : ¬ G.mixed.Imap H.mixed {v | v ∈ G.nodes}) :
    isMinimalImap3 w certify true G H = some (.ok (.tuple false none)) ∧
    isMinimalImap4 w certify true G H = some (.error .plain) := by
  obtain ⟨r, hr, hr', -⟩ := isImap_spec hG.good ha hu hH.good w.self hm
  cases r with
  | none => exact absurd (hr'.1 rfl) hi
  | some s => simp [isMinimalImap3, isMinimalImap4, hr]

/-- C216 is violated: `0 → 1` is an I-map of the graph without edges, and the answer is an `AttributeError` instead of a verdict. -/
theorem C216_violated : ∃ G H : AG (Fin 2), Reachable G ∧ Reachable H ∧ G.mixed.Ancestral ∧ G.mixed.Maximal {v | v ∈ G.nodes} ∧
    G.undirected = ∅ ∧ G.mixed.Imap H.mixed {v | v ∈ G.nodes} ∧ ∀ w, isMinimalImap3 w true true G H = some (.error .plain) ∧
      isMinimalImap4 w true true G H = some (.error .plain) :=
  ⟨Sample.arc2, Sample.none2, Sample.arc2_reachable, Sample.none2_reachable, Sample.arc2_ancestral, Sample.arc2_maximal, rfl,
    Sample.none2_imap, fun w => C216_raises w true true _ _ Sample.arc2_reachable Sample.none2_reachable Sample.arc2_ancestral
      Sample.arc2_maximal rfl Sample.none2_imap (Or.inl (by decide))⟩

/-! ## C217 -/

/-- C217, what happens: for every ancestral graph with a node, `g.resolved_quasisinks(g)` is an `AttributeError`. -/
theorem C217_raises (G : AG α) (hG : Reachable G) (ha : G.mixed.Ancestral) (hn : G.nodes.Nonempty) :
    resolvedQuasisinks G G = .error .plain := by
  obtain ⟨x, hx⟩ := hn
  obtain ⟨s, hs, -⟩ := Mixed.exists_sink ha.acyclic G.nodes hx
  refine if_pos ⟨s, hs.1, ?_⟩
  rw [and_self, Finset.eq_empty_iff_forall_notMem]
  intro c hc
  have : (s, c) ∈ G.directed := (hG.good.1.children_iff _ _).1 hc
  exact hs.2 c (hG.good.adj_mem (Or.inl this)).2 this

/-- C217 is violated: for the graph with two nodes and no edge the result should be both nodes; it is an `AttributeError`. -/
theorem C217_violated : ∃ G : AG (Fin 2), Reachable G ∧ G.mixed.Ancestral ∧ resolvedQuasisinks G G = .error .plain :=
  ⟨Sample.none2, Sample.none2_reachable, Sample.none2_ancestral, C217_raises _ Sample.none2_reachable Sample.none2_ancestral
    ⟨0, by decide⟩⟩

/-- What holds of C217: if every node has a child in one of the two graphs, then no node is resolved. Missing: all other graphs, where
the code is wrong. -/
theorem C217_resolved_partial (G H : AG α) (hG : Reachable G) (hH : Reachable H)
    (h : ∀ v ∈ G.nodes, (∃ x, G.mixed.dir v x) ∨ ∃ x, H.mixed.dir v x) : resolvedQuasisinks G H = .ok ∅ := by
  refine if_neg ?_
  rintro ⟨v, hv, h1, h2⟩
  rcases h v hv with ⟨x, k⟩ | ⟨x, k⟩
  · have := (hG.good.1.children_iff v x).2 k
    rw [h1] at this; simp at this
  · have := (hH.good.1.children_iff v x).2 k
    rw [h2] at this; simp at this

/-! ## Examples -/

/-- `0 → 1` and the graph without edges meet the hypotheses of C215; so does a graph with a bidirected edge and itself. -/
example : Sample.arc2.mixed.Imap Sample.none2.mixed {v | v ∈ Sample.arc2.nodes} ∧ Reachable Sample.discCol ∧
    Sample.discCol.mixed.Ancestral ∧ Sample.discCol.mixed.Maximal {v | v ∈ Sample.discCol.nodes} ∧ Sample.discCol.undirected = ∅ ∧
    Sample.discCol.mixed.Imap Sample.discCol.mixed {v | v ∈ Sample.discCol.nodes} :=
  ⟨Sample.none2_imap, Sample.discCol_reachable, Sample.discCol_ancestral, Sample.discCol_maximal, rfl, fun _ _ _ _ _ _ _ _ _ h => h⟩

/-- The empty graph is an I-map of itself. -/
example : Sample.none2.mixed.Imap Sample.none2.mixed {v | v ∈ Sample.none2.nodes} ∧ Sample.none2.directed = ∅ ∧
    Sample.none2.bidirected = ∅ := ⟨fun _ _ _ _ _ _ _ _ _ h => h, rfl, rfl⟩

example (w : MinImapOracle (Fin 2)) : isMinimalImap4 w true true Sample.none2 Sample.arc2 = some (.error .plain) :=
  (C216_not_imap _ true _ _ Sample.none2_reachable Sample.arc2_reachable Sample.none2_ancestral Sample.none2_maximal rfl
    Sample.arc2_not_imap).2

/-- `0 → 1` and `1 → 0` together give every node a child. -/
example : ∃ H : AG (Fin 2), Reachable H ∧ ∀ v ∈ Sample.arc2.nodes, (∃ x, Sample.arc2.mixed.dir v x) ∨ ∃ x, H.mixed.dir v x :=
  ⟨_root_.Sample.mixed {(1, 0)} ∅ ∅, _root_.Sample.mixed_reachable
    (_root_.Sample.mixed_good (by decide) (by decide) (by decide) (by decide) (by decide)) _root_.Sample.order ∅ ∅ rfl rfl, by decide⟩

end Props
