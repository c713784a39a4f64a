import Verif.Props.Sample
import Verif.Proof.Between

/-! # C61, C62: arcs between two nodes, resolved sinks -/

namespace Props

open Model Model.DAG Spec Relation
universe u
variable {α : Type u} [DecidableEq α]

/-- `x` lies on a directed path from `s` to `t`. -/
def OnPath (E : α → α → Prop) (s t x : α) : Prop := Path E s t ∧ Path0 E s x ∧ Path0 E x t

/-- C61, first half, with the exact condition. `nodes_between(s, t)` terminates and returns the nodes on directed paths from
`s` to `t`, except that nothing is returned when no such path has an inner node. -/
theorem C61_nodes_between_partial (G : DAG α) (hG : G.Valid) (o : SetOrder (α × Finset α) α) (s t : α) :
    ∃ r, G.nodesBetween o s t = some r ∧
      ∀ x, x ∈ r ↔ OnPath G.E s t x ∧ ∃ y, y ≠ s ∧ y ≠ t ∧ OnPath G.E s t y := by
  obtain ⟨r, h1, h2⟩ := nodesBetween_spec hG.toConsistent o s t
  refine ⟨r, h1, fun x => (h2 x).trans ?_⟩
  have key : ∀ {y}, Path G.E s y → Path G.E y t → y ≠ s ∧ y ≠ t ∧ OnPath G.E s t y := fun {y} h h' =>
    ⟨by rintro rfl; exact hG.acyclic _ h, by rintro rfl; exact hG.acyclic _ h', h.trans h', h.to_reflTransGen,
      h'.to_reflTransGen⟩
  constructor
  · rintro ⟨⟨y, h, h'⟩, hx⟩
    refine ⟨?_, y, key h h'⟩
    rcases hx with rfl | rfl | ⟨k, k'⟩
    · exact ⟨h.trans h', .refl, (h.trans h').to_reflTransGen⟩
    · exact ⟨h.trans h', (h.trans h').to_reflTransGen, .refl⟩
    · exact (key k k').2.2
  · rintro ⟨hx, y, ys, yt, hy⟩
    refine ⟨⟨y, (reflTransGen_iff_eq_or_transGen.1 hy.2.1).resolve_left ys,
      (reflTransGen_iff_eq_or_transGen.1 hy.2.2).resolve_left (Ne.symm yt)⟩, ?_⟩
    rcases reflTransGen_iff_eq_or_transGen.1 hx.2.1 with h | h
    · exact Or.inl h
    · rcases reflTransGen_iff_eq_or_transGen.1 hx.2.2 with k | k
      · exact Or.inr (Or.inl k.symm)
      · exact Or.inr (Or.inr ⟨h, k⟩)

/-- C61, second half, with the exact condition. `edges_between(s, t)` terminates; every arc returned joins nodes on directed
paths from `s` to `t`; an arc between such nodes is returned iff there is an inner node at all and the iteration over the set
`nodes_between(s, t)` meets the tail of the arc before its head. -/
theorem C61_edges_between_partial (G : DAG α) (hG : G.Valid) (o : SetOrder (α × Finset α) α) (on : SetOrder Unit α) (s t : α) :
    ∃ nb r, G.nodesBetween o s t = some nb ∧ G.edgesBetween o on s t = some r ∧
      (∀ i j, (i, j) ∈ r → G.E i j ∧ OnPath G.E s t i ∧ OnPath G.E s t j) ∧
      (∀ i j, G.E i j → OnPath G.E s t i → OnPath G.E s t j → (∃ y, y ≠ s ∧ y ≠ t ∧ OnPath G.E s t y) →
        ((i, j) ∈ r ↔ List.Sublist [i, j] (on.ord () nb))) ∧
      (¬ (∃ y, y ≠ s ∧ y ≠ t ∧ OnPath G.E s t y) → r = ∅) := by
  obtain ⟨nb, r, h1, h2, h3⟩ := edgesBetween_spec hG.toConsistent o on s t
  obtain ⟨nb', h1', h4⟩ := C61_nodes_between_partial G hG o s t
  obtain rfl : nb' = nb := by rw [h1] at h1'; exact (Option.some.inj h1').symm
  have mem : ∀ i j, (i, j) ∈ r → i ∈ nb' ∧ j ∈ nb' := fun i j h => by
    have := ((h3 i j).1 h).2
    exact ⟨(on.mem_iff _ _ _).1 (this.subset (by simp)), (on.mem_iff _ _ _).1 (this.subset (by simp))⟩
  refine ⟨nb', r, h1, h2, fun i j h => ⟨((h3 i j).1 h).1, ((h4 i).1 (mem i j h).1).1, ((h4 j).1 (mem i j h).2).1⟩, ?_, ?_⟩
  · intro i j hij _ _ _
    rw [h3]
    exact ⟨fun h => h.2, fun h => ⟨hij, h⟩⟩
  · intro hn
    refine Finset.eq_empty_of_forall_notMem fun a ha => ?_
    exact hn ((h4 a.1).1 (mem a.1 a.2 ha).1).2

/-- On the diamond the nodes between 0 and 4 include 1; the arc `0 → 1` is returned iff 0 is visited before 1. -/
example : ∃ nb r, Sample.diamond.nodesBetween Sample.order 0 4 = some nb ∧
    Sample.diamond.edgesBetween Sample.order Sample.order 0 4 = some r ∧
    ((0, 1) ∈ r ↔ List.Sublist [0, 1] (SetOrder.ord (Sample.order (κ := Unit)) () nb)) := by
  obtain ⟨nb, r, h1, h2, _, h3, _⟩ := C61_edges_between_partial Sample.diamond Sample.diamond_valid Sample.order Sample.order 0 4
  have e1 : Sample.diamond.E 0 1 := by decide
  have e2 : Sample.diamond.E 1 3 := by decide
  have e3 : Sample.diamond.E 3 4 := by decide
  have p1 : Path Sample.diamond.E 1 4 := .tail (.single e2) e3
  have p0 : Path Sample.diamond.E 0 4 := .head e1 p1
  have o1 : OnPath Sample.diamond.E 0 4 1 := ⟨p0, .single e1, p1.to_reflTransGen⟩
  exact ⟨nb, r, h1, h2, h3 0 1 e1 ⟨p0, .refl, p0.to_reflTransGen⟩ o1 ⟨1, by decide, by decide, o1⟩⟩

/-- C61 is violated: on `0 → 1 → 2` an iteration order that visits larger labels first gives no arcs at all between 0
and 2. -/
theorem C61_violated : ∃ G : DAG (Fin 3), G.Valid ∧ ∃ on : SetOrder Unit (Fin 3), ∀ o, ∃ r,
    G.edgesBetween o on 0 2 = some r ∧ (0, 1) ∉ r ∧ G.E 0 1 ∧ OnPath G.E 0 2 0 ∧ OnPath G.E 0 2 1 := by
  have hG : (Sample.graph (n := 3) {(0, 1), (1, 2)}).Valid := Sample.graph_valid (by decide)
  let on : SetOrder Unit (Fin 3) := ⟨fun _ s => (List.finRange 3).reverse.filter (· ∈ s),
    fun _ s => ((List.nodup_reverse.2 (List.nodup_finRange 3))).filter _, fun _ s a => by simp⟩
  refine ⟨_, hG, on, fun o => ?_⟩
  obtain ⟨nb, r, _, h2, h3⟩ := edgesBetween_spec hG.toConsistent o on 0 2
  have e1 : (Sample.graph (n := 3) {(0, 1), (1, 2)}).E 0 1 := by decide
  have e2 : (Sample.graph (n := 3) {(0, 1), (1, 2)}).E 1 2 := by decide
  have p : Path (Sample.graph (n := 3) {(0, 1), (1, 2)}).E 0 2 := .tail (.single e1) e2
  refine ⟨r, h2, fun h => ?_, e1, ⟨p, .refl, p.to_reflTransGen⟩, p, .single e1, .single e2⟩
  have h4 : List.Sublist [0, 1] ((List.finRange 3).reverse) := ((h3 0 1).1 h).2.trans List.filter_sublist
  revert h4; decide

/-- C61 is violated for every iteration order when the only path is a single arc. -/
theorem C61_violated_arc : ∃ G : DAG (Fin 2), G.Valid ∧ ∀ o on, G.edgesBetween o on 0 1 = some ∅ ∧ G.E 0 1 := by
  have hG : (Sample.graph (n := 2) {(0, 1)}).Valid := Sample.graph_valid (by decide)
  refine ⟨_, hG, fun o on => ⟨?_, by decide⟩⟩
  obtain ⟨nb, r, _, h2, _, _, h3⟩ := C61_edges_between_partial _ hG o on 0 1
  rw [h2, h3]
  rintro ⟨y, y0, y1, -⟩
  revert y; decide

/-- A set of nodes that can be put aside when `G` is compared with `H`: the same parents in both graphs, and all children in
both graphs belong to the set. -/
structure PutAside (V : Set α) (E F : α → α → Prop) (S : Set α) : Prop where
  sub : S ⊆ V
  parents : ∀ v ∈ S, ∀ u, E u v ↔ F u v
  left : ∀ v ∈ S, ∀ w, E v w → w ∈ S
  right : ∀ v ∈ S, ∀ w, F v w → w ∈ S

omit [DecidableEq α] in
theorem putAside_iff {G H : DAG α} (hG : G.Consistent) (hH : H.Consistent) (S : Finset α) :
    PutAside (G.nodes : Set α) G.E H.E (S : Set α) ↔ Resolved G H S := by
  constructor
  · intro h
    refine ⟨by exact_mod_cast h.sub, fun v hv => ?_, fun v hv w hw => ?_, fun v hv w hw => ?_⟩
    · ext u; rw [hG.parents_iff, hH.parents_iff]; exact h.parents v hv u
    · exact h.left v hv w ((hG.children_iff _ _).1 hw)
    · exact h.right v hv w ((hH.children_iff _ _).1 hw)
  · intro h
    refine ⟨by exact_mod_cast h.sub, fun v hv u => ?_, fun v hv w hw => ?_, fun v hv w hw => ?_⟩
    · have := h.parents v hv
      exact (hG.parents_iff u v).symm.trans ((by rw [this] : u ∈ G.parents v ↔ u ∈ H.parents v).trans (hH.parents_iff u v))
    · exact h.left v hv ((hG.children_iff _ _).2 hw)
    · exact h.right v hv ((hH.children_iff _ _).2 hw)

/-- C62. `d.resolved_sinks(other)` terminates and returns the largest set of nodes of `d` that have the same parents in both
graphs and all their children, in both graphs, in the set. -/
theorem C62_resolved_sinks (G H : DAG α) (hG : G.Valid) (hH : H.Consistent) :
    ∃ R, G.resolvedSinks H = some R ∧ PutAside (G.nodes : Set α) G.E H.E (R : Set α) ∧
      ∀ S : Set α, PutAside (G.nodes : Set α) G.E H.E S → S ⊆ (R : Set α) := by
  obtain ⟨R, h1, h2, h3⟩ := resolvedSinks_spec hG hH
  refine ⟨R, h1, (putAside_iff hG.toConsistent hH R).2 h2, fun S hS => ?_⟩
  classical
  have e : ((G.nodes.filter (· ∈ S) : Finset α) : Set α) = S := by
    ext x; simp only [Finset.coe_filter, Set.mem_ofPred_eq]
    exact ⟨fun h => h.2, fun h => ⟨hS.sub h, h⟩⟩
  rw [← e] at hS ⊢
  exact_mod_cast h3 _ ((putAside_iff hG.toConsistent hH _).1 hS)

/-- `0 → 1`, `0 → 2 ← 1` against `1 → 0`, `0 → 2 ← 1`: the node 2 is put aside, the others are not. -/
example : ∃ R, (Sample.graph (n := 3) {(0, 1), (0, 2), (1, 2)}).resolvedSinks
    (Sample.graph {(1, 0), (0, 2), (1, 2)}) = some R ∧ 2 ∈ R ∧ 1 ∉ R := by
  obtain ⟨R, h1, h2, h3⟩ := C62_resolved_sinks (Sample.graph (n := 3) {(0, 1), (0, 2), (1, 2)})
    (Sample.graph {(1, 0), (0, 2), (1, 2)}) (Sample.graph_valid (by decide)) (Sample.graph_consistent _)
  refine ⟨R, h1, ?_, fun h => ?_⟩
  · refine h3 {2} ⟨by simp [Sample.graph], ?_, ?_, ?_⟩ rfl
    · rintro v rfl; decide
    · rintro v rfl w hw; revert hw; revert w; decide
    · rintro v rfl w hw; revert hw; revert w; decide
  · have := h2.parents 1 h 0
    revert this; decide

end Props
