import Verif.Props.Sample
import Verif.Proof.UG

/-! # C49, C70: `UndirectedGraph` -/

namespace Props

open Model Model.UG
universe u
variable {α : Type u} [DecidableEq α]

/-- Calls whose two endpoints are distinct. -/
def Distinct : UG α → UG.Op α → Prop
  | _, .addEdge i j => i ≠ j
  | _, .deleteEdge i j => i ≠ j
  | _, .deleteNode _ => True

/-- Calls with distinct endpoints; new edges only join nodes of the graph. -/
def Inside : UG α → UG.Op α → Prop
  | U, .addEdge i j => i ≠ j ∧ i ∈ U.nodes ∧ j ∈ U.nodes
  | _, .deleteEdge i j => i ≠ j
  | _, .deleteNode _ => True

theorem UG.exec_consistent {U : UG α} (hU : U.Consistent) (on : SetOrder Unit α) (op : UG.Op α) (h : Distinct U op) :
    (op.exec on U).1.Consistent := by
  cases op with
  | addEdge i j => exact (addEdge_spec hU h).1
  | deleteEdge i j =>
    simp only [UG.Op.exec]
    by_cases he : ({i, j} : Finset α) ∈ U.edges
    · obtain ⟨V, h1, h2, _⟩ := deleteEdge_ok hU he
      rw [h1]; exact h2
    · rw [deleteEdge_error he]; exact hU
  | deleteNode v =>
    simp only [UG.Op.exec]
    by_cases hv : v ∈ U.nodes
    · obtain ⟨V, h1, h2, _⟩ := deleteNode_ok hU on hv
      rw [h1]; exact h2
    · rw [deleteNode_error on hv]; exact hU

/-- C49 without its last clause. In every state reached from the constructor by calls on distinct endpoints, `has_edge` and
`neighbors_of` agree in both directions and degrees count the neighbors. Missing: every edge endpoint is a node
(false, see `C49_violated`). -/
theorem C49_views_partial (U : UG α) (hU : UG.Reachable Distinct U) :
    (∀ i j, U.hasEdge i j = true ↔ j ∈ U.neighbors i) ∧ (∀ i j, j ∈ U.neighbors i ↔ i ∈ U.neighbors j) ∧
      (∀ i, i ∉ U.neighbors i) ∧ ∀ i, U.degrees i = (U.neighbors i).card := by
  have hc : U.Consistent := by
    induction hU with
    | new oe ou nodes edges => exact (UG.new_spec oe ou nodes edges).1
    | call U on op _ hok ih => exact UG.exec_consistent ih on op hok
  refine ⟨fun i j => ?_, fun i j => ⟨hc.symm, hc.symm⟩, hc.irrefl, hc.degree⟩
  unfold UG.hasEdge
  rw [decide_eq_true_eq, hc.neighbors_iff]

/-- The last clause of C49 when `add_edge` is only called with nodes of the graph: every edge endpoint is a node. -/
theorem C49_nodes_partial (U : UG α) (hU : UG.Reachable Inside U) :
    ∀ i j, U.hasEdge i j = true → i ∈ U.nodes ∧ j ∈ U.nodes := by
  have hc : U.Consistent ∧ U.Closed := by
    induction hU with
    | new oe ou nodes edges => exact ⟨(UG.new_spec oe ou nodes edges).1, (UG.new_spec oe ou nodes edges).2.1⟩
    | call U on op _ hok ih =>
      refine ⟨UG.exec_consistent ih.1 on op (by cases op <;> first | exact hok.1 | exact hok), ?_⟩
      cases op with
      | addEdge i j =>
        obtain ⟨_, h2, h3⟩ := addEdge_spec ih.1 hok.1
        simp only [UG.Op.exec, UG.Closed]
        rw [h2, h3]
        intro e he
        rcases Finset.mem_insert.1 he with rfl | he
        · intro x hx
          simp only [Finset.mem_insert, Finset.mem_singleton] at hx
          rcases hx with rfl | rfl
          · exact hok.2.1
          · exact hok.2.2
        · exact ih.2 e he
      | deleteEdge i j =>
        simp only [UG.Op.exec]
        by_cases he : ({i, j} : Finset α) ∈ U.edges
        · obtain ⟨V, h1, _, h2, h3⟩ := deleteEdge_ok ih.1 he
          rw [h1]
          unfold UG.Closed
          dsimp only
          rw [h2, h3]
          exact fun e he => ih.2 e (Finset.mem_of_mem_erase he)
        · rw [deleteEdge_error he]; exact ih.2
      | deleteNode v =>
        simp only [UG.Op.exec]
        by_cases hv : v ∈ U.nodes
        · obtain ⟨V, h1, _, h2, h3⟩ := deleteNode_ok ih.1 on hv
          rw [h1]
          unfold UG.Closed
          dsimp only
          rw [h2]
          intro e he x hx
          rw [h3] at he
          rw [Finset.mem_erase]
          exact ⟨fun h => he.2 (h ▸ hx), ih.2 e he.1 hx⟩
        · rw [deleteNode_error on hv]; exact ih.2
  intro i j h
  unfold UG.hasEdge at h
  rw [decide_eq_true_eq] at h
  exact ⟨hc.2 _ h (by simp), hc.2 _ h (by simp)⟩

/-- C49 is violated: `UndirectedGraph().add_edge(1, 2)` has an edge but no nodes. -/
theorem C49_violated : ∃ U : UG ℕ, UG.Reachable Distinct U ∧ ∃ i j, U.hasEdge i j = true ∧ i ∉ U.nodes := by
  have hnew : UG.Reachable Distinct (UG.new (_root_.Sample.order) (_root_.Sample.order) (∅ : Finset ℕ) ∅) :=
    .new _ _ _ _
  refine ⟨_, UG.Reachable.call _ _root_.Sample.order (.addEdge 1 2) hnew (show (1 : ℕ) ≠ 2 by decide), 1, 2, ?_, ?_⟩
  · obtain ⟨_, _, h⟩ := addEdge_spec (UG.new_spec _root_.Sample.order _root_.Sample.order (∅ : Finset ℕ) ∅).1
      (show (1 : ℕ) ≠ 2 by decide)
    unfold UG.hasEdge UG.Op.exec
    rw [decide_eq_true_eq, h]
    exact Finset.mem_insert_self _ _
  · obtain ⟨_, h, _⟩ := addEdge_spec (UG.new_spec _root_.Sample.order _root_.Sample.order (∅ : Finset ℕ) ∅).1
      (show (1 : ℕ) ≠ 2 by decide)
    simp only [UG.Op.exec]
    rw [h, (UG.new_spec _root_.Sample.order _root_.Sample.order (∅ : Finset ℕ) ∅).2.2, new_edges]
    simp

/-- A history that meets the hypothesis of `C49_nodes_partial`: build `1 - 2`, delete node `2`. -/
example : UG.Reachable Inside
    (UG.Op.exec _root_.Sample.order (UG.new _root_.Sample.order _root_.Sample.order (∅ : Finset ℕ) {(1, 2)}) (.deleteNode 2)).1 :=
  .call _ _ (.deleteNode 2) (.new _ _ _ _) trivial

/-- C70. Effects. The constructor keeps exactly the given edges with distinct endpoints and adds their endpoints to the
nodes; `add_edge` adds exactly one edge; `delete_edge` removes exactly the edge, or raises `KeyError` and changes nothing
if it is absent; `delete_node` removes exactly the node and its edges, or raises `KeyError` and changes nothing. -/
theorem C70_undirected_effects :
    (∀ (oe : SetOrder Unit (Finset α)) (ou : SetOrder Unit α) (nodes : Finset α) (edges : Finset (α × α)),
      (∀ i j, (UG.new oe ou nodes edges).hasEdge i j = true ↔ i ≠ j ∧ ((i, j) ∈ edges ∨ (j, i) ∈ edges)) ∧
      ∀ v, v ∈ (UG.new oe ou nodes edges).nodes ↔
        v ∈ nodes ∨ ∃ w, w ≠ v ∧ ((v, w) ∈ edges ∨ (w, v) ∈ edges)) ∧
    ∀ U : UG α, U.Consistent →
      (∀ i j, i ≠ j → (U.addEdge i j).nodes = U.nodes ∧
        ∀ a b, (U.addEdge i j).hasEdge a b = true ↔ U.hasEdge a b = true ∨ (a = i ∧ b = j) ∨ (a = j ∧ b = i)) ∧
      (∀ i j, U.hasEdge i j = false → U.deleteEdge i j = (U, some .key)) ∧
      (∀ i j, U.hasEdge i j = true → ∃ V, U.deleteEdge i j = (V, none) ∧ V.nodes = U.nodes ∧
        ∀ a b, V.hasEdge a b = true ↔ U.hasEdge a b = true ∧ ¬ (a = i ∧ b = j) ∧ ¬ (a = j ∧ b = i)) ∧
      (∀ on v, v ∉ U.nodes → U.deleteNode on v = (U, some .key)) ∧
      ∀ on v, v ∈ U.nodes → ∃ V, U.deleteNode on v = (V, none) ∧ V.nodes = U.nodes.erase v ∧
        ∀ a b, V.hasEdge a b = true ↔ U.hasEdge a b = true ∧ a ≠ v ∧ b ≠ v := by
  refine ⟨fun oe ou nodes edges => ?_, fun U hU => ⟨?_, ?_, ?_, ?_, ?_⟩⟩
  · have hE : ∀ i j, ({i, j} : Finset α) ∈ (UG.new oe ou nodes edges).edges ↔ i ≠ j ∧ ((i, j) ∈ edges ∨ (j, i) ∈ edges) := by
      intro i j
      rw [new_edges, Finset.mem_image]
      constructor
      · rintro ⟨⟨a, b⟩, h, he⟩
        obtain ⟨h1, h2⟩ := Finset.mem_filter.1 h
        rcases UG.pair_eq.1 he with ⟨rfl, rfl⟩ | ⟨rfl, rfl⟩
        · exact ⟨h2, Or.inl h1⟩
        · exact ⟨fun h => h2 h.symm, Or.inr h1⟩
      · rintro ⟨h, h' | h'⟩
        · exact ⟨(i, j), Finset.mem_filter.2 ⟨h', h⟩, rfl⟩
        · exact ⟨(j, i), Finset.mem_filter.2 ⟨h', h.symm⟩, Finset.pair_comm _ _⟩
    obtain ⟨hc, -, hn⟩ := UG.new_spec oe ou nodes edges
    refine ⟨fun i j => by unfold UG.hasEdge; rw [decide_eq_true_eq, hE], fun v => ?_⟩
    rw [hn]
    refine or_congr Iff.rfl ⟨?_, ?_⟩
    · rintro ⟨e, he, hv⟩
      obtain ⟨i, j, hij, rfl⟩ := hc.edge_pair e he
      rw [hE] at he
      simp only [Finset.mem_insert, Finset.mem_singleton] at hv
      rcases hv with rfl | rfl
      · exact ⟨j, hij.symm, he.2⟩
      · exact ⟨i, hij, he.2.symm⟩
    · rintro ⟨w, hw, h⟩
      exact ⟨{v, w}, (hE _ _).2 ⟨hw.symm, h⟩, by simp⟩
  · intro i j hij
    obtain ⟨_, h2, h3⟩ := addEdge_spec hU hij
    refine ⟨h2, fun a b => ?_⟩
    unfold UG.hasEdge
    rw [h3, decide_eq_true_eq, decide_eq_true_eq, Finset.mem_insert, UG.pair_eq]
    tauto
  · intro i j h
    exact deleteEdge_error (by simpa [UG.hasEdge] using h)
  · intro i j h
    obtain ⟨V, h1, _, h2, h3⟩ := deleteEdge_ok hU (i := i) (j := j) (by simpa [UG.hasEdge] using h)
    refine ⟨V, h1, h2, fun a b => ?_⟩
    unfold UG.hasEdge
    rw [h3, decide_eq_true_eq, decide_eq_true_eq, Finset.mem_erase, Ne, UG.pair_eq]
    tauto
  · exact fun on v h => deleteNode_error on h
  · intro on v h
    obtain ⟨V, h1, _, h2, h3⟩ := deleteNode_ok hU on h
    refine ⟨V, h1, h2, fun a b => ?_⟩
    unfold UG.hasEdge
    rw [decide_eq_true_eq, decide_eq_true_eq, h3]
    simp only [Finset.mem_insert, Finset.mem_singleton, not_or]
    constructor
    · rintro ⟨h, h', h''⟩; exact ⟨h, fun h => h' h.symm, fun h => h'' h.symm⟩
    · rintro ⟨h, h', h''⟩; exact ⟨h, fun h => h' h.symm, fun h => h'' h.symm⟩

/-- The path `1 - 2 - 3` is a consistent object; deleting `2` leaves no edge. -/
example : ∃ V, (UG.new _root_.Sample.order _root_.Sample.order (∅ : Finset ℕ) {(1, 2), (3, 2)}).deleteNode _root_.Sample.order 2
    = (V, none) ∧ V.hasEdge 1 2 = false ∧ 3 ∈ V.nodes := by
  have h0 := (C70_undirected_effects (α := ℕ)).1 _root_.Sample.order _root_.Sample.order ∅ {(1, 2), (3, 2)}
  have hc := (UG.new_spec _root_.Sample.order _root_.Sample.order (∅ : Finset ℕ) {(1, 2), (3, 2)}).1
  obtain ⟨V, h1, h2, h3⟩ := ((C70_undirected_effects (α := ℕ)).2 _ hc).2.2.2.2 _root_.Sample.order 2
    ((h0.2 2).2 (Or.inr ⟨1, by decide, by decide⟩))
  refine ⟨V, h1, ?_, ?_⟩
  · rw [Bool.eq_false_iff]
    intro h
    exact ((h3 1 2).1 h).2.2 rfl
  · rw [h2, Finset.mem_erase]
    exact ⟨by decide, (h0.2 3).2 (Or.inr ⟨2, by decide, by decide⟩)⟩

end Props
