import Verif.Props.Complete
import Verif.Proof.ToDag

/-! # C23–C25: `to_dag` -/

namespace Props

open Model Spec
universe u
variable {α : Type u} [DecidableEq α]

/-- C23. If a PDAG whose pairs carry one mark has a consistent extension, `to_dag()` terminates without raising and
returns a consistent extension whose nodes are the non-isolated nodes, whatever sinks are picked. -/
theorem C23_to_dag (P : PDAG α) (hP : P.Consistent) (hS : P.Simple) (o : PDAG.DagOracle α)
    (hF : ∃ F, Extends (fun i j => (i, j) ∈ P.arcs) (fun i j => {i, j} ∈ P.edges) F) :
    ∃ G, (P.toDag o).run = some (.ok G) ∧ G.Valid ∧
      Extends (fun i j => (i, j) ∈ P.arcs) (fun i j => {i, j} ∈ P.edges) G.E ∧
      ∀ v, v ∈ G.nodes ↔ v ∈ P.nodes ∧ ∃ w, P.hasEdgeOrArc v w = true := by
  obtain ⟨G, h1, h2, h3, h4, h5⟩ := PDAG.toDag_spec o hP hS
  have hE := h5.resolve_right fun h => h.2 hF
  refine ⟨G, h1, h2, hE, fun v => ?_⟩
  rw [h3, Finset.mem_union, Finset.mem_image, Finset.mem_image]
  constructor
  · rintro (⟨⟨a, b⟩, hab, rfl⟩ | ⟨⟨a, b⟩, hab, rfl⟩)
    · have := h4 a b hab
      exact ⟨(PDAG.adj_nodes hP this).1, b, this⟩
    · have := h4 a b hab
      exact ⟨(PDAG.adj_nodes hP this).2, a, by rw [PDAG.hasEdgeOrArc_comm]; exact this⟩
  · rintro ⟨_, w, hw⟩
    rcases (hE.adj v w).2 (PDAG.adj_iff.1 hw) with h | h
    · exact Or.inl ⟨_, h, rfl⟩
    · exact Or.inr ⟨_, h, rfl⟩

namespace Sample

/-- Iteration orders over a finite type. -/
noncomputable def dagOracle (n : ℕ) (up : Unpack (Fin n)) : PDAG.DagOracle (Fin n) :=
  ⟨_root_.Sample.order, fun _ => _root_.Sample.order, _root_.Sample.order, _root_.Sample.order, up,
    _root_.Sample.order, _root_.Sample.order⟩

theorem partly_extends :
    Extends (fun i j => (i, j) ∈ partly.arcs) (fun i j => {i, j} ∈ partly.edges) right.E := by
  obtain ⟨_, ha, he⟩ := partly_spec
  rw [ha, he]
  refine ⟨right_valid.acyclic, ?_, ?_, ?_⟩
  · unfold Adj; decide
  · decide
  · unfold VStruct Adj; decide

end Sample

/-- The partly directed chain `0 → 1 - 2` is turned into a DAG in which `1` precedes `2`. -/
example : ∃ G, (Sample.partly.toDag (Sample.dagOracle 3 Sample.unpack)).run = some (.ok G) ∧ G.E 0 1 ∧ G.E 1 2 := by
  obtain ⟨hc, ha, he⟩ := Sample.partly_spec
  obtain ⟨G, h1, _, h3, _⟩ := C23_to_dag Sample.partly hc Sample.partly_simple
    (Sample.dagOracle 3 Sample.unpack) ⟨_, Sample.partly_extends⟩
  have h01 : G.E 0 1 := h3.arcs _ _ (by rw [ha]; simp)
  refine ⟨G, h1, h01, ?_⟩
  rcases (h3.adj 1 2).2 (by rw [ha, he]; unfold Adj; decide) with h | h
  · exact h
  · have h02 : ¬ Adj G.E 0 2 := by rw [h3.adj, ha, he]; unfold Adj; decide
    have := (h3.vstr 0 1 2 ⟨by decide, h01, h, h02⟩).2
    rw [ha] at this; exact absurd this (by decide)

/-- C24, what holds: the nodes of the result are nodes of the PDAG, and they are all of them if the PDAG has a
consistent extension and no isolated node. Missing: isolated nodes are lost (`C24_violated`). -/
theorem C24_to_dag_nodes_partial (P : PDAG α) (hP : P.Consistent) (hS : P.Simple) (o : PDAG.DagOracle α) :
    ∃ G, (P.toDag o).run = some (.ok G) ∧ G.nodes ⊆ P.nodes ∧
      ((∃ F, Extends (fun i j => (i, j) ∈ P.arcs) (fun i j => {i, j} ∈ P.edges) F) →
        (G.nodes = P.nodes ↔ ∀ v ∈ P.nodes, ∃ w, P.hasEdgeOrArc v w = true)) := by
  obtain ⟨G, h1, _, h3, h4, _⟩ := PDAG.toDag_spec o hP hS
  refine ⟨G, h1, ?_, ?_⟩
  · intro v hv
    rw [h3, Finset.mem_union, Finset.mem_image, Finset.mem_image] at hv
    rcases hv with ⟨⟨a, b⟩, hab, rfl⟩ | ⟨⟨a, b⟩, hab, rfl⟩
    · exact (PDAG.adj_nodes hP (h4 a b hab)).1
    · exact (PDAG.adj_nodes hP (h4 a b hab)).2
  · intro hF
    obtain ⟨G', g1, _, _, g4⟩ := C23_to_dag P hP hS o hF
    rw [h1] at g1
    obtain rfl : G = G' := by injection g1 with g1; injection g1
    constructor
    · intro h v hv; rw [← h] at hv; exact ((g4 v).1 hv).2
    · intro h; ext v; rw [g4]
      exact ⟨fun h' => h'.1, fun h' => ⟨h', h v h'⟩⟩

example : ∃ G, (Sample.partly.toDag (Sample.dagOracle 3 Sample.unpack)).run = some (.ok G) ∧
    G.nodes = Sample.partly.nodes := by
  obtain ⟨hc, ha, he⟩ := Sample.partly_spec
  obtain ⟨G, h1, _, h3⟩ := C24_to_dag_nodes_partial Sample.partly hc Sample.partly_simple
    (Sample.dagOracle 3 Sample.unpack)
  refine ⟨G, h1, (h3 ⟨_, Sample.partly_extends⟩).2 fun v _ => ?_⟩
  have key : ∀ v : Fin 3, ∃ w, (v, w) ∈ ({(0, 1)} : Finset (Fin 3 × Fin 3)) ∨
    (w, v) ∈ ({(0, 1)} : Finset (Fin 3 × Fin 3)) ∨ {v, w} ∈ ({{1, 2}} : Finset (Finset (Fin 3))) := by decide
  obtain ⟨w, hw⟩ := key v
  exact ⟨w, by rw [PDAG.adj_true, ha, he]; exact hw⟩

/-- C24 fails: for `0 → 1` with the isolated node `2` the result lacks node `2`, in every iteration order. -/
theorem C24_violated : ∃ P : PDAG (Fin 3), P.Consistent ∧ P.Simple ∧ 2 ∈ P.nodes ∧
    (∃ F, Extends (fun i j => (i, j) ∈ P.arcs) (fun i j => {i, j} ∈ P.edges) F) ∧
    ∀ o, ∃ G, (P.toDag o).run = some (.ok G) ∧ 2 ∉ G.nodes := by
  obtain ⟨h1, h2, h3, _, h5⟩ := PDAG.new_spec Sample.order Sample.order ({0, 1, 2} : Finset (Fin 3)) {(0, 1)} ∅ ∅ (by simp)
  rw [Finset.image_empty] at h3
  set P := PDAG.new Sample.order Sample.order ({0, 1, 2} : Finset (Fin 3)) {(0, 1)} ∅ ∅
  have hS : P.Simple := ⟨by rw [h2]; decide, by rw [h2, h3]; decide⟩
  have hF : ∃ F, Extends (fun i j => (i, j) ∈ P.arcs) (fun i j => {i, j} ∈ P.edges) F := by
    refine ⟨fun i j => (i, j) ∈ P.arcs, ?_, ?_, fun _ _ h => h, ?_⟩
    · exact Sample.acyclic_of_lt (by rw [h2]; decide)
    · rw [h2, h3]; unfold Adj; decide
    · rw [h2]; unfold VStruct Adj; decide
  refine ⟨P, h1, hS, (h5 2).2 (Or.inl (by simp)), hF, fun o => ?_⟩
  obtain ⟨G, g1, _, _, g4⟩ := C23_to_dag P h1 hS o hF
  refine ⟨G, g1, fun h => ?_⟩
  obtain ⟨w, hw⟩ := ((g4 2).1 h).2
  rw [PDAG.adj_true, h2, h3] at hw
  revert w; decide

/-- C25, what holds: `to_dag()` terminates without raising on every PDAG whose pairs carry one mark; the result is
acyclic and lies within the skeleton; it has all adjacencies of the PDAG iff the PDAG has a consistent extension.
So a caller can recognise failure by comparing skeletons. Missing: the code itself signals nothing
(`C25_violated`). -/
theorem C25_to_dag_failure_partial (P : PDAG α) (hP : P.Consistent) (hS : P.Simple) (o : PDAG.DagOracle α) :
    ∃ G, (P.toDag o).run = some (.ok G) ∧ G.Valid ∧ (∀ i j, Adj G.E i j → P.hasEdgeOrArc i j = true) ∧
      ((∀ i j, P.hasEdgeOrArc i j = true → Adj G.E i j) ↔
        ∃ F, Extends (fun i j => (i, j) ∈ P.arcs) (fun i j => {i, j} ∈ P.edges) F) := by
  obtain ⟨G, h1, h2, _, h4, h5⟩ := PDAG.toDag_spec o hP hS
  refine ⟨G, h1, h2, ?_, ?_⟩
  · rintro i j (h | h)
    · exact h4 _ _ h
    · rw [PDAG.hasEdgeOrArc_comm]; exact h4 _ _ h
  · constructor
    · intro h
      rcases h5 with h5 | ⟨⟨x, y, hxy, hn⟩, _⟩
      · exact ⟨_, h5⟩
      · exact absurd (h x y hxy) hn
    · intro hF i j hij
      exact ((h5.resolve_right fun h => h.2 hF).adj i j).2 (PDAG.adj_iff.1 hij)

example : ∃ G, (Sample.partly.toDag (Sample.dagOracle 3 Sample.unpack)).run = some (.ok G) ∧ Adj G.E 1 2 := by
  obtain ⟨hc, ha, he⟩ := Sample.partly_spec
  obtain ⟨G, h1, _, _, h3⟩ := C25_to_dag_failure_partial Sample.partly hc Sample.partly_simple
    (Sample.dagOracle 3 Sample.unpack)
  exact ⟨G, h1, h3.2 ⟨_, Sample.partly_extends⟩ 1 2 (by rw [PDAG.adj_true, ha, he]; decide)⟩

/-- C25 fails: `0 → 1 - 2 ← 3` has no consistent extension, yet `to_dag()` returns a DAG without signalling, and that
DAG lacks an adjacency. -/
theorem C25_violated : ∃ P : PDAG (Fin 4), P.Consistent ∧ P.Simple ∧
    (¬ ∃ F, Extends (fun i j => (i, j) ∈ P.arcs) (fun i j => {i, j} ∈ P.edges) F) ∧
    ∀ o, ∃ G, (P.toDag o).run = some (.ok G) ∧ ∃ i j, P.hasEdgeOrArc i j = true ∧ ¬ Adj G.E i j := by
  obtain ⟨h1, h2, h3, _⟩ := PDAG.new_spec Sample.order Sample.order ({0, 1, 2, 3} : Finset (Fin 4))
    {(0, 1), (3, 2)} {(1, 2)} ∅ (by decide)
  rw [show Finset.image _ {((1, 2) : Fin 4 × Fin 4)} = ({{1, 2}} : Finset (Finset (Fin 4))) by decide] at h3
  set P := PDAG.new Sample.order Sample.order ({0, 1, 2, 3} : Finset (Fin 4)) {(0, 1), (3, 2)} {(1, 2)} ∅
  have hS : P.Simple := ⟨by rw [h2]; decide, by rw [h2, h3]; decide⟩
  have hno : ¬ ∃ F, Extends (fun i j => (i, j) ∈ P.arcs) (fun i j => {i, j} ∈ P.edges) F := by
    rintro ⟨F, hF⟩
    rw [h2, h3] at hF
    have h01 : F 0 1 := hF.arcs _ _ (by decide)
    have h32 : F 3 2 := hF.arcs _ _ (by decide)
    rcases (hF.adj 1 2).2 (by unfold Adj; decide) with h | h
    · have := (hF.vstr 1 2 3 ⟨by decide, h, h32, by rw [hF.adj]; unfold Adj; decide⟩).1
      revert this; decide
    · have := (hF.vstr 0 1 2 ⟨by decide, h01, h, by rw [hF.adj]; unfold Adj; decide⟩).2
      revert this; decide
  refine ⟨P, h1, hS, hno, fun o => ?_⟩
  obtain ⟨G, g1, _, _, g4⟩ := C25_to_dag_failure_partial P h1 hS o
  refine ⟨G, g1, ?_⟩
  by_contra hc
  push Not at hc
  exact hno (g4.1 hc)

end Props
