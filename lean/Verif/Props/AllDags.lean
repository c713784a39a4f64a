import Verif.Props.ToDag
import Verif.Proof.AllDags

/-! # C26, C68, C69: `all_dags`, extensions of the CPDAG, the way from DAG to CPDAG and back -/

namespace Props

open Model Model.DAG Spec
universe u
variable {α : Type u} [DecidableEq α]

/-- C68. A graph is a consistent extension of `d.cpdag()` iff it belongs to the Markov equivalence class of `d`. -/
theorem C68_cpdag_extensions (G : DAG α) (hG : G.Valid) (oa : SetOrder Unit (α × α)) (o : PDAG.OrientOracle α) :
    ∃ P, (G.cpdag oa o).run = some (.ok P) ∧
      ∀ F, Extends (fun i j => (i, j) ∈ P.arcs) (fun i j => {i, j} ∈ P.edges) F ↔ Equivalent G.E F := by
  obtain ⟨P, h1, _, _, _, h5, h6, _⟩ := C19_cpdag G hG oa o
  have hself : Equivalent G.E G.E := ⟨hG.acyclic, SameSkelV.refl _⟩
  refine ⟨P, h1, fun F => ⟨fun hF => ⟨hF.acyclic, ⟨?_, ?_⟩⟩, fun hF => ⟨hF.1, ?_, ?_, ?_⟩⟩⟩
  · intro a b
    rw [← h5, PDAG.adj_iff]; exact (hF.adj a b).symm
  · have hadj : ∀ a b, Adj G.E a b ↔ Adj F a b := by
      intro a b; rw [← h5, PDAG.adj_iff]; exact (hF.adj a b).symm
    intro a c b
    constructor
    · intro hv
      refine ⟨hv.1, hF.arcs _ _ ((h6 a c).2 fun K hK => ?_), hF.arcs _ _ ((h6 b c).2 fun K hK => ?_), ?_⟩
      · exact ((hK.2.vstr _ _ _).1 hv).2.1
      · exact ((hK.2.vstr _ _ _).1 hv).2.2.1
      · rw [← hadj]; exact hv.2.2.2
    · intro hv
      obtain ⟨k1, k2⟩ := hF.vstr a c b hv
      exact ⟨hv.1, (h6 a c).1 k1 _ hself, (h6 b c).1 k2 _ hself, by rw [hadj]; exact hv.2.2.2⟩
  · intro a b
    rw [← hF.2.skel, ← h5, PDAG.adj_iff]
  · intro a b hab; exact (h6 a b).1 hab F hF
  · intro a c b hv
    exact ⟨(h6 a c).2 fun K hK => ((hK.2.vstr _ _ _).1 ((hF.2.vstr _ _ _).2 hv)).2.1,
      (h6 b c).2 fun K hK => ((hK.2.vstr _ _ _).1 ((hF.2.vstr _ _ _).2 hv)).2.2.1⟩

example : ∃ P, (Sample.right.cpdag Sample.order ⟨Sample.order, Sample.order⟩).run = some (.ok P) ∧
    Extends (fun i j => (i, j) ∈ P.arcs) (fun i j => {i, j} ∈ P.edges) Sample.left.E := by
  obtain ⟨P, h1, h2⟩ := C68_cpdag_extensions Sample.right Sample.right_valid Sample.order ⟨Sample.order, Sample.order⟩
  exact ⟨P, h1, (h2 _).2 ⟨Sample.left_valid.acyclic, Sample.left_right⟩⟩

/-- C26. For the CPDAG `p` of a DAG `d`, `p.all_dags()` terminates without raising; every arc set in the result is acyclic
with the skeleton and the v-structures of `d` and contains all directed arcs of `p`; the arcs of `p.to_dag()` are among
the results. -/
theorem C26_all_dags (G : DAG α) (hG : G.Valid) (oa : SetOrder Unit (α × α)) (o : PDAG.OrientOracle α)
    (oo : PDAG.AllOracle α) :
    ∃ P r D, (G.cpdag oa o).run = some (.ok P) ∧ (P.allDags oo).run = some (.ok r) ∧
      (P.toDag oo.dag).run = some (.ok D) ∧ D.arcs ∈ r ∧
      ∀ A ∈ r, P.arcs ⊆ A ∧ Equivalent G.E fun i j => (i, j) ∈ A := by
  obtain ⟨P, h1, h2⟩ := C68_cpdag_extensions G hG oa o
  obtain ⟨P', h1', h3, h4, _⟩ := C19_cpdag G hG oa o
  rw [h1] at h1'
  obtain rfl : P = P' := by injection h1' with h1'; injection h1'
  obtain ⟨r, D, k1, k2, k3, k4⟩ := PDAG.allDags_spec oo h3 h4 ⟨_, (h2 _).2 ⟨hG.acyclic, SameSkelV.refl _⟩⟩
  exact ⟨P, r, D, h1, k1, k2, k3, fun A hA => ⟨fun a ha => (k4 A hA).1.arcs a.1 a.2 ha, (h2 _).1 (k4 A hA).1⟩⟩

example : ∃ P r, (Sample.right.cpdag Sample.order ⟨Sample.order, Sample.order⟩).run = some (.ok P) ∧
    (P.allDags ⟨Sample.dagOracle 3 Sample.unpack, Sample.order, fun _ => Sample.order⟩).run = some (.ok r) ∧
    r.Nonempty := by
  obtain ⟨P, r, D, h1, h2, _, h4, _⟩ := C26_all_dags Sample.right Sample.right_valid Sample.order
    ⟨Sample.order, Sample.order⟩ ⟨Sample.dagOracle 3 Sample.unpack, Sample.order, fun _ => Sample.order⟩
  exact ⟨P, r, h1, h2, _, h4⟩

/-- C69. `d.cpdag().to_dag()` is Markov equivalent to `d`, and its CPDAG has the arcs and edges of `d.cpdag()`. -/
theorem C69_cpdag_round_trip (G : DAG α) (hG : G.Valid) (oa oa' : SetOrder Unit (α × α)) (o o' : PDAG.OrientOracle α)
    (od : PDAG.DagOracle α) :
    ∃ P D Q, (G.cpdag oa o).run = some (.ok P) ∧ (P.toDag od).run = some (.ok D) ∧ D.Valid ∧
      (∀ v, v ∈ D.nodes ↔ v ∈ G.nodes ∧ ∃ w, Adj G.E v w) ∧ SameSkelV G.E D.E ∧
      (D.cpdag oa' o').run = some (.ok Q) ∧ Q.arcs = P.arcs ∧ Q.edges = P.edges := by
  obtain ⟨P, h1, h2⟩ := C68_cpdag_extensions G hG oa o
  obtain ⟨P', h1', h3, h4, h5, h6, h7, h8⟩ := C19_cpdag G hG oa o
  rw [h1] at h1'
  obtain rfl : P = P' := by injection h1' with h1'; injection h1'
  obtain ⟨D, d1, d2, d3, d4⟩ := C23_to_dag P h3 h4 od ⟨_, (h2 _).2 ⟨hG.acyclic, SameSkelV.refl _⟩⟩
  have hs := ((h2 _).1 d3).2
  have heq : ∀ F, Equivalent D.E F ↔ Equivalent G.E F := fun F =>
    ⟨fun h => ⟨h.1, hs.trans h.2⟩, fun h => ⟨h.1, hs.symm.trans h.2⟩⟩
  obtain ⟨Q, q1, q2, _, _, _, q6, q7⟩ := C19_cpdag D d2 oa' o'
  refine ⟨P, D, Q, h1, d1, d2, ?_, hs, q1, ?_, ?_⟩
  · intro v; rw [d4, h5]
    exact and_congr_right fun _ => exists_congr fun w => h6 v w
  · ext ⟨i, j⟩
    rw [q6, h7]
    exact forall_congr' fun F => by rw [heq]
  · have key : ∀ i j, {i, j} ∈ Q.edges ↔ {i, j} ∈ P.edges := by
      intro i j
      have e1 := q7 i j
      have e2 := h8 i j
      simp only [heq] at e1
      rw [← e2] at e1
      unfold PDAG.hasEdge at e1
      simpa only [decide_eq_true_eq] using e1
    ext e
    constructor
    · intro he
      obtain ⟨i, j, _, rfl⟩ := q2.edge_pair e he
      exact (key i j).1 he
    · intro he
      obtain ⟨i, j, _, rfl⟩ := h3.edge_pair e he
      exact (key i j).2 he

example : ∃ P D, (Sample.right.cpdag Sample.order ⟨Sample.order, Sample.order⟩).run = some (.ok P) ∧
    (P.toDag (Sample.dagOracle 3 Sample.unpack)).run = some (.ok D) ∧ Adj D.E 0 1 := by
  obtain ⟨P, D, _, h1, h2, _, _, h3, _⟩ := C69_cpdag_round_trip Sample.right Sample.right_valid Sample.order Sample.order
    ⟨Sample.order, Sample.order⟩ ⟨Sample.order, Sample.order⟩ (Sample.dagOracle 3 Sample.unpack)
  exact ⟨P, D, h1, h2, (h3.skel 0 1).1 (by unfold Adj; decide)⟩

end Props
