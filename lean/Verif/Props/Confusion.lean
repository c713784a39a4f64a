import Verif.Props.CPDAG
import Verif.Proof.Confusion
import Verif.Spec.Compelled

/-! # C60: confusion matrices -/

namespace Props

open Model Model.DAG Spec Relation
universe u
variable {α : Type u} [DecidableEq α]

/-- C60 for `confusion_matrix_skeleton`: the four classes are the pairs of nodes adjacent in both graphs, only in the other,
only in this one, in none; the counts are the sizes of these classes; the rates have the documented denominators. -/
theorem C60_skeleton (G H : DAG α) (hG : G.Valid) (hH : H.Valid) (hn : G.nodes = H.nodes) :
    (∀ i j, {i, j} ∈ (G.confusionMatrixSkeleton H).tp ↔ Adj G.E i j ∧ Adj H.E i j) ∧
    (∀ i j, {i, j} ∈ (G.confusionMatrixSkeleton H).fp ↔ ¬ Adj G.E i j ∧ Adj H.E i j) ∧
    (∀ i j, {i, j} ∈ (G.confusionMatrixSkeleton H).fn ↔ Adj G.E i j ∧ ¬ Adj H.E i j) ∧
    (G.confusionMatrixSkeleton H).numTp = (pairsOf fun i j => Adj G.E i j ∧ Adj H.E i j).ncard ∧
    (G.confusionMatrixSkeleton H).numFp = (pairsOf fun i j => ¬ Adj G.E i j ∧ Adj H.E i j).ncard ∧
    (G.confusionMatrixSkeleton H).numFn = (pairsOf fun i j => Adj G.E i j ∧ ¬ Adj H.E i j).ncard ∧
    (G.confusionMatrixSkeleton H).numTn =
      (pairsOf fun i j => i ∈ G.nodes ∧ j ∈ G.nodes ∧ ¬ Adj G.E i j ∧ ¬ Adj H.E i j).ncard ∧
    ((G.confusionMatrixSkeleton H).numTp + (G.confusionMatrixSkeleton H).numFn ≠ 0 →
      (G.confusionMatrixSkeleton H).tpr * ((G.confusionMatrixSkeleton H).numTp + (G.confusionMatrixSkeleton H).numFn) =
        (G.confusionMatrixSkeleton H).numTp) ∧
    ((G.confusionMatrixSkeleton H).numFp + (G.confusionMatrixSkeleton H).numTn ≠ 0 →
      (G.confusionMatrixSkeleton H).fpr * ((G.confusionMatrixSkeleton H).numFp + (G.confusionMatrixSkeleton H).numTn) =
        (G.confusionMatrixSkeleton H).numFp) := by
  have t1 : ∀ i j, {i, j} ∈ (G.confusionMatrixSkeleton H).tp ↔ Adj G.E i j ∧ Adj H.E i j := fun i j => by
    change {i, j} ∈ G.skeleton ∩ H.skeleton ↔ _
    rw [Finset.mem_inter, mem_skeleton, mem_skeleton]
  have t2 : ∀ i j, {i, j} ∈ (G.confusionMatrixSkeleton H).fp ↔ ¬ Adj G.E i j ∧ Adj H.E i j := fun i j => by
    change {i, j} ∈ H.skeleton \ G.skeleton ↔ _
    rw [Finset.mem_sdiff, mem_skeleton, mem_skeleton, and_comm]
  have t3 : ∀ i j, {i, j} ∈ (G.confusionMatrixSkeleton H).fn ↔ Adj G.E i j ∧ ¬ Adj H.E i j := fun i j => by
    change {i, j} ∈ G.skeleton \ H.skeleton ↔ _
    rw [Finset.mem_sdiff, mem_skeleton, mem_skeleton]
  have hs := skeleton_sub hG
  have hs' := skeleton_sub hH
  rw [← hn] at hs'
  have tot : (G.confusionMatrixSkeleton H).numTn = ((G.nodes.powersetCard 2 \ (G.skeleton ∪ H.skeleton)).card : ℕ) :=
    (choose_sub hs hs').symm
  have pos : (G.confusionMatrixSkeleton H).numTp + (G.confusionMatrixSkeleton H).numFn = G.skeleton.card := by
    rw [add_comm]; exact Finset.card_sdiff_add_card_inter _ _
  have neg : ((G.confusionMatrixSkeleton H).numFp : ℤ) + (G.confusionMatrixSkeleton H).numTn =
      ((G.nodes.card.choose 2 : ℕ) : ℤ) - G.skeleton.card := by
    have e : (G.confusionMatrixSkeleton H).numTn = ((G.nodes.card.choose 2 : ℕ) : ℤ) -
      (G.confusionMatrixSkeleton H).numTp - (G.confusionMatrixSkeleton H).numFp - (G.confusionMatrixSkeleton H).numFn := rfl
    omega
  refine ⟨t1, t2, t3, card_eq_ncard (fun s h => skeleton_pair hG (Finset.mem_inter.1 h).1) fun i j _ => t1 i j,
    card_eq_ncard (fun s h => skeleton_pair hH (Finset.mem_sdiff.1 h).1) fun i j _ => t2 i j,
    card_eq_ncard (fun s h => skeleton_pair hG (Finset.mem_sdiff.1 h).1) fun i j _ => t3 i j, ?_, ?_, ?_⟩
  · rw [tot]
    congr 1
    refine card_eq_ncard (fun s h => pair_of_powersetCard (Finset.mem_sdiff.1 h).1) fun i j hij => ?_
    rw [Finset.mem_sdiff, mem_powersetCard_two hij, Finset.mem_union, mem_skeleton, mem_skeleton]
    tauto
  · intro h0
    have e : (G.confusionMatrixSkeleton H).tpr =
      ratio ((G.confusionMatrixSkeleton H).numTp : ℤ) (G.skeleton.card : ℤ) 1 := rfl
    rw [pos] at h0
    have h1 : (G.skeleton.card : ℚ) ≠ 0 := by exact_mod_cast h0
    have h2 : ((G.confusionMatrixSkeleton H).numTp : ℚ) + (G.confusionMatrixSkeleton H).numFn = G.skeleton.card := by
      exact_mod_cast pos
    rw [e, h2, ratio, if_pos (by exact_mod_cast h0)]
    push_cast
    exact div_mul_cancel₀ _ h1
  · intro h0
    have e : (G.confusionMatrixSkeleton H).fpr =
      ratio ((G.confusionMatrixSkeleton H).numFp : ℤ) (((G.nodes.card.choose 2 : ℕ) : ℤ) - G.skeleton.card) 0 := rfl
    rw [e, ← neg, ratio, if_pos h0]
    push_cast
    exact div_mul_cancel₀ _ (by exact_mod_cast h0)

/-- `0 → 1 ← 2` against `0 → 1`: one edge found, one missed, one pair rightly left out. -/
example : ((Sample.graph (n := 3) {(0, 1), (2, 1)}).confusionMatrixSkeleton (Sample.graph {(0, 1)})).numTn = 1 := by
  decide

/-- C60 for `confusion_matrix`, what the code does: it terminates without raising; the nine sets of arcs and edges are given
exactly by the compelled and undecided pairs of the two equivalence classes; if neither class has a compelled arc, the four
counts are those of the pairs of nodes adjacent in both graphs, only in the other, only in this one, in none. In general
`num_false_positives` counts the missed arcs (`fnArcs`) instead of the wrong ones (`fpArcs`): see `C60_violated`. -/
theorem C60_confusion_partial (G H : DAG α) (hG : G.Valid) (hH : H.Valid) (hn : G.nodes = H.nodes) (up : Unpack α)
    (oa oa' : SetOrder Unit (α × α)) (o o' : PDAG.OrientOracle α) :
    ∃ c, (G.confusionMatrix up oa oa' o o' H).run = some (.ok c) ∧
      (∀ i j, (i, j) ∈ c.fpArcs ↔ Compelled H.E i j ∧ ¬ Compelled G.E i j ∧ ¬ Undecided G.E i j) ∧
      (∀ i j, (i, j) ∈ c.fnArcs ↔ Compelled G.E i j ∧ ¬ Compelled H.E i j ∧ ¬ Undecided H.E i j) ∧
      (∀ i j, (i, j) ∈ c.tpArcs ↔ Compelled G.E i j ∧ Compelled H.E i j) ∧
      (∀ i j, (i, j) ∈ c.reversed ↔ Compelled G.E i j ∧ Compelled H.E j i) ∧
      (∀ i j, (i, j) ∈ c.arcsForEdges ↔ Compelled G.E i j ∧ Undecided H.E i j) ∧
      (∀ i j, {i, j} ∈ c.fpEdges ↔ Undecided H.E i j ∧ ¬ Adj G.E i j) ∧
      (∀ i j, {i, j} ∈ c.fnEdges ↔ Undecided G.E i j ∧ ¬ Adj H.E i j) ∧
      (∀ i j, {i, j} ∈ c.tpEdges ↔ Undecided G.E i j ∧ Undecided H.E i j) ∧
      (∀ i j, {i, j} ∈ c.edgesForArcs ↔ Undecided G.E i j ∧ (Compelled H.E i j ∨ Compelled H.E j i)) ∧
      ((∀ i j, ¬ Compelled G.E i j) → (∀ i j, ¬ Compelled H.E i j) →
        c.numTp = (pairsOf fun i j => Adj G.E i j ∧ Adj H.E i j).ncard ∧
        c.numFp = (pairsOf fun i j => ¬ Adj G.E i j ∧ Adj H.E i j).ncard ∧
        c.numFn = (pairsOf fun i j => Adj G.E i j ∧ ¬ Adj H.E i j).ncard ∧
        c.numTn = (pairsOf fun i j => i ∈ G.nodes ∧ j ∈ G.nodes ∧ ¬ Adj G.E i j ∧ ¬ Adj H.E i j).ncard) := by
  obtain ⟨P, p1, pc, ps, pn, padj, parc, pedge⟩ := C19_cpdag G hG oa o
  obtain ⟨Q, q1, qc, qs, qn, qadj, qarc, qedge⟩ := C19_cpdag H hH oa' o'
  simp only [PDAG.hasEdgeOrArc, PDAG.hasEdge, Bool.or_eq_true, decide_eq_true_eq] at padj pedge qadj qedge
  replace parc : ∀ i j, (i, j) ∈ P.arcs ↔ Compelled G.E i j := parc
  replace qarc : ∀ i j, (i, j) ∈ Q.arcs ↔ Compelled H.E i j := qarc
  replace pedge : ∀ i j, {i, j} ∈ P.edges ↔ Undecided G.E i j := pedge
  replace qedge : ∀ i j, {i, j} ∈ Q.edges ↔ Undecided H.E i j := qedge
  have pboth := fun i j => PDAG.mem_edgesAsArcs up pc (i := i) (j := j)
  have qboth := fun i j => PDAG.mem_edgesAsArcs up qc (i := i) (j := j)
  have swap : ∀ {R : PDAG α} {i j}, (i, j) ∈ R.arcs.image Prod.swap ↔ (j, i) ∈ R.arcs := by
    intro R i j
    rw [Finset.mem_image]
    constructor
    · rintro ⟨⟨a, b⟩, h, e⟩; obtain ⟨rfl, rfl⟩ := Prod.mk.inj e; exact h
    · intro h; exact ⟨_, h, rfl⟩
  have f1 : ∀ i j, {i, j} ∈ (Q.edges \ P.edges) \ P.arcs.image (fun a => ({a.1, a.2} : Finset α)) ↔
      Undecided H.E i j ∧ ¬ Adj G.E i j := fun i j => by
    rw [Finset.mem_sdiff, Finset.mem_sdiff, PDAG.mem_arcsAsEdges, qedge, ← padj]
    exact ⟨fun ⟨⟨x, y⟩, z⟩ => ⟨x, not_or.2 ⟨z, y⟩⟩, fun ⟨x, y⟩ => ⟨⟨x, (not_or.1 y).2⟩, (not_or.1 y).1⟩⟩
  have f2 : ∀ i j, {i, j} ∈ (P.edges \ Q.edges) \ Q.arcs.image (fun a => ({a.1, a.2} : Finset α)) ↔
      Undecided G.E i j ∧ ¬ Adj H.E i j := fun i j => by
    rw [Finset.mem_sdiff, Finset.mem_sdiff, PDAG.mem_arcsAsEdges, pedge, ← qadj]
    exact ⟨fun ⟨⟨x, y⟩, z⟩ => ⟨x, not_or.2 ⟨z, y⟩⟩, fun ⟨x, y⟩ => ⟨⟨x, (not_or.1 y).2⟩, (not_or.1 y).1⟩⟩
  have f3 : ∀ i j, {i, j} ∈ P.edges ∩ Q.edges ↔ Undecided G.E i j ∧ Undecided H.E i j := fun i j => by
    rw [Finset.mem_inter, pedge, qedge]
  have f4 : ∀ i j, {i, j} ∈ P.edges ∩ Q.arcs.image (fun a => ({a.1, a.2} : Finset α)) ↔
      Undecided G.E i j ∧ (Compelled H.E i j ∨ Compelled H.E j i) := fun i j => by
    rw [Finset.mem_inter, PDAG.mem_arcsAsEdges, pedge, qarc, qarc]
  refine ⟨confusionOf up G.nodes.card G.arcs.card P Q, ?_, fun i j => ?_, fun i j => ?_, fun i j => ?_, fun i j => ?_,
    fun i j => ?_, f1, f2, f3, f4, ?_⟩
  · simp [DAG.confusionMatrix, ExceptT.run_bind, p1, q1, Except.map]
  · change (i, j) ∈ ((Q.arcs \ P.arcs) \ P.edges.image up.fn) \ (P.edges.image up.fn).image Prod.swap ↔ _
    rw [Finset.mem_sdiff, Finset.mem_sdiff, Finset.mem_sdiff, ← parc, ← qarc, ← pedge, ← pboth, not_or, and_assoc, and_assoc]
  · change (i, j) ∈ ((P.arcs \ Q.arcs) \ Q.edges.image up.fn) \ (Q.edges.image up.fn).image Prod.swap ↔ _
    rw [Finset.mem_sdiff, Finset.mem_sdiff, Finset.mem_sdiff, ← parc, ← qarc, ← qedge, ← qboth, not_or, and_assoc, and_assoc]
  · change (i, j) ∈ P.arcs ∩ Q.arcs ↔ _
    rw [Finset.mem_inter, parc, qarc]
  · change (i, j) ∈ P.arcs ∩ Q.arcs.image Prod.swap ↔ _
    rw [Finset.mem_inter, parc, swap, qarc]
  · change (i, j) ∈ P.arcs ∩ (Q.edges.image up.fn ∪ (Q.edges.image up.fn).image Prod.swap) ↔ _
    rw [Finset.mem_inter, Finset.mem_union, qboth, parc, qedge]
  · intro hA hB
    have eP : P.arcs = ∅ := Finset.eq_empty_of_forall_notMem fun a ha => hA a.1 a.2 ((parc _ _).1 ha)
    have eQ : Q.arcs = ∅ := Finset.eq_empty_of_forall_notMem fun a ha => hB a.1 a.2 ((qarc _ _).1 ha)
    have uG : ∀ i j, Undecided G.E i j ↔ Adj G.E i j := fun i j => by rw [← padj, ← pedge, eP]; simp
    have uH : ∀ i j, Undecided H.E i j ↔ Adj H.E i j := fun i j => by rw [← qadj, ← qedge, eQ]; simp
    have sP : P.edges ⊆ G.nodes.powersetCard 2 := fun e he => by
      obtain ⟨i, j, hij, rfl⟩ := pc.edge_pair e he
      have := pc.edge_mem _ he
      rw [pn] at this
      rw [mem_powersetCard_two hij]
      exact ⟨this (by simp), this (by simp)⟩
    have sQ : Q.edges ⊆ G.nodes.powersetCard 2 := fun e he => by
      obtain ⟨i, j, hij, rfl⟩ := qc.edge_pair e he
      have := qc.edge_mem _ he
      rw [qn, ← hn] at this
      rw [mem_powersetCard_two hij]
      exact ⟨this (by simp), this (by simp)⟩
    have c1 : (confusionOf up G.nodes.card G.arcs.card P Q).numTp = (P.edges ∩ Q.edges).card := by
      simp [confusionOf, eP, eQ]
    have c2 : (confusionOf up G.nodes.card G.arcs.card P Q).numFp = (Q.edges \ P.edges).card := by
      simp [confusionOf, eP, eQ]
    have c3 : (confusionOf up G.nodes.card G.arcs.card P Q).numFn = (P.edges \ Q.edges).card := by
      simp [confusionOf, eP, eQ]
    have c4 : (confusionOf up G.nodes.card G.arcs.card P Q).numTn =
        ((G.nodes.powersetCard 2 \ (P.edges ∪ Q.edges)).card : ℕ) := by
      rw [choose_sub sP sQ, ← c1, ← c2, ← c3]
      simp only [confusionOf]
      ring
    rw [c1, c2, c3, c4]
    refine ⟨card_eq_ncard (fun s h => pc.edge_pair s (Finset.mem_inter.1 h).1) fun i j _ => ?_,
      card_eq_ncard (fun s h => qc.edge_pair s (Finset.mem_sdiff.1 h).1) fun i j _ => ?_,
      card_eq_ncard (fun s h => pc.edge_pair s (Finset.mem_sdiff.1 h).1) fun i j _ => ?_, ?_⟩
    · rw [f3, uG, uH]
    · rw [Finset.mem_sdiff, qedge, pedge, uG, uH, and_comm]
    · rw [Finset.mem_sdiff, qedge, pedge, uG, uH]
    · congr 1
      refine card_eq_ncard (fun s h => pair_of_powersetCard (Finset.mem_sdiff.1 h).1) fun i j hij => ?_
      rw [Finset.mem_sdiff, mem_powersetCard_two hij, Finset.mem_union, qedge, pedge, uG, uH, not_or, and_assoc]

/-- `0 → 1 → 2` as the truth, no arcs as the estimate: the edge `0 - 1` is a false negative. -/
example (up : Unpack (Fin 3)) : ∃ c, (Sample.right.confusionMatrix up Sample.order Sample.order
    ⟨Sample.order, Sample.order⟩ ⟨Sample.order, Sample.order⟩ (Sample.graph ∅)).run = some (.ok c) ∧ {0, 1} ∈ c.fnEdges := by
  obtain ⟨c, h, _, _, _, _, _, _, h1, _⟩ := C60_confusion_partial Sample.right (Sample.graph ∅) Sample.right_valid
    (Sample.graph_valid (by decide)) rfl up Sample.order Sample.order ⟨Sample.order, Sample.order⟩
    ⟨Sample.order, Sample.order⟩
  refine ⟨c, h, (h1 0 1).2 ⟨⟨⟨_, ⟨Sample.right_valid.acyclic, SameSkelV.refl _⟩, by decide⟩,
    _, ⟨Sample.left_valid.acyclic, Sample.left_right⟩, by decide⟩, by unfold Adj; decide⟩⟩

/-- C60 is violated: with `0 → 2 ← 1` as the truth and a graph without arcs as the estimate, `confusion_matrix` reports two
false positives (the estimate has no adjacency at all), two false negatives and minus one true negatives. -/
theorem C60_violated : ∃ G H : DAG (Fin 3), G.Valid ∧ H.Valid ∧ G.nodes = H.nodes ∧ H.arcs = ∅ ∧ ∀ up oa oa' o o',
    ∃ c, (G.confusionMatrix up oa oa' o o' H).run = some (.ok c) ∧ c.numFp = 2 ∧ c.numFn = 2 ∧ c.numTn = -1 := by
  have hG : (Sample.graph (n := 3) {(0, 2), (1, 2)}).Valid := Sample.graph_valid (by decide)
  have hH : (Sample.graph (n := 3) ∅).Valid := Sample.graph_valid (by decide)
  refine ⟨_, _, hG, hH, rfl, rfl, fun up oa oa' o o' => ?_⟩
  obtain ⟨P, p1, pc, ps, pn, padj, parc, pedge⟩ := C19_cpdag _ hG oa o
  obtain ⟨Q, q1, qc, qs, qn, qadj, qarc, qedge⟩ := C19_cpdag _ hH oa' o'
  have v : VStruct (Sample.graph (n := 3) {(0, 2), (1, 2)}).E 0 2 1 := by unfold VStruct Adj; decide
  have a1 : (0, 2) ∈ P.arcs := (parc 0 2).2 fun F hF => ((hF.2.vstr _ _ _).1 v).2.1
  have a2 : (1, 2) ∈ P.arcs := (parc 1 2).2 fun F hF => ((hF.2.vstr _ _ _).1 v).2.2.1
  have eP : P.arcs = {(0, 2), (1, 2)} := by
    ext ⟨i, j⟩
    constructor
    · intro h
      have : (Sample.graph (n := 3) {(0, 2), (1, 2)}).E i j := (parc i j).1 h _ ⟨hG.acyclic, SameSkelV.refl _⟩
      exact this
    · intro h
      simp only [Finset.mem_insert, Finset.mem_singleton, Prod.mk.injEq] at h
      rcases h with ⟨rfl, rfl⟩ | ⟨rfl, rfl⟩
      exacts [a1, a2]
  have eE : P.edges = ∅ := by
    refine Finset.eq_empty_of_forall_notMem fun e he => ?_
    obtain ⟨i, j, hij, rfl⟩ := pc.edge_pair e he
    have hadj := (padj i j).1 (by simp [PDAG.hasEdgeOrArc, PDAG.hasEdge, he])
    have hno := fun h => ps.no_edge i j h he
    have hno' := fun h => ps.no_edge j i h (by rw [Finset.pair_comm]; exact he)
    rw [eP] at hno hno'
    rcases hadj with h | h
    · exact hno h
    · exact hno' h
  have none : ∀ i j, ¬ (Sample.graph (n := 3) ∅).E i j := by decide
  have eQ : Q.arcs = ∅ := Finset.eq_empty_of_forall_notMem fun a ha =>
    none _ _ ((qarc a.1 a.2).1 ha _ ⟨hH.acyclic, SameSkelV.refl _⟩)
  have eF : Q.edges = ∅ := by
    refine Finset.eq_empty_of_forall_notMem fun e he => ?_
    obtain ⟨i, j, hij, rfl⟩ := qc.edge_pair e he
    exact ((qadj i j).1 (by simp [PDAG.hasEdgeOrArc, PDAG.hasEdge, he])).elim (none _ _) (none _ _)
  refine ⟨confusionOf up _ _ P Q, by simp [DAG.confusionMatrix, ExceptT.run_bind, p1, q1, Except.map]; rfl, ?_, ?_, ?_⟩
  · simp [confusionOf, eP, eQ, eE, eF]
  · simp [confusionOf, eP, eQ, eE, eF]
  · simp [confusionOf, eP, eQ, eE, eF, Sample.graph]

end Props
