import Verif.Props.Complete
import Verif.Proof.Metric

/-! # C27, C28: structural Hamming distances -/

namespace Props

open Model Spec
universe u
variable {α : Type u} [DecidableEq α]

/-- C27. `shd` counts the unordered pairs of nodes whose arc status (none, forward, backward) differs; it is symmetric, 0
iff the arc sets coincide, and satisfies the triangle inequality. `shd_skeleton` counts the pairs adjacent in one graph
only and is a pseudometric as well; it never exceeds `shd`. -/
theorem C27_shd (G H K : DAG α) (hG : G.Valid) (hH : H.Valid) (hK : K.Valid) :
    G.shd H = (pairsOf fun i j => ¬ ((G.E i j ↔ H.E i j) ∧ (G.E j i ↔ H.E j i))).ncard ∧
      G.shd H = H.shd G ∧ (G.shd H = 0 ↔ G.arcs = H.arcs) ∧ G.shd K ≤ G.shd H + H.shd K ∧
      G.shdSkeleton H = (pairsOf fun i j => ¬ (Adj G.E i j ↔ Adj H.E i j)).ncard ∧
      G.shdSkeleton H = H.shdSkeleton G ∧ (G.shdSkeleton H = 0 ↔ ∀ i j, Adj G.E i j ↔ Adj H.E i j) ∧
      G.shdSkeleton K ≤ G.shdSkeleton H + H.shdSkeleton K ∧ G.shdSkeleton H ≤ G.shd H := by
  have hd : ∀ {G H : DAG α}, Differ G.E DAG.noEdge H.E DAG.noEdge =
      fun i j => ¬ ((G.E i j ↔ H.E i j) ∧ (G.E j i ↔ H.E j i)) := by
    intro G H; funext i j; unfold Differ DAG.noEdge; simp
  have spec : ∀ {G H : DAG α}, G.Valid → H.Valid →
      (pairsOf fun i j => ¬ ((G.E i j ↔ H.E i j) ∧ (G.E j i ↔ H.E j i))).Finite ∧
      G.shd H = (pairsOf fun i j => ¬ ((G.E i j ↔ H.E i j) ∧ (G.E j i ↔ H.E j i))).ncard := by
    intro G H hG hH
    have := DAG.shd_spec hG hH
    rw [hd] at this; exact this
  have spec' : ∀ {G H : DAG α}, G.Valid → H.Valid →
      (pairsOf fun i j => ¬ (Adj G.E i j ↔ Adj H.E i j)).Finite ∧
      G.shdSkeleton H = (pairsOf fun i j => ¬ (Adj G.E i j ↔ Adj H.E i j)).ncard := fun hG hH =>
    symmDiff_spec (fun s hs => DAG.skeleton_pair hG hs) (fun s hs => DAG.skeleton_pair hH hs)
      (fun i j => DAG.mem_skeleton) (fun i j => DAG.mem_skeleton)
  obtain ⟨f1, s1⟩ := spec hG hH
  obtain ⟨f1', s1'⟩ := spec' hG hH
  refine ⟨s1, ?_, ?_, ?_, s1', ?_, ?_, ?_, ?_⟩
  · rw [s1, (spec hH hG).2]; congr 2; funext i j; exact propext (by tauto)
  · rw [s1, eq_of_ncard_zero f1]
    constructor
    · intro h
      ext ⟨i, j⟩
      by_cases hij : i = j
      · subst hij
        exact ⟨fun h' => absurd h' hG.acyclic.irrefl, fun h' => absurd h' hH.acyclic.irrefl⟩
      · exact (not_not.1 (h i j hij)).1
    · intro h i j _
      unfold DAG.E; rw [h]; simp
  · rw [s1, (spec hH hK).2, (spec hG hK).2]
    refine ncard_triangle f1 (spec hH hK).1 fun i j h => ?_
    by_contra hc; push Not at hc; exact h ⟨hc.1.1.trans hc.2.1, hc.1.2.trans hc.2.2⟩
  · rw [s1', (spec' hH hG).2]; congr 2; funext i j; exact propext (by tauto)
  · rw [s1', eq_of_ncard_zero f1']
    constructor
    · intro h i j
      by_cases hij : i = j
      · subst hij
        unfold Adj
        have h1 := hG.acyclic.irrefl (a := i)
        have h2 := hH.acyclic.irrefl (a := i)
        tauto
      · exact not_not.1 (h i j hij)
    · intro h i j _; rw [h]; simp
  · rw [s1', (spec' hH hK).2, (spec' hG hK).2]
    refine ncard_triangle f1' (spec' hH hK).1 fun i j h => ?_
    by_contra hc; push Not at hc; exact h (hc.1.trans hc.2)
  · rw [s1, s1']
    refine Set.ncard_le_ncard (pairsOf_mono fun i j h h' => h ?_) f1
    unfold Adj; rw [h'.1, h'.2]

example : Sample.right.shd Sample.left ≠ 0 ∧ Sample.right.shdSkeleton Sample.left = 0 := by
  obtain ⟨_, _, h, _, _, _, h', _⟩ := C27_shd Sample.right Sample.left Sample.left Sample.right_valid Sample.left_valid
    Sample.left_valid
  refine ⟨fun h0 => absurd (h.1 h0) (by decide), h'.2 ?_⟩
  unfold Adj; decide

/-- C28. For PDAGs whose pairs carry one mark, `shd` counts the unordered pairs with different status (none, forward,
backward, undirected), whatever the order in which frozensets are unpacked; it is symmetric, 0 iff arcs and edges
coincide, and satisfies the triangle inequality. `shd_skeleton` counts the pairs adjacent in one graph only. -/
theorem C28_pdag_shd (P Q R : PDAG α) (hP : P.Consistent) (hP' : P.Simple) (hQ : Q.Consistent) (hQ' : Q.Simple)
    (hR : R.Consistent) (hR' : R.Simple) (up up' : Unpack α) :
    P.shd up Q = (pairsOf fun i j => ¬ (((i, j) ∈ P.arcs ↔ (i, j) ∈ Q.arcs) ∧ ((j, i) ∈ P.arcs ↔ (j, i) ∈ Q.arcs) ∧
        ({i, j} ∈ P.edges ↔ {i, j} ∈ Q.edges))).ncard ∧
      P.shd up Q = Q.shd up' P ∧ (P.shd up Q = 0 ↔ P.arcs = Q.arcs ∧ P.edges = Q.edges) ∧
      P.shd up R ≤ P.shd up Q + Q.shd up R ∧
      P.shdSkeleton Q = (pairsOf fun i j => ¬ (P.hasEdgeOrArc i j = true ↔ Q.hasEdgeOrArc i j = true)).ncard ∧
      P.shdSkeleton Q ≤ P.shd up Q := by
  obtain ⟨f1, s1⟩ := PDAG.shd_spec hP hP' hQ hQ' up
  obtain ⟨f2, s2⟩ := PDAG.shd_spec hQ hQ' hR hR' up
  obtain ⟨_, s3⟩ := PDAG.shd_spec hP hP' hR hR' up
  obtain ⟨_, s4⟩ := PDAG.shd_spec hQ hQ' hP hP' up'
  have s5 : P.shdSkeleton Q =
      (pairsOf fun i j => ¬ (P.hasEdgeOrArc i j = true ↔ Q.hasEdgeOrArc i j = true)).ncard :=
    (symmDiff_spec (fun s hs => PDAG.skeleton_pair hP hP' hs) (fun s hs => PDAG.skeleton_pair hQ hQ' hs)
      (fun i j => PDAG.mem_skeleton) (fun i j => PDAG.mem_skeleton)).2
  refine ⟨s1, ?_, ?_, ?_, s5, ?_⟩
  · rw [s1, s4]; congr 2; funext i j; unfold Differ; exact propext (by tauto)
  · rw [s1, eq_of_ncard_zero f1]
    constructor
    · intro h
      have h' : ∀ i j, i ≠ j → ((i, j) ∈ P.arcs ↔ (i, j) ∈ Q.arcs) ∧ ({i, j} ∈ P.edges ↔ {i, j} ∈ Q.edges) := by
        intro i j hij
        have := not_not.1 (h i j hij)
        exact ⟨this.1, this.2.2⟩
      refine ⟨?_, ?_⟩
      · ext ⟨i, j⟩
        by_cases hij : i = j
        · subst hij
          exact ⟨fun h => absurd rfl (hP'.ne h), fun h => absurd rfl (hQ'.ne h)⟩
        · exact (h' i j hij).1
      · ext e
        constructor
        · intro he
          obtain ⟨i, j, hij, rfl⟩ := hP.edge_pair e he
          exact (h' i j hij).2.1 he
        · intro he
          obtain ⟨i, j, hij, rfl⟩ := hQ.edge_pair e he
          exact (h' i j hij).2.2 he
    · rintro ⟨h1, h2⟩ i j _
      unfold Differ PDAG.Arc PDAG.Edge; rw [h1, h2]; simp
  · rw [s1, s2, s3]
    refine ncard_triangle f1 f2 fun i j h => ?_
    unfold Differ at *
    by_contra hc; push Not at hc
    exact h ⟨hc.1.1.trans hc.2.1, hc.1.2.1.trans hc.2.2.1, hc.1.2.2.trans hc.2.2.2⟩
  · rw [s1, s5]
    refine Set.ncard_le_ncard (pairsOf_mono fun i j h h' => h ?_) f1
    rw [PDAG.adj_true, PDAG.adj_true]
    exact or_congr h'.1 (or_congr h'.2.1 h'.2.2)

example : Sample.partly.shd Sample.unpack Sample.partly = 0 :=
  (C28_pdag_shd Sample.partly Sample.partly Sample.partly Sample.partly_spec.1 Sample.partly_simple Sample.partly_spec.1
    Sample.partly_simple Sample.partly_spec.1 Sample.partly_simple Sample.unpack Sample.unpack).2.2.1.2 ⟨rfl, rfl⟩

end Props
