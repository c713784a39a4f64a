import Verif.Props.AllDags
import Verif.Props.MecSize
import Verif.Proof.AllDagsForest
import Verif.Proof.AllDagsRun
import Verif.Proof.ToDagEvery

/-! # C240: does `all_dags` list the whole Markov equivalence class? -/

namespace Props

open Model Model.DAG Spec
universe u
variable {α : Type u} [DecidableEq α]

/-- C240, part. If no three undirected edges of `d.cpdag()` form a triangle, `d.cpdag().all_dags()` is the set of the arc
sets of all DAGs that are Markov equivalent to `d`. The full property drops the condition; it fails, see
`C240_violated`. -/
theorem C240_all_dags_partial (G : DAG α) (hG : G.Valid) (oa : SetOrder Unit (α × α)) (o : PDAG.OrientOracle α)
    (oo : PDAG.AllOracle α) :
    ∃ P r, (G.cpdag oa o).run = some (.ok P) ∧ (P.allDags oo).run = some (.ok r) ∧
      ((¬ ∃ a b c, {a, b} ∈ P.edges ∧ {b, c} ∈ P.edges ∧ {a, c} ∈ P.edges) →
        ∀ A, A ∈ r ↔ Equivalent G.E fun i j => (i, j) ∈ A) := by
  obtain ⟨P, r, D, h1, h2, h3, _, h5⟩ := C26_all_dags G hG oa o oo
  obtain ⟨P', h1', hs, _⟩ := PDAG.cpdag_shows hG oa o
  obtain rfl : P = P' := by rw [h1] at h1'; injection h1' with h1'; injection h1'
  refine ⟨P, r, h1, h2, fun hfree A => ⟨fun hA => (h5 A hA).2, fun hA => ?_⟩⟩
  obtain ⟨Q, q1, q2⟩ := C68_cpdag_extensions G hG oa o
  obtain rfl : P = Q := by rw [h1] at q1; injection q1 with q1; injection q1
  obtain ⟨D', d1, d2, d3, _⟩ := C23_to_dag P hs.cons hs.simp oo.dag ⟨_, (q2 _).2 ⟨hG.acyclic, SameSkelV.refl _⟩⟩
  obtain rfl : D = D' := by rw [h3] at d1; injection d1 with d1; injection d1
  have hD : SameSkelV G.E D.E := ((q2 _).1 d3).2
  have hac := hG.acyclic
  obtain ⟨r', k1, k2⟩ := PDAG.allDags_complete oo (U := Undec G.E fun _ _ => False) d2 h3 (by
      intro K hK hDK i j hij
      exact ((hs.arcs i j).1 hij).sound hac hK (hD.trans hDK) (fun _ _ h => h.elim)) ⟨d2.acyclic, by
      intro i j hij n1 n2
      rw [hs.arcs] at n1 n2
      exact undec_of_adj ((hD.skel i j).2 hij) n1 n2, fun i j h => h.symm, by
      intro i j k hij hik hjk
      refine undec_of_adj ((hD.skel j k).2 hjk) (fun hm => ?_) fun hm => ?_
      · exact hij.symm.not hac (meek_mixed hac cotrans_false hm i hik.symm)
      · exact hik.symm.not hac (meek_mixed hac cotrans_false hm i hij.symm), by
      intro i j k hij hik hjk
      exact hfree ⟨i, j, k, (hs.edges _ _).2 hij, (hs.edges _ _).2 hjk, (hs.edges _ _).2 hik⟩, by
      intro i j k hv hu
      exact hu.not hac (.vstr ((hD.vstr i j k).2 hv))⟩
  obtain rfl : r = r' := by rw [h2] at k1; injection k1 with k1; injection k1
  exact k2 A hA.1 (hD.symm.trans hA.2)

/-- The class of `0 → 1 → 2` contains `0 ← 1 ← 2`. -/
example : ∃ P r, (Sample.right.cpdag Sample.order ⟨Sample.order, Sample.order⟩).run = some (.ok P) ∧
    (P.allDags ⟨Sample.dagOracle 3 Sample.unpack, Sample.order, fun _ => Sample.order⟩).run = some (.ok r) ∧
    Sample.left.arcs ∈ r := by
  obtain ⟨P, r, h1, h2, h3⟩ := C240_all_dags_partial Sample.right Sample.right_valid Sample.order
    ⟨Sample.order, Sample.order⟩ ⟨Sample.dagOracle 3 Sample.unpack, Sample.order, fun _ => Sample.order⟩
  obtain ⟨P', h1', _, _, _, h5, _⟩ := C19_cpdag Sample.right Sample.right_valid Sample.order ⟨Sample.order, Sample.order⟩
  obtain rfl : P = P' := by rw [h1] at h1'; injection h1' with h1'; injection h1'
  refine ⟨P, r, h1, h2, (h3 ?_ _).2 ⟨Sample.left_valid.acyclic, Sample.left_right⟩⟩
  rintro ⟨a, b, c, k1, k2, k3⟩
  have hadj : ∀ {x y}, {x, y} ∈ P.edges → Adj Sample.right.E x y := fun h =>
    (h5 _ _).1 (PDAG.adj_true.2 (Or.inr (Or.inr h)))
  have hno : ∀ a b c, ¬ (Adj Sample.right.E a b ∧ Adj Sample.right.E b c ∧ Adj Sample.right.E a c) := by
    unfold Adj; decide
  exact hno a b c ⟨hadj k1, hadj k2, hadj k3⟩

/-- C59, part. If no three undirected edges form a triangle, `mec_size()` is the size of the class, unless one of the
formulas for graphs without directed arcs applies. -/
theorem C59_mec_size_triangle_free_partial (G : DAG α) (hG : G.Valid) (oa : SetOrder Unit (α × α))
    (o : PDAG.OrientOracle α) (oo : PDAG.AllOracle α) :
    ∃ P n, (G.cpdag oa o).run = some (.ok P) ∧ P.mecSize oo = some (.ok n) ∧
      ((¬ ∃ a b c, {a, b} ∈ P.edges ∧ {b, c} ∈ P.edges ∧ {a, c} ∈ P.edges) →
        P.arcs.Nonempty ∨ (P.edges.card ≠ P.nodes.card ∧ P.edges.card + 1 ≠ P.nodes.card ∧
          2 * P.edges.card ≠ P.nodes.card * (P.nodes.card - 1)) → n = (mec G.E).ncard) := by
  obtain ⟨P, r, h1, h2, h3⟩ := C240_all_dags_partial G hG oa o oo
  obtain ⟨P', n, h1', h4, _⟩ := C59_mec_size_partial G hG oa o oo
  obtain rfl : P = P' := by rw [h1] at h1'; injection h1' with h1'; injection h1'
  refine ⟨P, n, h1, h4, fun hfree hcase => ?_⟩
  have hr : (mec G.E).ncard = r.card := by
    rw [← Set.ncard_coe_finset]
    congr 1
    ext A; exact (h3 hfree A).symm
  have hvia : (P.allDags oo).run.map (fun r => r.map Finset.card) = some (.ok r.card) := by rw [h2]; rfl
  have hsize : P.mecSize oo = some (.ok r.card) := by
    unfold PDAG.mecSize
    dsimp only
    rw [hvia]
    by_cases ha : 0 < P.arcs.card
    · rw [if_pos ha]
    · obtain ⟨c1, c2, c3⟩ := hcase.resolve_left fun h => ha (Finset.card_pos.2 h)
      rw [if_neg ha, if_neg c1, if_neg (by omega), if_neg]
      intro h
      refine c3 ?_
      rcases Nat.eq_zero_or_pos P.nodes.card with h0 | h0
      · rw [h0] at h ⊢; simp at h ⊢; exact h
      · zify [h0]; exact h
  rw [hsize] at h4
  injection h4 with h4; injection h4 with h4
  rw [hr, h4]

/-- In the CPDAG of `0 → 2 ← 1` all arcs are directed, so `mec_size()` is the size of the class. -/
example : ∃ P n, ((Sample.graph (n := 3) {(0, 2), (1, 2)}).cpdag Sample.order ⟨Sample.order, Sample.order⟩).run =
      some (.ok P) ∧
    P.mecSize ⟨Sample.dagOracle 3 Sample.unpack, Sample.order, fun _ => Sample.order⟩ = some (.ok n) ∧
    n = (mec (Sample.graph (n := 3) {(0, 2), (1, 2)}).E).ncard := by
  have hv : (Sample.graph (n := 3) {(0, 2), (1, 2)}).Valid := Sample.graph_valid (by decide)
  obtain ⟨P, n, h1, h2, h3⟩ := C59_mec_size_triangle_free_partial _ hv Sample.order ⟨Sample.order, Sample.order⟩
    ⟨Sample.dagOracle 3 Sample.unpack, Sample.order, fun _ => Sample.order⟩
  obtain ⟨P', h1', _, _, _, h5, h6, _⟩ := C19_cpdag _ hv Sample.order ⟨Sample.order, Sample.order⟩
  obtain rfl : P = P' := by rw [h1] at h1'; injection h1' with h1'; injection h1'
  refine ⟨P, n, h1, h2, h3 ?_ (Or.inl ⟨(0, 2), (h6 0 2).2 ?_⟩)⟩
  · rintro ⟨a, b, c, k1, k2, k3⟩
    have hadj : ∀ {x y}, {x, y} ∈ P.edges → Adj (Sample.graph (n := 3) {(0, 2), (1, 2)}).E x y := fun h =>
      (h5 _ _).1 (PDAG.adj_true.2 (Or.inr (Or.inr h)))
    have hno : ∀ a b c, ¬ (Adj (Sample.graph (n := 3) {(0, 2), (1, 2)}).E a b ∧
        Adj (Sample.graph (n := 3) {(0, 2), (1, 2)}).E b c ∧ Adj (Sample.graph (n := 3) {(0, 2), (1, 2)}).E a c) := by
      unfold Adj; decide
    exact hno a b c ⟨hadj k1, hadj k2, hadj k3⟩
  · intro F hF
    exact ((hF.2.vstr 0 2 1).1 (by unfold VStruct Adj; decide)).2.1

namespace Diamonds

/-- Two copies of the triangles `0 - 1 - 2` and `1 - 2 - 3`, oriented from lower to higher numbers. -/
def two : DAG (Fin 8) :=
  Sample.graph {(0, 1), (0, 2), (1, 2), (1, 3), (2, 3), (4, 5), (4, 6), (5, 6), (5, 7), (6, 7)}

/-- An equivalent graph: the second copy has the order `6, 7, 5, 4`. -/
def missed : Finset (Fin 8 × Fin 8) :=
  {(0, 1), (0, 2), (1, 2), (1, 3), (2, 3), (5, 4), (6, 4), (6, 5), (6, 7), (7, 5)}

/-- The order in which the arcs are iterated. -/
def order : List (Fin 8 × Fin 8) :=
  [(6, 4), (5, 7), (2, 3), (5, 4), (6, 7), (4, 5), (2, 0), (2, 1), (6, 5), (0, 2), (1, 0), (1, 2), (1, 3), (7, 5), (3, 2),
    (4, 6), (5, 6), (3, 1), (0, 1), (7, 6)]

/-- The same order, followed by all pairs that never occur. -/
def full : List (Fin 8 × Fin 8) := order ++ (List.finRange 8 ×ˢ List.finRange 8).filter fun a => decide (a ∉ order)

theorem full_nodup : full.Nodup := by decide +kernel

theorem mem_full (a : Fin 8 × Fin 8) : a ∈ full := by
  unfold full
  rw [List.mem_append, List.mem_filter, decide_eq_true_eq]
  by_cases h : a ∈ order
  · exact Or.inl h
  · exact Or.inr ⟨by rw [List.mem_product]; simp, h⟩

def arcs : SetOrder ℕ (Fin 8 × Fin 8) :=
  ⟨fun _ s => full.filter fun a => decide (a ∈ s), fun _ _ => full_nodup.filter _, fun _ s a => by simp [mem_full]⟩

def down : List (Fin 8) := [7, 6, 5, 4, 3, 2, 1, 0]

def nodes : SetOrder ℕ (Fin 8) :=
  ⟨fun _ s => down.filter fun a => decide (a ∈ s), fun _ _ => List.Nodup.filter _ (by decide), fun _ s a => by
    have : a ∈ down := by revert a; decide
    simp [this]⟩

theorem two_valid : two.Valid := Sample.graph_valid (by decide)

theorem two_vstr : ∀ a c b, ¬ VStruct two.E a c b := by unfold VStruct Adj; decide +kernel

theorem missed_equivalent : Equivalent two.E fun i j => (i, j) ∈ missed := by
  refine ⟨?_, ?_, ?_⟩
  · let f : Fin 8 → ℕ := ![0, 1, 2, 3, 7, 6, 4, 5]
    have hf : ∀ i j, (i, j) ∈ missed → f i < f j := by decide +kernel
    intro v hv
    have : ∀ a b, Path (fun i j => (i, j) ∈ missed) a b → f a < f b := by
      intro a b hab
      induction hab with
      | single h => exact hf _ _ h
      | tail _ h ih => exact lt_trans ih (hf _ _ h)
    exact lt_irrefl _ (this v v hv)
  · unfold Adj; decide +kernel
  · intro a c b
    refine iff_of_false (two_vstr a c b) ?_
    revert a c b
    unfold VStruct Adj; decide +kernel

/-- All arcs reversed. -/
theorem turned_equivalent : Equivalent two.E fun i j => (j, i) ∈ two.arcs := by
  refine ⟨?_, fun a b => Or.comm, ?_⟩
  · intro v hv
    have : ∀ a b, Path (fun i j => (j, i) ∈ two.arcs) a b → b < a := by
      have h0 : ∀ i j, (i, j) ∈ two.arcs → i < j := by decide +kernel
      intro a b hab
      induction hab with
      | single h => exact h0 _ _ h
      | tail _ h ih => exact lt_trans (h0 _ _ h) ih
    exact lt_irrefl _ (this v v hv)
  · intro a c b
    refine iff_of_false (two_vstr a c b) ?_
    revert a c b
    unfold VStruct Adj; decide +kernel

theorem run : (AllDagsRun.floop order 152 [(36240315568884742, 70506183132162)] []).map
    (fun v => v.contains 2355400197301341190) = some false := by decide +kernel

end Diamonds

/-- C240 is violated. For the CPDAG of the two copies of the triangles `0 - 1 - 2` and `1 - 2 - 3`, which has no directed
arcs, there are fixed orders of the nodes and of the arcs such that, when sets are iterated in these orders, the result of
`all_dags()` lacks a DAG of the class. -/
theorem C240_violated : ∃ (G : DAG (Fin 8)) (nodes : SetOrder ℕ (Fin 8)) (arcs : SetOrder ℕ (Fin 8 × Fin 8)), G.Valid ∧
    (∃ l : List (Fin 8), ∀ n s, nodes.ord n s = l.filter fun v => decide (v ∈ s)) ∧
    (∃ l : List (Fin 8 × Fin 8), ∀ n s, arcs.ord n s = l.filter fun a => decide (a ∈ s)) ∧
    ∀ (oa : SetOrder Unit (Fin 8 × Fin 8)) (o : PDAG.OrientOracle (Fin 8)) (oo : PDAG.AllOracle (Fin 8)),
      oo.dag.nodes = nodes → oo.arcs = arcs →
      ∃ P r A, (G.cpdag oa o).run = some (.ok P) ∧ (P.allDags oo).run = some (.ok r) ∧
        (Equivalent G.E fun i j => (i, j) ∈ A) ∧ A ∉ r := by
  refine ⟨Diamonds.two, Diamonds.nodes, Diamonds.arcs, Diamonds.two_valid, ⟨_, fun _ _ => rfl⟩, ⟨_, fun _ _ => rfl⟩, ?_⟩
  intro oa o oo hnodes harcs
  obtain ⟨P, h1, h2⟩ := C68_cpdag_extensions Diamonds.two Diamonds.two_valid oa o
  obtain ⟨P', h1', c1, c2, _, _, c6, _⟩ := C19_cpdag Diamonds.two Diamonds.two_valid oa o
  obtain rfl : P = P' := by rw [h1] at h1'; injection h1' with h1'; injection h1'
  have hself : Equivalent Diamonds.two.E Diamonds.two.E := ⟨Diamonds.two_valid.acyclic, SameSkelV.refl _⟩
  have hP : P.arcs = ∅ := by
    rw [Finset.eq_empty_iff_forall_notMem]
    rintro ⟨i, j⟩ hij
    have := (c6 i j).1 hij
    exact Diamonds.two_valid.acyclic.asymm (this _ hself) (this _ Diamonds.turned_equivalent)
  -- `to_dag` returns the graph itself
  obtain ⟨D, d1, d2, d3⟩ := PDAG.toDag_every oo.dag c1 c2 ((h2 _).2 hself) (fun v => v.val) (by
      intro n s _
      rw [hnodes]
      refine List.Pairwise.filter _ ?_
      decide) (by
      have : ∀ i j : Fin 8, Diamonds.two.E i j → i.val < j.val := by decide +kernel
      exact fun a _ b _ h => this a b h)
  have hD : D.arcs = Diamonds.two.arcs := by ext ⟨i, j⟩; exact d3 i j
  have hDE : D.E = Diamonds.two.E := by funext i j; exact propext (d3 i j)
  have hrep : AllDagsRun.Rep Diamonds.two.E (36240315568884742, 70506183132162)
      ⟨D.arcs, D.reversibleArcs \ P.arcs, D.parents, D.children⟩ := by
    refine ⟨⟨d2.parents_iff, d2.children_iff, d2.acyclic, ?_, by rw [hP]; simp, ?_⟩, ?_, ?_, by decide⟩
    · show SameSkelV _ D.E
      rw [hDE]; exact SameSkelV.refl _
    · intro i j hij
      exact ⟨(mem_reversibleArcs d2).1 (Finset.mem_sdiff.1 hij).1, by simp⟩
    · show D.arcs = _
      rw [hD]; decide +kernel
    · show D.reversibleArcs \ P.arcs = _
      have h4 : D.reversibleArcs = Diamonds.two.reversibleArcs := by
        ext ⟨i, j⟩; rw [mem_reversibleArcs d2, mem_reversibleArcs Diamonds.two_valid, hDE]
      rw [hP, Finset.sdiff_empty, h4]; decide +kernel
  have hrun := Diamonds.run
  obtain ⟨v, v1, v2⟩ := Option.map_eq_some_iff.1 hrun
  obtain ⟨r, r1, r2⟩ := AllDagsRun.floop_spec (F := Diamonds.two.E) (L := Diamonds.order)
    (by unfold Adj; decide +kernel) oo (by
      intro n s hs
      rw [harcs]
      show Diamonds.full.filter (fun a => decide (a ∈ s)) = _
      unfold Diamonds.full
      rw [List.filter_append, List.append_right_eq_self]
      rw [List.filter_eq_nil_iff]
      intro a ha
      rw [decide_eq_true_eq]
      intro has
      exact (by simpa using (List.mem_filter.1 ha).2 : a ∉ Diamonds.order) (hs a has)) 152 0 _ [] v _ ∅ v1
    (List.Forall₂.cons hrep .nil) ⟨by simp, by simp⟩
  refine ⟨P, r, Diamonds.missed, h1, ?_, Diamonds.missed_equivalent, ?_⟩
  · unfold PDAG.allDags
    rw [ExceptT.run_bind, d1]
    rw [hP] at r1 ⊢
    exact r1
  · have : AllDagsRun.dec 2355400197301341190 = Diamonds.missed := by decide +kernel
    rw [← this, ← r2.contains (by decide), v2]
    simp

end Props
