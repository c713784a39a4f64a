import Verif.Model.MecSize
import Verif.Props.AllDags
import Mathlib.Data.Fin.VecNotation
import Mathlib.Tactic.Zify

/-! # C59: `mec_size` -/

namespace Props

open Model Model.DAG Spec
universe u
variable {α : Type u} [DecidableEq α]

/-- The Markov equivalence class, as a set of arc sets. -/
def mec (E : α → α → Prop) : Set (Finset (α × α)) := {A | Equivalent E fun i j => (i, j) ∈ A}

theorem mec_finite {G : DAG α} (hG : G.Valid) : (mec G.E).Finite := by
  refine ((G.nodes ×ˢ G.nodes).powerset.finite_toSet).subset ?_
  intro A hA
  simp only [Finset.coe_powerset, Set.mem_preimage, Set.mem_powerset_iff]
  rintro ⟨i, j⟩ hij
  have : Adj G.E i j := (hA.2.skel i j).2 (Or.inl hij)
  rw [Finset.mem_coe, Finset.mem_product]
  rcases this with h | h
  · exact ⟨hG.fst_mem _ _ h, hG.snd_mem _ _ h⟩
  · exact ⟨hG.snd_mem _ _ h, hG.fst_mem _ _ h⟩

/-- C59 is violated: the triangle with one isolated node has `num_edges == nnodes - 1`, so `mec_size()` returns 4 for the
CPDAG of `0 → 1 → 2 ← 0`, whose equivalence class has more members. -/
theorem C59_violated (oa : SetOrder Unit (Fin 4 × Fin 4)) (o : PDAG.OrientOracle (Fin 4)) (oo : PDAG.AllOracle (Fin 4)) :
    ∃ G : DAG (Fin 4), G.Valid ∧ ∃ P n, (G.cpdag oa o).run = some (.ok P) ∧ P.mecSize oo = some (.ok n) ∧
      n < (mec G.E).ncard := by
  let tri : DAG (Fin 4) := Sample.graph {(0, 1), (1, 2), (0, 2)}
  have hG : tri.Valid := Sample.graph_valid (by decide)
  obtain ⟨P, h1, h2, h3, h4, h5, h6, h7⟩ := C19_cpdag tri hG oa o
  -- the members of the class
  let M : Finset (Finset (Fin 4 × Fin 4)) :=
    {{(0, 1), (1, 2), (0, 2)}, {(1, 0), (1, 2), (0, 2)}, {(0, 1), (2, 1), (0, 2)}, {(1, 0), (1, 2), (2, 0)},
      {(0, 1), (2, 1), (2, 0)}}
  have hM : ∀ A ∈ M, A ∈ mec tri.E := by
    have hskel : ∀ A ∈ M, (∀ a b, Adj tri.E a b ↔ Adj (fun i j => (i, j) ∈ A) a b) ∧
        ∀ a c b, VStruct tri.E a c b ↔ VStruct (fun i j => (i, j) ∈ A) a c b := by
      unfold VStruct Adj; decide
    have hrank : ∀ A ∈ M, ∃ f : Fin 4 → Fin 4, ∀ i j, (i, j) ∈ A → f i < f j := by
      intro A hA
      simp only [M, Finset.mem_insert, Finset.mem_singleton] at hA
      rcases hA with rfl | rfl | rfl | rfl | rfl
      · exact ⟨![0, 1, 2, 0], by decide⟩
      · exact ⟨![1, 0, 2, 0], by decide⟩
      · exact ⟨![0, 2, 1, 0], by decide⟩
      · exact ⟨![2, 0, 1, 0], by decide⟩
      · exact ⟨![1, 2, 0, 0], by decide⟩
    intro A hA
    refine ⟨?_, ⟨(hskel A hA).1, (hskel A hA).2⟩⟩
    obtain ⟨f, hf⟩ := hrank A hA
    intro v hv
    have : ∀ a b, Path (fun i j => (i, j) ∈ A) a b → f a < f b := by
      intro a b hab
      induction hab with
      | single h => exact hf _ _ h
      | tail _ h ih => exact ih.trans (hf _ _ h)
    exact lt_irrefl _ (this v v hv)
  have hcard : 5 ≤ (mec tri.E).ncard := by
    have : ((M : Set (Finset (Fin 4 × Fin 4)))).ncard = 5 := by
      rw [Set.ncard_coe_finset]; decide
    rw [← this]
    exact Set.ncard_le_ncard (fun A hA => hM A hA) (mec_finite hG)
  -- no arc is directed
  have harcs : P.arcs = ∅ := by
    rw [Finset.eq_empty_iff_forall_notMem]
    rintro ⟨i, j⟩ hij
    have hall := (h6 i j).1 hij
    have : ∀ A ∈ M, (i, j) ∈ A := fun A hA => hall _ (hM A hA)
    have k1 := this {(0, 1), (1, 2), (0, 2)} (by decide)
    have k2 := this {(1, 0), (1, 2), (2, 0)} (by decide)
    have k3 := this {(0, 1), (2, 1), (2, 0)} (by decide)
    clear this hall hij
    revert i j
    decide
  have hedges : P.edges = {{0, 1}, {1, 2}, {0, 2}} := by
    have he : ∀ i j, ({i, j} : Finset (Fin 4)) ∈ P.edges ↔ Adj tri.E i j := by
      intro i j
      rw [← h5 i j]
      unfold PDAG.hasEdgeOrArc PDAG.hasEdge
      rw [harcs]; simp
    ext e
    constructor
    · intro h
      obtain ⟨i, j, hij, rfl⟩ := h2.edge_pair e h
      have := (he i j).1 h
      unfold Adj at this
      clear h he
      revert this
      clear hij
      revert i j; decide
    · intro h
      have : ∃ i j : Fin 4, e = {i, j} ∧ Adj tri.E i j := by
        unfold Adj
        revert h
        simp only [Finset.mem_insert, Finset.mem_singleton]
        rintro (rfl | rfl | rfl)
        · exact ⟨0, 1, rfl, by decide⟩
        · exact ⟨1, 2, rfl, by decide⟩
        · exact ⟨0, 2, rfl, by decide⟩
      obtain ⟨i, j, rfl, hij⟩ := this
      exact (he i j).2 hij
  refine ⟨tri, hG, P, 4, h1, ?_, hcard⟩
  have hm : P.edges.card = 3 := by rw [hedges]; decide
  have hn : P.nodes.card = 4 := by rw [h4]; decide
  unfold PDAG.mecSize
  simp [harcs, hm, hn]

/-- What holds of C59: `mec_size()` terminates without raising, and unless one of the formulas for graphs without directed
arcs applies, it is at least one and at most the size of the class. Missing: equality (false in general, see
`C59_violated`). -/
theorem C59_mec_size_partial (G : DAG α) (hG : G.Valid) (oa : SetOrder Unit (α × α)) (o : PDAG.OrientOracle α)
    (oo : PDAG.AllOracle α) :
    ∃ P n, (G.cpdag oa o).run = some (.ok P) ∧ P.mecSize oo = some (.ok n) ∧
      (P.arcs.Nonempty ∨ (P.edges.card ≠ P.nodes.card ∧ P.edges.card + 1 ≠ P.nodes.card ∧
        2 * P.edges.card ≠ P.nodes.card * (P.nodes.card - 1)) → 1 ≤ n ∧ n ≤ (mec G.E).ncard) := by
  obtain ⟨P, r, D, h1, h2, h3, h4, h5⟩ := C26_all_dags G hG oa o oo
  have hvia : (P.allDags oo).run.map (fun r => r.map Finset.card) = some (.ok r.card) := by rw [h2]; rfl
  have hr : 1 ≤ r.card ∧ r.card ≤ (mec G.E).ncard := by
    refine ⟨Finset.card_pos.2 ⟨_, h4⟩, ?_⟩
    rw [← Set.ncard_coe_finset]
    exact Set.ncard_le_ncard (fun A hA => (h5 A hA).2) (mec_finite hG)
  have hsize : P.mecSize oo = if 0 < P.arcs.card then some (.ok r.card)
      else if P.edges.card = P.nodes.card then some (.ok (2 * P.nodes.card))
      else if (P.edges.card : ℤ) = P.nodes.card - 1 then some (.ok P.nodes.card)
      else if (2 * P.edges.card : ℤ) = P.nodes.card * (P.nodes.card - 1) then some (.ok P.nodes.card.factorial)
      else some (.ok r.card) := by
    unfold PDAG.mecSize
    dsimp only
    rw [hvia]
  by_cases ha : 0 < P.arcs.card
  · exact ⟨P, r.card, h1, by rw [hsize, if_pos ha], fun _ => hr⟩
  · have ha' : ¬ P.arcs.Nonempty := fun h => ha (Finset.card_pos.2 h)
    by_cases hm1 : P.edges.card = P.nodes.card
    · exact ⟨P, 2 * P.nodes.card, h1, by rw [hsize, if_neg ha, if_pos hm1], fun h => absurd hm1 (h.resolve_left ha').1⟩
    · by_cases hm2 : (P.edges.card : ℤ) = P.nodes.card - 1
      · exact ⟨P, P.nodes.card, h1, by rw [hsize, if_neg ha, if_neg hm1, if_pos hm2],
          fun h => absurd (by omega) (h.resolve_left ha').2.1⟩
      · by_cases hm3 : (2 * P.edges.card : ℤ) = P.nodes.card * (P.nodes.card - 1)
        · refine ⟨P, P.nodes.card.factorial, h1, by rw [hsize, if_neg ha, if_neg hm1, if_neg hm2, if_pos hm3],
            fun h => absurd ?_ (h.resolve_left ha').2.2⟩
          rcases Nat.eq_zero_or_pos P.nodes.card with h0 | h0
          · rw [h0] at hm3 ⊢; simp at hm3 ⊢; exact hm3
          · zify [h0]; exact hm3
        · exact ⟨P, r.card, h1, by rw [hsize, if_neg ha, if_neg hm1, if_neg hm2, if_neg hm3], fun _ => hr⟩

/-- The CPDAG of the collider `0 → 2 ← 1` has directed arcs. -/
example : ∃ P n, ((Sample.graph (n := 3) {(0, 2), (1, 2)}).cpdag Sample.order ⟨Sample.order, Sample.order⟩).run = some (.ok P) ∧
    P.mecSize ⟨Sample.dagOracle 3 Sample.unpack, Sample.order, fun _ => Sample.order⟩ = some (.ok n) ∧ 1 ≤ n := by
  have hv : (Sample.graph (n := 3) {(0, 2), (1, 2)}).Valid := Sample.graph_valid (by decide)
  obtain ⟨P, n, h1, h2, h3⟩ := C59_mec_size_partial _ hv Sample.order ⟨Sample.order, Sample.order⟩
    ⟨Sample.dagOracle 3 Sample.unpack, Sample.order, fun _ => Sample.order⟩
  obtain ⟨P', h1', _, _, _, _, h6, _⟩ := C19_cpdag _ hv Sample.order ⟨Sample.order, Sample.order⟩
  obtain rfl : P = P' := by rw [h1] at h1'; injection h1' with h1'; injection h1'
  refine ⟨P, n, h1, h2, (h3 (Or.inl ⟨(0, 2), (h6 0 2).2 ?_⟩)).1⟩
  intro F hF
  exact ((hF.2.vstr 0 2 1).1 (by unfold VStruct Adj; decide)).2.1

end Props
