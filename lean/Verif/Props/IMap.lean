import Verif.Props.Sample
import Verif.Proof.IMap

/-! # C35, C36: I-maps -/

namespace Props

open Model Model.DAG Spec Relation
universe u
variable {α : Type u} [DecidableEq α]

/-- C35. `g.is_imap(h)` terminates and is `True` iff every separation statement that `dsep` affirms in `g` is affirmed
in `h`. -/
theorem C35_is_imap (w : ImapOracle α) (G H : DAG α) (hG : G.Valid) (hH : H.Valid) (o o' : SepOracle α) :
    ∃ r, isImap w G H = some r ∧
      (r = true ↔ ∀ A B C : Finset α, A ⊆ G.nodes → B ⊆ G.nodes → C ⊆ G.nodes →
        Disjoint A B → Disjoint A C → Disjoint B C →
        dsep G o A B C = some true → dsep H o' A B C = some true) := by
  obtain ⟨r, hr, hr'⟩ := isImap_spec w hG hH
  refine ⟨r, hr, hr'.trans ?_⟩
  have hd : ∀ {K : DAG α} (hK : K.Valid) (o : SepOracle α) (A B C : Finset α), Disjoint A C →
      (dsep K o A B C = some true ↔ DSep K.E (A : Set α) B C) := by
    intro K hK o A B C hAC
    obtain ⟨q, hq, hq'⟩ := dsep_decides hK o A B C hAC
    rw [hq, ← hq']; simp
  constructor
  · intro h A B C hA hB hC hAB hAC hBC hs
    rw [hd hG o A B C hAC] at hs
    rw [hd hH o' A B C hAC]
    exact h _ _ _ (by simpa using hA) (by simpa using hB) (by simpa using hC) (by simpa using hAB)
      (by simpa using hAC) (by simpa using hBC) hs
  · intro h A B C hA hB hC hAB hAC hBC hs
    have hf : ∀ {X : Set α}, X ⊆ (G.nodes : Set α) → ∃ X' : Finset α, (X' : Set α) = X :=
      fun {X} hX => by
        classical
        refine ⟨G.nodes.filter (· ∈ X), ?_⟩
        ext x; simp only [Finset.coe_filter, Set.mem_ofPred_eq]
        exact ⟨fun h => h.2, fun h => ⟨hX h, h⟩⟩
    obtain ⟨A, rfl⟩ := hf hA
    obtain ⟨B, rfl⟩ := hf hB
    obtain ⟨C, rfl⟩ := hf hC
    simp only [Finset.coe_subset, Finset.disjoint_coe] at *
    rw [← hd hH o' A B C hAC]
    exact h A B C hA hB hC hAB hAC hBC ((hd hG o A B C hAC).2 hs)

/-- Oracles for the examples. -/
noncomputable def Sample.imap {n : ℕ} : ImapOracle (Fin n) :=
  ⟨Sample.order, Sample.order, Sample.order, fun _ => Sample.sep, Sample.order, fun _ => Sample.sep⟩

/-- `0 → 1 → 2` and the same with the additional arc `0 → 2`. -/
def Sample.chain : DAG (Fin 3) := Sample.graph {(0, 1), (1, 2)}
def Sample.complete : DAG (Fin 3) := Sample.graph {(0, 1), (1, 2), (0, 2)}
theorem Sample.chain_valid : Sample.chain.Valid := Sample.graph_valid (by decide)
theorem Sample.complete_valid : Sample.complete.Valid := Sample.graph_valid (by decide)

theorem Sample.chain_sep : DSep Sample.chain.E {0} {2} {1} := by
  refine dsep_symm ?_
  have h := Spec.local_markov Sample.chain_valid.acyclic 2
  have hpa : ({p | Sample.chain.E p 2} : Set (Fin 3)) = {1} := by
    ext x; simp only [Set.mem_ofPred_eq, Set.mem_singleton_iff]; revert x; decide
  rw [hpa] at h
  refine dsep_mono subset_rfl ?_ h
  rintro x rfl
  refine ⟨by decide, ?_, by decide⟩
  intro hp
  have h1 : ∀ a b, Sample.chain.E a b → a < b := by decide
  have hlt : ∀ a b, Path Sample.chain.E a b → a < b := by
    intro a b hab
    induction hab with
    | single h => exact h1 _ _ h
    | tail _ h ih => exact lt_trans ih (h1 _ _ h)
  exact absurd (hlt _ _ hp) (by decide)

theorem Sample.complete_imap : isImap Sample.imap Sample.complete Sample.chain = some true := by
  obtain ⟨r, hr, h⟩ := isImap_spec Sample.imap Sample.complete_valid Sample.chain_valid
  rw [hr]; congr 1; rw [h]
  intro A B C _ _ _ hAB _ _ hs a ha b hb
  rw [dsep_iff] at hs
  have hab : a ≠ b := by rintro rfl; exact Set.disjoint_left.1 hAB ha hb
  refine absurd (dconn_adj ?_) (hs a ha b hb)
  unfold Adj
  clear hs ha hb hAB hr h
  revert a b; decide

/-- The chain is no I-map of the complete graph. -/
example : isImap Sample.imap Sample.chain Sample.complete = some false := by
  obtain ⟨r, hr, h⟩ := isImap_spec Sample.imap Sample.chain_valid Sample.complete_valid
  rw [hr]; congr 1; rw [← Bool.not_eq_true, h]
  intro hs
  have := hs {0} {2} {1} (by simp [Sample.chain, Sample.graph]) (by simp [Sample.chain, Sample.graph])
    (by simp [Sample.chain, Sample.graph]) (by simp) (by simp) (by simp) Sample.chain_sep
  rw [dsep_iff] at this
  exact this 0 rfl 2 rfl (dconn_adj (Or.inl (by decide)))

/-- C36. If `g` is an I-map of `h`, then `g.is_minimal_imap(h)` is `True` iff removing any arc of `g` gives a graph
that is no I-map of `h`; otherwise the certificate is an arc that can be removed. -/
theorem C36_is_minimal_imap (w w' : ImapOracle α) (check : Bool) (G H : DAG α) (hG : G.Valid) (hH : H.Valid)
    (hi : isImap w G H = some true) :
    ∃ r c, isMinimalImap w check G H = some (r, c) ∧
      (r = true ↔ ∀ i j G', (i, j) ∈ G.arcs → removeArc false G i j = (G', none) → isImap w' G' H = some false) ∧
      (r = false → ∃ i j G', c = some (i, j) ∧ (i, j) ∈ G.arcs ∧ removeArc false G i j = (G', none) ∧
        isImap w' G' H = some true) := by
  obtain ⟨q, hq, hq'⟩ := isImap_spec w hG hH
  have hsub : SubModel G.E H.E (G.nodes : Set α) := hq'.1 (by rw [hq] at hi; simpa using hi)
  obtain ⟨r, c, h1, h2, h3⟩ := isMinimalImap_spec w hG hH hsub check
  have hrem : ∀ i j, (i, j) ∈ G.arcs → ∃ G' b, removeArc false G i j = (G', none) ∧ isImap w' G' H = some b ∧
      (b = true ↔ SubModel (Without G.E i j) H.E (G.nodes : Set α)) := by
    intro i j hij
    obtain ⟨G', g1, g2, g3, g4⟩ := removeArc_without hG hij
    obtain ⟨b, hb, hb'⟩ := isImap_spec w' g2 hH
    rw [g4, g3] at hb'
    exact ⟨G', b, g1, hb, hb'⟩
  refine ⟨r, c, h1, h2.trans ⟨?_, ?_⟩, ?_⟩
  · intro h i j G' hij hG'
    obtain ⟨G'', b, g1, g2, g3⟩ := hrem i j hij
    rw [hG'] at g1; cases g1
    rw [g2]; congr 1
    rw [← Bool.not_eq_true, g3]; exact h i j hij
  · intro h i j hij
    obtain ⟨G', b, g1, g2, g3⟩ := hrem i j hij
    have := h i j G' hij g1
    rw [← g3]; rw [g2] at this; simpa using this
  · intro hr
    obtain ⟨i, j, hc, hij, hs⟩ := h3 hr
    obtain ⟨G', b, g1, g2, g3⟩ := hrem i j hij
    refine ⟨i, j, G', hc, hij, g1, ?_⟩
    rw [g2, g3.2 hs]

/-- The complete graph is an I-map of the chain, but not a minimal one. -/
example : ∃ c, isMinimalImap Sample.imap true Sample.complete Sample.chain = some (false, c) := by
  obtain ⟨t, ht⟩ := exists_linearExtension Sample.complete_valid
  obtain ⟨q, hq, hq'⟩ := isImap_spec Sample.imap Sample.complete_valid Sample.chain_valid
  have hsub : SubModel Sample.complete.E Sample.chain.E (Sample.complete.nodes : Set (Fin 3)) :=
    hq'.1 (by have := Sample.complete_imap; rw [hq] at this; simpa using this)
  obtain ⟨r, c, h1, h2, _⟩ := C36_is_minimal_imap Sample.imap Sample.imap true _ _ Sample.complete_valid
    Sample.chain_valid Sample.complete_imap
  refine ⟨c, ?_⟩
  rw [h1]; congr 2
  rw [← Bool.not_eq_true, h2]
  intro hall
  have h02 : ((0 : Fin 3), (2 : Fin 3)) ∈ Sample.complete.arcs := by decide
  obtain ⟨G', g1, g2, g3, g4⟩ := removeArc_without Sample.complete_valid h02
  have := hall 0 2 G' h02 g1
  obtain ⟨b, hb, hb'⟩ := isImap_spec Sample.imap g2 Sample.chain_valid
  have hb2 : b = true := by
    rw [hb', g4, g3, without_subModel Sample.complete_valid.acyclic Sample.chain_valid.acyclic ht
      (by intro i j _; simp [Sample.complete, Sample.graph]) hsub h02]
    have hpa : ({p | Sample.complete.E p 2 ∧ p ≠ 0} : Set (Fin 3)) = {1} := by
      ext x; simp only [Set.mem_ofPred_eq, Set.mem_singleton_iff]; revert x; decide
    rw [hpa]; exact Sample.chain_sep
  rw [hb, hb2] at this; simp at this

end Props
