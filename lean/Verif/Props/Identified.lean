import Verif.Proof.PossibleEffects
import Verif.Props.Experiments
import Verif.Props.GaussExperiments
import Verif.Props.PDAGRest
import Verif.Spec.Summary

/-! # What the essential graphs show is what distributions identify (property C247) -/

namespace Props

open Model Model.DAG Spec
open scoped NNReal

section General

variable {α : Type} [DecidableEq α] {G H : DAG α}

theorem markovEquivalent_cut (hG : G.Valid) (hH : H.Valid) (oa oa' : SetOrder Unit (α × α)) (o o' : PDAG.OrientOracle α) (iv : List (Finset α)) :
    ∃ r : Bool, (G.markovEquivalent oa oa' o o' H (some iv)).run = some (.ok ⟨r⟩) ∧
      (r = true ↔ G.nodes = H.nodes ∧ EquivalentCut (targets iv) G.E H.E) := by
  obtain ⟨c, c1, _, c2⟩ := PDAG.cpdag_shows hG oa o
  obtain ⟨c', c1', _, c2'⟩ := PDAG.cpdag_shows hH oa' o'
  obtain ⟨P, h1, h2⟩ := PDAG.interventionalCpdag_shows hG oa o iv c c2
  obtain ⟨Q, k1, k2⟩ := PDAG.interventionalCpdag_shows hH oa' o' iv c' c2'
  refine ⟨P.eq Q, by simp [DAG.markovEquivalent, ExceptT.run_bind, c1, c1', h1, k1, Except.map], ?_⟩
  rw [PDAG.shows_eq (cutBy_cotrans _) hG hH h2 k2]
  exact and_congr_right fun _ => ⟨fun h => ⟨⟨hH.acyclic, h.1⟩, h.2⟩, fun h => ⟨h.1.2, h.2⟩⟩

theorem dags_of_equivalent (hG : G.Valid) {T : Set (Set α)} {F : α → α → Prop} (hF : EquivalentCut T G.E F) :
    ∃ H : DAG α, H.Valid ∧ H.nodes = G.nodes ∧ H.E = F := by
  refine exists_dag hF.1.1 fun a b h => ?_
  rcases (hF.1.2.skel a b).2 (Or.inl h) with k | k
  · exact ⟨hG.fst_mem _ _ k, hG.snd_mem _ _ k⟩
  · exact ⟨hG.snd_mem _ _ k, hG.fst_mem _ _ k⟩

theorem summarises {T : Set (Set α)} (hG : G.Valid) {P : PDAG α} {Q : DAG α → Prop}
    (h1 : ∀ i j, (i, j) ∈ P.arcs ↔ ∀ F, EquivalentCut T G.E F → F i j)
    (h2 : ∀ i j, P.hasEdge i j = true ↔ (∃ F, EquivalentCut T G.E F ∧ F i j) ∧ ∃ F, EquivalentCut T G.E F ∧ F j i)
    (hQ : ∀ H : DAG α, H.Valid → H.nodes = G.nodes → (Q H ↔ EquivalentCut T G.E H.E)) : Summarises P G Q := by
  have ex : ∀ i j, (∃ F, EquivalentCut T G.E F ∧ F i j) ↔ ∃ H : DAG α, H.Valid ∧ H.nodes = G.nodes ∧ Q H ∧ (i, j) ∈ H.arcs := by
    intro i j
    constructor
    · rintro ⟨F, hF, hij⟩
      obtain ⟨H, k1, k2, rfl⟩ := dags_of_equivalent hG hF
      exact ⟨H, k1, k2, (hQ H k1 k2).2 hF, hij⟩
    · rintro ⟨H, k1, k2, k3, k4⟩
      exact ⟨H.E, (hQ H k1 k2).1 k3, k4⟩
  refine ⟨fun i j => (h1 i j).trans ⟨fun h H k1 k2 k3 => h _ ((hQ H k1 k2).1 k3), fun h F hF => ?_⟩, fun i j => ?_⟩
  · obtain ⟨H, k1, k2, rfl⟩ := dags_of_equivalent hG hF
    exact h H k1 k2 ((hQ H k1 k2).2 hF)
  · rw [h2, ex, ex]

end General

/-- C247, Gaussian distributions. An arc of `cpdag()` is in all graphs with the same Gaussian distributions, the ends of an edge are joined by
an arc in either direction in some such graphs. For `interventional_cpdag` the graphs have to explain the same distributions before and after
interventions, perfect or not. -/
theorem C247_gaussian {n : ℕ} {G : DAG ℕ} (perfect : Prop) (hG : G.Valid) (hn : G.nodes = Finset.range n) (oa : SetOrder Unit (ℕ × ℕ))
    (o o' : PDAG.OrientOracle ℕ) (iv : List (Finset ℕ)) :
    ∃ c P, (G.cpdag oa o).run = some (.ok c) ∧ (G.interventionalCpdag oa o' iv c).run = some (.ok P) ∧
      Summarises c G (fun H => ∀ (S : Matrix (Fin n) (Fin n) ℝ) (m : Fin n → ℝ), GaussOn G.E S m ↔ GaussOn H.E S m) ∧
      Summarises P G fun H => ∀ (S : Matrix (Fin n) (Fin n) ℝ) (m : Fin n → ℝ) (T : Fin iv.length → Matrix (Fin n) (Fin n) ℝ)
        (μ : Fin iv.length → Fin n → ℝ), GaussExplains perfect G.E (fun k => iv[k]) S m T μ ↔ GaussExplains perfect H.E (fun k => iv[k]) S m T μ := by
  obtain ⟨c, P, h1, h2, -, -, -, h3, h4, -⟩ := C46_interventional_cpdag G hG oa o o' iv
  obtain ⟨c', h1', -, -, -, -, h3', h4'⟩ := C19_cpdag G hG oa o
  obtain rfl : c' = c := by
    have := h1'.symm.trans h1
    simpa using this
  refine ⟨c', P, h1, h2, summarises (T := ∅) hG (fun i j => ?_) (fun i j => ?_) fun H hH hHn => ?_, summarises hG h3 h4 fun H hH hHn => ?_⟩
  · simp only [equivalentCut_empty]; exact h3' i j
  · simp only [equivalentCut_empty]; exact h4' i j
  · obtain ⟨r, k1, k2⟩ := C225_gaussian hG hH hn (hHn.trans hn) oa oa o o
    obtain ⟨r', k1', k2'⟩ := markovEquivalent_spec G H hG hH oa oa o o
    rw [k1] at k1'
    cases k1'
    rw [← k2, k2', and_iff_right hHn.symm, equivalentCut_empty]
    exact ⟨fun h => ⟨hH.acyclic, h⟩, fun h => h.2⟩
  · obtain ⟨r, k1, k2⟩ := C246_gaussian_interventional perfect hG hH hn (hHn.trans hn) oa oa o o iv
    obtain ⟨r', k1', k2'⟩ := markovEquivalent_cut hG hH oa oa o o iv
    rw [k1] at k1'
    cases k1'
    rw [← k2, k2', and_iff_right hHn.symm]

/-- C247, tables. The same for the distributions given by tables, without interventions, after interventions that change the tables of the
targets, and after perfect interventions. -/
theorem C247_tables {α : Type} [DecidableEq α] {G : DAG α} (hG : G.Valid) (oa : SetOrder Unit (α × α)) (o o' : PDAG.OrientOracle α)
    (iv : List (Finset α)) (hiv : ∀ I ∈ iv, I ⊆ G.nodes) :
    ∃ c P, (G.cpdag oa o).run = some (.ok c) ∧ (G.interventionalCpdag oa o' iv c).run = some (.ok P) ∧
      Summarises c G (fun H => ∀ (a : α → List ℤ) (p : List α → (α → ℕ) → ℝ≥0),
        (∃ D : DiscreteDAG α, D.dag = G ∧ D.alph = a ∧ D.Proper ∧ ∀ S x, D.pr S x = p S x) ↔
        ∃ D : DiscreteDAG α, D.dag = H ∧ D.alph = a ∧ D.Proper ∧ ∀ S x, D.pr S x = p S x) ∧
      Summarises P G (fun H => ∀ (a : α → List ℤ) (p : List α → (α → ℕ) → ℝ≥0) (q : Fin iv.length → List α → (α → ℕ) → ℝ≥0),
        Explains G (fun k => iv[k]) a p q ↔ Explains H (fun k => iv[k]) a p q) ∧
      Summarises P G fun H => ∀ (a : α → List ℤ) (p : List α → (α → ℕ) → ℝ≥0) (q : Fin iv.length → List α → (α → ℕ) → ℝ≥0),
        ExplainsPerfect G (fun k => iv[k]) a p q ↔ ExplainsPerfect H (fun k => iv[k]) a p q := by
  obtain ⟨c, P, h1, h2, -, -, -, h3, h4, -⟩ := C46_interventional_cpdag G hG oa o o' iv
  obtain ⟨c', h1', -, -, -, -, h3', h4'⟩ := C19_cpdag G hG oa o
  obtain rfl : c' = c := by
    have := h1'.symm.trans h1
    simpa using this
  refine ⟨c', P, h1, h2, summarises (T := ∅) hG (fun i j => ?_) (fun i j => ?_) fun H hH hHn => ?_, summarises hG h3 h4 fun H hH hHn => ?_,
    summarises hG h3 h4 fun H hH hHn => ?_⟩
  · simp only [equivalentCut_empty]; exact h3' i j
  · simp only [equivalentCut_empty]; exact h4' i j
  · obtain ⟨r, k1, k2⟩ := C229_markov_equivalent hG hH oa oa o o
    obtain ⟨r', k1', k2'⟩ := markovEquivalent_spec G H hG hH oa oa o o
    rw [k1] at k1'
    cases k1'
    rw [and_iff_right hHn] at k2
    rw [← k2, k2', and_iff_right hHn.symm, equivalentCut_empty]
    exact ⟨fun h => ⟨hH.acyclic, h⟩, fun h => h.2⟩
  · obtain ⟨r, k1, k2⟩ := C233_interventional hG hH oa oa o o iv hiv
    obtain ⟨r', k1', k2'⟩ := markovEquivalent_cut hG hH oa oa o o iv
    rw [k1] at k1'
    cases k1'
    rw [and_iff_right hHn] at k2
    rw [← k2, k2', and_iff_right hHn.symm]
  · obtain ⟨r, k1, k2⟩ := C234_perfect_interventions hG hH oa oa o o iv hiv
    obtain ⟨r', k1', k2'⟩ := markovEquivalent_cut hG hH oa oa o o iv
    rw [k1] at k1'
    cases k1'
    rw [and_iff_right hHn] at k2
    rw [← k2, k2', and_iff_right hHn.symm]

/-- The graph `0 → 1` and an intervention on `0`: the arc is identified by Gaussian distributions and by tables. -/
example : ∃ c P, ((Sample.natGraph (Finset.range 2) {(0, 1)}).cpdag Sample.order ⟨Sample.order, Sample.order⟩).run = some (.ok c) ∧
    ((Sample.natGraph (Finset.range 2) {(0, 1)}).interventionalCpdag Sample.order ⟨Sample.order, Sample.order⟩ [{0}] c).run = some (.ok P) ∧
    Summarises P (Sample.natGraph (Finset.range 2) {(0, 1)}) fun H => ∀ (S : Matrix (Fin 2) (Fin 2) ℝ) (m : Fin 2 → ℝ)
      (T : Fin [({0} : Finset ℕ)].length → Matrix (Fin 2) (Fin 2) ℝ) (μ : Fin [({0} : Finset ℕ)].length → Fin 2 → ℝ),
      GaussExplains True (Sample.natGraph (Finset.range 2) {(0, 1)}).E (fun k => [({0} : Finset ℕ)][k]) S m T μ ↔
        GaussExplains True H.E (fun k => [({0} : Finset ℕ)][k]) S m T μ := by
  obtain ⟨c, P, h1, h2, -, h3⟩ := C247_gaussian (n := 2) True (G := Sample.natGraph (Finset.range 2) {(0, 1)})
    (Sample.natGraph_valid (by decide)) rfl Sample.order ⟨Sample.order, Sample.order⟩ ⟨Sample.order, Sample.order⟩ [{0}]
  exact ⟨c, P, h1, h2, h3⟩

example := C247_tables (G := Sample.natGraph (Finset.range 2) {(0, 1)}) (Sample.natGraph_valid (by decide)) Sample.order
  ⟨Sample.order, Sample.order⟩ ⟨Sample.order, Sample.order⟩ [{0}, {1}] (by decide)

end Props
