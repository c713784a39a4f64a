import Verif.Props.Covered
import Verif.Proof.CPDAG

/-! # C18, C19, C20, C46, C65: completed partially directed graphs, Markov equivalence -/

namespace Props

open Model Model.DAG Spec Relation
universe u
variable {α : Type u} [DecidableEq α]

theorem nodes_of_valid {G : DAG α} (hG : G.Valid) : ∀ a b, G.E a b → a ∈ G.nodes ∧ b ∈ G.nodes :=
  fun a b h => ⟨hG.fst_mem a b h, hG.snd_mem a b h⟩

/-- C19. `cpdag()` terminates without raising; the result has the nodes of the graph, its views are consistent and no
pair carries two marks; `i → j` is directed iff every graph of the Markov equivalence class contains `i → j`; `i - j` is
undirected iff the class contains graphs with either orientation. Nothing depends on the iteration orders. -/
theorem C19_cpdag (G : DAG α) (hG : G.Valid) (oa : SetOrder Unit (α × α)) (o : PDAG.OrientOracle α) :
    ∃ P, (G.cpdag oa o).run = some (.ok P) ∧ P.Consistent ∧ P.Simple ∧ P.nodes = G.nodes ∧
      (∀ i j, P.hasEdgeOrArc i j = true ↔ Adj G.E i j) ∧
      (∀ i j, (i, j) ∈ P.arcs ↔ ∀ F, Equivalent G.E F → F i j) ∧
      (∀ i j, P.hasEdge i j = true ↔ (∃ F, Equivalent G.E F ∧ F i j) ∧ ∃ F, Equivalent G.E F ∧ F j i) := by
  obtain ⟨P, h1, h2, _⟩ := PDAG.cpdag_shows hG oa o
  have harc : ∀ i j, (i, j) ∈ P.arcs ↔ ∀ F, Equivalent G.E F → F i j := by
    intro i j
    rw [h2.arcs, meek_iff hG.acyclic cotrans_false (nodes_of_valid hG)]
    exact ⟨fun h F hF => h F hF.1 hF.2 fun _ _ hf => hf.elim, fun h F hF hs _ => h F ⟨hF, hs⟩⟩
  have hedge : ∀ i j, P.hasEdge i j = true ↔ (∃ F, Equivalent G.E F ∧ F i j) ∧ ∃ F, Equivalent G.E F ∧ F j i := by
    intro i j
    unfold PDAG.hasEdge
    rw [decide_eq_true_eq, h2.edges, PDAG.undec_iff_both hG.acyclic cotrans_false (nodes_of_valid hG)]
    constructor
    · rintro ⟨⟨F, f1, f2, _, f3⟩, K, k1, k2, _, k3⟩; exact ⟨⟨F, ⟨f1, f2⟩, f3⟩, K, ⟨k1, k2⟩, k3⟩
    · rintro ⟨⟨F, ⟨f1, f2⟩, f3⟩, K, ⟨k1, k2⟩, k3⟩
      exact ⟨⟨F, f1, f2, fun _ _ hf => hf.elim, f3⟩, K, k1, k2, fun _ _ hf => hf.elim, k3⟩
  refine ⟨P, h1, h2.cons, h2.simp, h2.nodes, ?_, harc, hedge⟩
  intro i j
  unfold PDAG.hasEdgeOrArc
  simp only [Bool.or_eq_true, decide_eq_true_eq]
  constructor
  · rintro ((h | h) | h)
    · exact Or.inl ((h2.arcs _ _).1 h).sub
    · exact Or.inr ((h2.arcs _ _).1 h).sub
    · obtain ⟨⟨F, hF, hf⟩, _⟩ := (hedge i j).1 h
      exact (hF.2.skel i j).2 (Or.inl hf)
  · intro h
    by_cases h3 : Meek G.E (fun _ _ => False) i j
    · exact Or.inl (Or.inl ((h2.arcs _ _).2 h3))
    · by_cases h4 : Meek G.E (fun _ _ => False) j i
      · exact Or.inl (Or.inr ((h2.arcs _ _).2 h4))
      · exact Or.inr (decide_eq_true ((h2.edges _ _).2 (undec_of_adj h h3 h4)))

/-- The class of `0 → 1 → 2` contains both orientations of `0 - 1`; the class of the diamond fixes `1 → 3`. -/
example : ∃ P, (Sample.right.cpdag Sample.order ⟨Sample.order, Sample.order⟩).run = some (.ok P) ∧
    P.hasEdge 0 1 = true := by
  obtain ⟨P, h1, _, _, _, _, _, h2⟩ := C19_cpdag Sample.right Sample.right_valid Sample.order ⟨Sample.order, Sample.order⟩
  refine ⟨P, h1, (h2 0 1).2 ⟨⟨_, ⟨Sample.right_valid.acyclic, SameSkelV.refl _⟩, by decide⟩, ?_⟩⟩
  exact ⟨_, ⟨Sample.left_valid.acyclic, Sample.left_right⟩, by decide⟩

example : ∃ P, (Sample.diamond.cpdag Sample.order ⟨Sample.order, Sample.order⟩).run = some (.ok P) ∧
    (1, 3) ∈ P.arcs := by
  obtain ⟨P, h1, _, _, _, _, h2, _⟩ :=
    C19_cpdag Sample.diamond Sample.diamond_valid Sample.order ⟨Sample.order, Sample.order⟩
  refine ⟨P, h1, (h2 1 3).2 fun F hF => ?_⟩
  have : VStruct Sample.diamond.E 1 3 2 := by unfold VStruct Adj; decide
  exact ((hF.2.vstr _ _ _).1 this).2.1

/-- C20. `d1.cpdag() == d2.cpdag()` iff the graphs have the same nodes, the same skeleton and the same v-structures. -/
theorem C20_cpdag_eq (G H : DAG α) (hG : G.Valid) (hH : H.Valid) (oa oa' : SetOrder Unit (α × α))
    (o o' : PDAG.OrientOracle α) :
    ∃ P Q, (G.cpdag oa o).run = some (.ok P) ∧ (H.cpdag oa' o').run = some (.ok Q) ∧
      (P.eq Q = true ↔ G.nodes = H.nodes ∧ SameSkelV G.E H.E) := by
  obtain ⟨P, h1, h2, _⟩ := PDAG.cpdag_shows hG oa o
  obtain ⟨Q, k1, k2, _⟩ := PDAG.cpdag_shows hH oa' o'
  refine ⟨P, Q, h1, k1, ?_⟩
  rw [PDAG.shows_eq cotrans_false hG hH h2 k2]
  simp

example : ∃ P Q, (Sample.right.cpdag Sample.order ⟨Sample.order, Sample.order⟩).run = some (.ok P) ∧
    (Sample.left.cpdag Sample.order ⟨Sample.order, Sample.order⟩).run = some (.ok Q) ∧ P.eq Q = true := by
  obtain ⟨P, Q, h1, h2, h3⟩ := C20_cpdag_eq Sample.right Sample.left Sample.right_valid Sample.left_valid
    Sample.order Sample.order ⟨Sample.order, Sample.order⟩ ⟨Sample.order, Sample.order⟩
  exact ⟨P, Q, h1, h2, h3.2 ⟨rfl, Sample.left_right⟩⟩

theorem markovEquivalent_spec (G H : DAG α) (hG : G.Valid) (hH : H.Valid) (oa oa' : SetOrder Unit (α × α))
    (o o' : PDAG.OrientOracle α) :
    ∃ r : Bool, (G.markovEquivalent oa oa' o o' H none).run = some (.ok ⟨r⟩) ∧
      (r = true ↔ G.nodes = H.nodes ∧ SameSkelV G.E H.E) := by
  obtain ⟨P, Q, h1, h2, h3⟩ := C20_cpdag_eq G H hG hH oa oa' o o'
  refine ⟨P.eq Q, ?_, h3⟩
  simp [DAG.markovEquivalent, ExceptT.run_bind, h1, h2, Except.map]

/-- C18. `markov_equivalent(other)` is `True` iff the graphs have the same nodes and `dsep` gives the same answers. -/
theorem C18_markov_equivalent (G H : DAG α) (hG : G.Valid) (hH : H.Valid) (oa oa' : SetOrder Unit (α × α))
    (o o' : PDAG.OrientOracle α) (w w' : SepOracle α) :
    ∃ r : Bool, (G.markovEquivalent oa oa' o o' H none).run = some (.ok ⟨r⟩) ∧
      (r = true ↔ G.nodes = H.nodes ∧ ∀ A B C : Finset α, A ⊆ G.nodes → B ⊆ G.nodes → C ⊆ G.nodes →
        Disjoint A B → Disjoint A C → Disjoint B C → dsep G w A B C = dsep H w' A B C) := by
  obtain ⟨r, h1, h2⟩ := markovEquivalent_spec G H hG hH oa oa' o o'
  refine ⟨r, h1, h2.trans (and_congr_right fun hn => ?_)⟩
  rw [sameSkelV_iff hG.acyclic hH.acyclic G.nodes (nodes_of_valid hG) (by rw [hn]; exact nodes_of_valid hH)]
  have hf : ∀ {X : Set α}, X ⊆ (G.nodes : Set α) → ∃ X' : Finset α, (X' : Set α) = X := fun {X} hX => by
    classical
    refine ⟨G.nodes.filter (· ∈ X), ?_⟩
    ext x; simp only [Finset.coe_filter, Set.mem_ofPred_eq]
    exact ⟨fun h => h.2, fun h => ⟨hX h, h⟩⟩
  constructor
  · rintro ⟨s1, s2⟩ A B C hA hB hC hAB hAC hBC
    obtain ⟨p, hp, hp'⟩ := dsep_decides hG w A B C hAC
    obtain ⟨q, hq, hq'⟩ := dsep_decides hH w' A B C hAC
    have : p = true ↔ q = true := by
      rw [hp', hq']
      exact ⟨s1 A B C (by simpa using hA) (by simpa using hB) (by simpa using hC) (by simpa using hAB)
          (by simpa using hAC) (by simpa using hBC),
        s2 A B C (by simpa using hA) (by simpa using hB) (by simpa using hC) (by simpa using hAB)
          (by simpa using hAC) (by simpa using hBC)⟩
    rw [hp, hq, Bool.eq_iff_iff.2 this]
  · intro h
    have key : ∀ A B C : Set α, A ⊆ (G.nodes : Set α) → B ⊆ (G.nodes : Set α) → C ⊆ (G.nodes : Set α) →
        Disjoint A B → Disjoint A C → Disjoint B C → (DSep G.E A B C ↔ DSep H.E A B C) := by
      intro A B C hA hB hC hAB hAC hBC
      obtain ⟨A, rfl⟩ := hf hA
      obtain ⟨B, rfl⟩ := hf hB
      obtain ⟨C, rfl⟩ := hf hC
      simp only [Finset.coe_subset, Finset.disjoint_coe] at hA hB hC hAB hAC hBC
      obtain ⟨p, hp, hp'⟩ := dsep_decides hG w A B C hAC
      obtain ⟨q, hq, hq'⟩ := dsep_decides hH w' A B C hAC
      have := h A B C hA hB hC hAB hAC hBC
      rw [hp, hq] at this
      rw [← hp', ← hq', Option.some.inj this]
    exact ⟨fun A B C hA hB hC hAB hAC hBC => (key A B C hA hB hC hAB hAC hBC).1,
      fun A B C hA hB hC hAB hAC hBC => (key A B C hA hB hC hAB hAC hBC).2⟩

example : (Sample.right.markovEquivalent Sample.order Sample.order ⟨Sample.order, Sample.order⟩
    ⟨Sample.order, Sample.order⟩ Sample.left none).run = some (.ok ⟨true⟩) := by
  obtain ⟨r, h1, h2⟩ := markovEquivalent_spec Sample.right Sample.left Sample.right_valid Sample.left_valid
    Sample.order Sample.order ⟨Sample.order, Sample.order⟩ ⟨Sample.order, Sample.order⟩
  rw [h1, h2.2 ⟨rfl, Sample.left_right⟩]

/-- C46. `d.interventional_cpdag(interventions, d.cpdag())` terminates without raising; the result has the nodes and the
skeleton of the graph; `i → j` is directed iff every Markov equivalent graph that orients the pairs with exactly one end
in a target as `d` does contains `i → j`; `i - j` is undirected iff such graphs exist with either orientation. -/
theorem C46_interventional_cpdag (G : DAG α) (hG : G.Valid) (oa : SetOrder Unit (α × α)) (o o' : PDAG.OrientOracle α)
    (iv : List (Finset α)) :
    ∃ c P, (G.cpdag oa o).run = some (.ok c) ∧ (G.interventionalCpdag oa o' iv c).run = some (.ok P) ∧
      P.Consistent ∧ P.Simple ∧ P.nodes = G.nodes ∧
      (∀ i j, (i, j) ∈ P.arcs ↔ ∀ F, EquivalentCut (targets iv) G.E F → F i j) ∧
      (∀ i j, P.hasEdge i j = true ↔
        (∃ F, EquivalentCut (targets iv) G.E F ∧ F i j) ∧ ∃ F, EquivalentCut (targets iv) G.E F ∧ F j i) ∧
      (∀ i j, P.hasEdgeOrArc i j = true ↔ Adj G.E i j) := by
  obtain ⟨c, c1, _, c2⟩ := PDAG.cpdag_shows hG oa o
  obtain ⟨P, h1, h2⟩ := PDAG.interventionalCpdag_shows hG oa o' iv c c2
  have hB := cutBy_cotrans (targets iv)
  have hedge : ∀ i j, P.hasEdge i j = true ↔
      (∃ F, EquivalentCut (targets iv) G.E F ∧ F i j) ∧ ∃ F, EquivalentCut (targets iv) G.E F ∧ F j i := by
    intro i j
    unfold PDAG.hasEdge
    rw [decide_eq_true_eq, h2.edges, PDAG.undec_iff_both hG.acyclic hB (nodes_of_valid hG)]
    constructor
    · rintro ⟨⟨F, f1, f2, f4, f3⟩, K, k1, k2, k4, k3⟩; exact ⟨⟨F, ⟨⟨f1, f2⟩, f4⟩, f3⟩, K, ⟨⟨k1, k2⟩, k4⟩, k3⟩
    · rintro ⟨⟨F, ⟨⟨f1, f2⟩, f4⟩, f3⟩, K, ⟨⟨k1, k2⟩, k4⟩, k3⟩; exact ⟨⟨F, f1, f2, f4, f3⟩, K, k1, k2, k4, k3⟩
  refine ⟨c, P, c1, h1, h2.cons, h2.simp, h2.nodes, ?_, hedge, ?_⟩
  · intro i j
    rw [h2.arcs, meek_iff hG.acyclic hB (nodes_of_valid hG)]
    exact ⟨fun h F hF => h F hF.1.1 hF.1.2 hF.2, fun h F hF hs hc => h F ⟨⟨hF, hs⟩, hc⟩⟩
  · intro i j
    unfold PDAG.hasEdgeOrArc
    simp only [Bool.or_eq_true, decide_eq_true_eq]
    constructor
    · rintro ((h | h) | h)
      · exact Or.inl ((h2.arcs _ _).1 h).sub
      · exact Or.inr ((h2.arcs _ _).1 h).sub
      · obtain ⟨⟨F, hF, hf⟩, _⟩ := (hedge i j).1 h
        exact (hF.1.2.skel i j).2 (Or.inl hf)
    · intro h
      by_cases h3 : Meek G.E (CutBy (targets iv)) i j
      · exact Or.inl (Or.inl ((h2.arcs _ _).2 h3))
      · by_cases h4 : Meek G.E (CutBy (targets iv)) j i
        · exact Or.inl (Or.inr ((h2.arcs _ _).2 h4))
        · exact Or.inr (decide_eq_true ((h2.edges _ _).2 (undec_of_adj h h3 h4)))

/-- Intervening on `2` fixes both arcs of `0 → 1 → 2`. -/
example : ∃ c P, (Sample.right.cpdag Sample.order ⟨Sample.order, Sample.order⟩).run = some (.ok c) ∧
    (Sample.right.interventionalCpdag Sample.order ⟨Sample.order, Sample.order⟩ [{0}] c).run = some (.ok P) ∧
    (0, 1) ∈ P.arcs := by
  obtain ⟨c, P, h1, h2, _, _, _, h3, _⟩ := C46_interventional_cpdag Sample.right Sample.right_valid Sample.order
    ⟨Sample.order, Sample.order⟩ ⟨Sample.order, Sample.order⟩ [{0}]
  refine ⟨c, P, h1, h2, (h3 0 1).2 fun F hF => (hF.2 0 1 ⟨{0}, ⟨{0}, by simp, by simp⟩, by simp⟩).1 (by decide)⟩

/-- C65. `markov_equivalent(other, interventions)` is `True` iff the graphs have the same nodes, skeleton and v-structures
and, for each target, removing the arcs into the target leaves the same skeleton. -/
theorem C65_interventional_equivalence (G H : DAG α) (hG : G.Valid) (hH : H.Valid) (oa oa' : SetOrder Unit (α × α))
    (o o' : PDAG.OrientOracle α) (iv : List (Finset α)) :
    ∃ r : Bool, (G.markovEquivalent oa oa' o o' H (some iv)).run = some (.ok ⟨r⟩) ∧
      (r = true ↔ G.nodes = H.nodes ∧ SameSkelV G.E H.E ∧
        ∀ I ∈ iv, ∀ a b, Adj (Mutilated G.E I) a b ↔ Adj (Mutilated H.E I) a b) := by
  obtain ⟨c, c1, _, c2⟩ := PDAG.cpdag_shows hG oa o
  obtain ⟨c', c1', _, c2'⟩ := PDAG.cpdag_shows hH oa' o'
  obtain ⟨P, h1, h2⟩ := PDAG.interventionalCpdag_shows hG oa o iv c c2
  obtain ⟨Q, k1, k2⟩ := PDAG.interventionalCpdag_shows hH oa' o' iv c' c2'
  refine ⟨P.eq Q, by simp [DAG.markovEquivalent, ExceptT.run_bind, c1, c1', h1, k1, Except.map], ?_⟩
  rw [PDAG.shows_eq (cutBy_cotrans _) hG hH h2 k2]
  refine and_congr_right fun _ => and_congr_right fun hs => ?_
  constructor
  · intro h I hI a b
    have key : ∀ {E F : α → α → Prop}, (∀ a b, Adj E a b ↔ Adj F a b) →
        (∀ i j, CutBy (targets iv) i j → (E i j ↔ F i j)) → ∀ {a b}, Mutilated E I a b → Adj (Mutilated F I) a b := by
      rintro E F hs h a b ⟨h3, h4⟩
      by_cases ha : a ∈ I
      · exact Or.inl ⟨(h a b ⟨I, ⟨I, hI, rfl⟩, by simp [ha, h4]⟩).1 h3, h4⟩
      · rcases (hs a b).1 (Or.inl h3) with h5 | h5
        · exact Or.inl ⟨h5, h4⟩
        · exact Or.inr ⟨h5, ha⟩
    have hs' := fun a b => (hs.skel a b).symm
    have h' := fun i j hij => (h i j hij).symm
    exact ⟨fun hh => hh.elim (key hs.skel h) fun hh => adj_symm (key hs.skel h hh),
      fun hh => hh.elim (key hs' h') fun hh => adj_symm (key hs' h' hh)⟩
  · rintro h i j ⟨_, ⟨I, hI, rfl⟩, hc⟩
    have key : ∀ {E F : α → α → Prop}, Acyclic E → Acyclic F → (∀ a b, Adj E a b ↔ Adj F a b) →
        (∀ a b, Adj (Mutilated E I) a b ↔ Adj (Mutilated F I) a b) → E i j → F i j := by
      intro E F hE hF hs hm hij
      rcases (hs i j).1 (Or.inl hij) with h3 | h3
      · exact h3
      · exfalso
        by_cases hj : j ∈ I
        · have hi : i ∉ I := fun hi => hc (by simp [hi, hj])
          rcases (hm i j).2 (Or.inr ⟨h3, hi⟩) with h5 | h5
          · exact h5.2 hj
          · exact hE.asymm hij h5.1
        · rcases (hm i j).1 (Or.inl ⟨hij, hj⟩) with h5 | h5
          · exact hF.asymm h3 h5.1
          · exact hc (by simp [hj, show i ∉ I from h5.2])
    exact ⟨key hG.acyclic hH.acyclic hs.skel (h I hI),
      key hH.acyclic hG.acyclic (fun a b => (hs.skel a b).symm) fun a b => (h I hI a b).symm⟩

/-- Intervening on `0` tells `0 → 1 → 2` from `2 → 1 → 0`. -/
example : (Sample.right.markovEquivalent Sample.order Sample.order ⟨Sample.order, Sample.order⟩
    ⟨Sample.order, Sample.order⟩ Sample.left (some [{0}])).run = some (.ok ⟨false⟩) := by
  obtain ⟨r, h1, h2⟩ := C65_interventional_equivalence Sample.right Sample.left Sample.right_valid Sample.left_valid
    Sample.order Sample.order ⟨Sample.order, Sample.order⟩ ⟨Sample.order, Sample.order⟩ [{0}]
  rw [h1]
  cases r
  · rfl
  · have := (h2.1 rfl).2.2 {0} (by simp) 0 1
    unfold Adj Mutilated at this
    revert this; decide

end Props
