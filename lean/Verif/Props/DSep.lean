import Verif.Props.Sample
import Verif.Proof.DSepFromGiven
import Verif.Proof.Invariant

/-! # C11 - C17, C33: d-separation -/

namespace Props

open Model Model.DAG Spec Relation
universe u
variable {α : Type u} [DecidableEq α]

/-- C11. `dsep` terminates and decides d-separation, for every pop order. -/
theorem C11_dsep (G : DAG α) (hG : G.Valid) (o : SepOracle α) (A B C : Finset α) (hAC : Disjoint A C) :
    ∃ r, dsep G o A B C = some r ∧ (r = true ↔ DSep G.E {a | a ∈ A} {b | b ∈ B} {c | c ∈ C}) :=
  dsep_decides hG o A B C hAC

/-- The collider of the diamond separates, conditioning on its child connects. -/
theorem diamond_dsep : dsep Sample.diamond Sample.sep {1} {2} {0} = some true ∧
    dsep Sample.diamond Sample.sep {1} {2} {0, 4} = some false := by
  constructor
  · obtain ⟨r, hr, h⟩ := C11_dsep Sample.diamond Sample.diamond_valid Sample.sep {1} {2} {0} (by decide)
    rw [hr]; congr 1; rw [h]
    -- by the local Markov property of node 1
    have := Spec.local_markov Sample.diamond_valid.acyclic 1
    rw [Spec.dsep_iff] at this ⊢
    intro a ha b hb hc
    simp at ha hb; subst ha; subst hb
    have hpa : ({p | Sample.diamond.E p 1} : Set (Fin 5)) = {c | c ∈ ({0} : Finset (Fin 5))} := by
      ext x; revert x; decide
    rw [hpa] at this
    refine this 1 rfl 2 ⟨by decide, ?_, by decide⟩ hc
    intro hp
    obtain ⟨c, hc1, hc2⟩ := TransGen.head'_iff.1 hp
    have : c = 3 := by clear hc2; revert hc1; revert c; decide
    subst this
    rcases ReflTransGen.cases_head hc2 with h | ⟨d, hd1, hd2⟩
    · exact absurd h (by decide)
    · have : d = 4 := by clear hd2; revert hd1; revert d; decide
      subst this
      rcases ReflTransGen.cases_head hd2 with h | ⟨d, hd1, hd2⟩
      · exact absurd h (by decide)
      · clear hd2; revert hd1; revert d; decide
  · obtain ⟨r, hr, h⟩ := C11_dsep Sample.diamond Sample.diamond_valid Sample.sep {1} {2} {0, 4} (by decide)
    rw [hr]; congr 1; rw [← Bool.not_eq_true, h, Spec.dsep_iff]
    intro hs
    refine hs 1 (by simp) 2 (by simp) (Spec.dconn_collider (c := 3) ?_ ?_ ⟨4, by simp, .single ?_⟩)
    · exact (by decide : Sample.diamond.E 1 3)
    · exact (by decide : Sample.diamond.E 2 3)
    · exact (by decide : Sample.diamond.E 3 4)

/-- C12. `dsep` is symmetric. -/
theorem C12_dsep_symm (G : DAG α) (hG : G.Valid) (o o' : SepOracle α) (A B C : Finset α)
    (hAC : Disjoint A C) (hBC : Disjoint B C) : dsep G o A B C = dsep G o' B A C := by
  obtain ⟨r, hr, h⟩ := dsep_decides hG o A B C hAC
  obtain ⟨r', hr', h'⟩ := dsep_decides hG o' B A C hBC
  rw [hr, hr']; congr 1
  rw [Bool.eq_iff_iff, h, h']
  exact ⟨Spec.dsep_symm, Spec.dsep_symm⟩

example : dsep Sample.diamond Sample.sep {1} {2, 3} {0, 4} = dsep Sample.diamond Sample.sep {2, 3} {1} {0, 4} :=
  C12_dsep_symm _ Sample.diamond_valid _ _ _ _ _ (by decide) (by decide)

private theorem dsep_true_iff {G : DAG α} (hG : G.Valid) (o : SepOracle α) {A B C : Finset α}
    (hAC : Disjoint A C) : dsep G o A B C = some true ↔ DSep G.E (A : Set α) B C := by
  obtain ⟨r, hr, h⟩ := dsep_decides hG o A B C hAC
  rw [hr, Option.some.injEq, h]

/-- C13. Decomposition, weak union, contraction, intersection and composition. -/
theorem C13_graphoid (G : DAG α) (hG : G.Valid) (o : SepOracle α) (A B C D : Finset α)
    (hAB : Disjoint A B) (hAC : Disjoint A C) (hAD : Disjoint A D) :
    (dsep G o A (B ∪ D) C = some true → dsep G o A B C = some true) ∧
    (dsep G o A (B ∪ D) C = some true → dsep G o A B (C ∪ D) = some true) ∧
    (dsep G o A B (C ∪ D) = some true → dsep G o A D C = some true → dsep G o A (B ∪ D) C = some true) ∧
    (dsep G o A B (C ∪ D) = some true → dsep G o A D (C ∪ B) = some true →
      dsep G o A (B ∪ D) C = some true) ∧
    (dsep G o A B C = some true → dsep G o A D C = some true → dsep G o A (B ∪ D) C = some true) := by
  have hACD : Disjoint A (C ∪ D) := Finset.disjoint_union_right.2 ⟨hAC, hAD⟩
  have hACB : Disjoint A (C ∪ B) := Finset.disjoint_union_right.2 ⟨hAC, hAB⟩
  have sAB : Disjoint (A : Set α) B := by exact_mod_cast hAB
  have sAC : Disjoint (A : Set α) C := by exact_mod_cast hAC
  have sAD : Disjoint (A : Set α) D := by exact_mod_cast hAD
  rw [dsep_true_iff hG o hAC, dsep_true_iff hG o hAC, dsep_true_iff hG o hACD, dsep_true_iff hG o hAC,
    dsep_true_iff hG o hACB]
  push_cast
  refine ⟨fun h a ha b hb => h a ha b (Or.inl hb), Spec.dsep_weak_union hG.acyclic sAC sAD,
    Spec.dsep_contraction sAC sAD, Spec.dsep_intersection sAC sAB sAD, ?_⟩
  rintro h1 h2 a ha b (hb | hb)
  · exact h1 a ha b hb
  · exact h2 a ha b hb

example (h : dsep Sample.diamond Sample.sep {0} {3, 4} {1, 2} = some true) :
    dsep Sample.diamond Sample.sep {0} {3} ({1, 2} ∪ {4}) = some true :=
  (C13_graphoid Sample.diamond Sample.diamond_valid Sample.sep {0} {3} {1, 2} {4}
    (by decide) (by decide) (by decide)).2.1 h

/-- C14. `dsep_from_given(A, C)` terminates and returns exactly the nodes outside `A` and `C` for which `dsep` says
`True`. -/
theorem C14_dsep_from_given (G : DAG α) (hG : G.Valid) (o o' : SepOracle α) (A C : Finset α)
    (hAC : Disjoint A C) :
    ∃ s, dsepFromGiven G o A C = some s ∧
      ∀ x, x ∈ s ↔ x ∈ G.nodes ∧ x ∉ A ∧ x ∉ C ∧ dsep G o' A {x} C = some true := by
  obtain ⟨s, hs, h⟩ := dsepFromGiven_spec hG o A C hAC
  refine ⟨s, hs, fun x => ?_⟩
  rw [h, dsep_true_iff hG o' hAC]; simp

example : ∃ s, dsepFromGiven Sample.diamond Sample.sep {1} {0} = some s :=
  (C14_dsep_from_given Sample.diamond Sample.diamond_valid Sample.sep Sample.sep {1} {0} (by decide)).imp
    fun _ h => h.1

/-- C15. `local_markov_statements()` lists, for each node once, the node, its remaining non-descendants and its
parents, and `dsep` confirms each statement. -/
theorem C15_local_markov (G : DAG α) (hG : G.Valid) (on : SetOrder Unit α) (o : SetOrder (α × Finset α) α)
    (os : SepOracle α) :
    ∃ l, localMarkovStatements G on o = some l ∧ (l.map Prod.fst).Nodup ∧
      (∀ v, v ∈ l.map Prod.fst ↔ v ∈ G.nodes) ∧
      ∀ v N P, (v, N, P) ∈ l →
        (∀ x, x ∈ N ↔ x ∈ G.nodes ∧ x ≠ v ∧ ¬ Path G.E v x ∧ ¬ G.E x v) ∧ (∀ x, x ∈ P ↔ G.E x v) ∧
        dsep G os {v} N P = some true := by
  obtain ⟨l, hl, hfst, hmem⟩ := localMarkovStatements_spec hG.toConsistent on o
  refine ⟨l, hl, ?_, ?_, ?_⟩
  · rw [hfst]; exact on.nodup _ _
  · intro v; rw [hfst]; exact on.mem_iff _ _ _
  · intro v N P hvNP
    obtain ⟨hN, hP⟩ := hmem v N P hvNP
    refine ⟨hN, hP, ?_⟩
    have hdisj : Disjoint ({v} : Finset α) P := by
      rw [Finset.disjoint_singleton_left, hP]; exact fun h => hG.acyclic v (.single h)
    rw [dsep_true_iff hG os hdisj]
    have hlm := Spec.local_markov hG.acyclic v
    have hPP : (P : Set α) = {p | G.E p v} := by ext x; simp [hP]
    rw [hPP]
    intro a ha b hb
    simp at ha; subst ha
    have hb' := (hN b).1 (by simpa using hb)
    exact hlm a rfl b ⟨hb'.2.1, hb'.2.2.1, hb'.2.2.2⟩

example : ∃ l, localMarkovStatements Sample.diamond Sample.order Sample.order = some l ∧
    (3 : Fin 5) ∈ l.map Prod.fst := by
  obtain ⟨l, h, _, hm, _⟩ := C15_local_markov Sample.diamond Sample.diamond_valid Sample.order Sample.order Sample.sep
  exact ⟨l, h, (hm 3).2 (by decide)⟩

/-- C16. The Markov blanket separates a node from the rest and is the least set of other nodes with this
property. -/
theorem C16_markov_blanket (G : DAG α) (hG : G.Valid) (o : SepOracle α) (v : α) :
    v ∉ markovBlanketOf G v ∧
    dsep G o {v} ((G.nodes \ {v}) \ markovBlanketOf G v) (markovBlanketOf G v) = some true ∧
    ∀ S : Finset α, v ∉ S → dsep G o {v} ((G.nodes \ {v}) \ S) S = some true → markovBlanketOf G v ⊆ S := by
  have hmem : ∀ x, x ∈ markovBlanketOf G v ↔ x ∈ Blanket G.E v := by
    intro x
    rw [mem_markovBlanketOf hG.toConsistent, Blanket, Set.mem_ofPred_eq]
    constructor
    · rintro (h | h | ⟨h1, h2⟩)
      · exact ⟨by rintro rfl; exact hG.acyclic _ (.single h), Or.inl h⟩
      · exact ⟨by rintro rfl; exact hG.acyclic _ (.single h), Or.inr (Or.inl h)⟩
      · exact ⟨h1, Or.inr (Or.inr h2)⟩
    · rintro ⟨h1, h | h | h⟩
      · exact Or.inl h
      · exact Or.inr (Or.inl h)
      · exact Or.inr (Or.inr ⟨h1, h⟩)
  have hset : (markovBlanketOf G v : Set α) = Blanket G.E v := by ext x; simp [hmem]
  have hv : v ∉ markovBlanketOf G v := by rw [hmem]; exact fun h => h.1 rfl
  refine ⟨hv, ?_, ?_⟩
  · rw [dsep_true_iff hG o (Finset.disjoint_singleton_left.2 hv), hset]
    intro a ha b hb
    simp at ha; subst ha
    simp [hmem] at hb
    exact Spec.blanket_separates hG.acyclic a a rfl b ⟨hb.1.2, hb.2⟩
  · intro S hS h
    rw [dsep_true_iff hG o (Finset.disjoint_singleton_left.2 hS)] at h
    have := Spec.blanket_least (E := G.E) v (G.nodes : Set α) (S : Set α) ?_ ?_
    · intro x hx; exact this ((hmem x).1 hx)
    · rintro w ⟨_, h1 | h1 | ⟨c, _, h1⟩⟩
      · exact hG.fst_mem _ _ h1
      · exact hG.snd_mem _ _ h1
      · exact hG.fst_mem _ _ h1
    · intro a ha b hb
      refine h a (by simpa using ha) b ?_
      simpa [and_assoc] using hb

example : markovBlanketOf Sample.diamond 1 = {0, 2, 3} := by decide

/-- C17. `is_invariant(A, I, C)` terminates and decides whether `A` is separated from a fresh node pointing at `I` in
the augmented graph. -/
theorem C17_is_invariant (G : DAG α) (hG : G.Valid) (o : SepOracle α) (A I C : Finset α) (hAC : Disjoint A C) :
    ∃ r, isInvariant G o A I C = some r ∧
      (r = true ↔ DSep (Augment G.E {i | i ∈ I}) (some '' {a | a ∈ A}) {none} (some '' {c | c ∈ C})) :=
  isInvariant_spec hG o A I C hAC

/-- An intervention on the collider 3 is visible at 1 when conditioning on its child 4. -/
example : isInvariant Sample.diamond Sample.sep {1} {3} {4} = some false := by
  obtain ⟨r, hr, h⟩ := C17_is_invariant Sample.diamond Sample.diamond_valid Sample.sep {1} {3} {4} (by decide)
  rw [hr]; congr 1; rw [← Bool.not_eq_true, h, Spec.dsep_iff]
  intro hs
  refine hs (some 1) ⟨1, by simp, rfl⟩ none rfl (Spec.dconn_collider (c := some 3) ?_ ?_
    ⟨some 4, ⟨4, by simp, rfl⟩, .single ?_⟩)
  · exact .old (by decide : Sample.diamond.E 1 3)
  · exact .target (by simp)
  · exact Augment.old (by decide : Sample.diamond.E 3 4)

/-- C33. `dsep` among nodes of `S` gives the same answer in `ancestral_subgraph(S)`. -/
theorem C33_ancestral_subgraph (G : DAG α) (hG : G.Valid) (ot : SetOrder (Option α) α)
    (oa : SetOrder Bool (α × α)) (os : SetOrder (α × Finset α) α) (o o' : SepOracle α) (S : List α)
    (A B C : Finset α) (hA : A ⊆ S.toFinset) (hB : B ⊆ S.toFinset) (hC : C ⊆ S.toFinset)
    (hAC : Disjoint A C) :
    ∃ H, ancestralSubgraph ot oa os G S = some (H, none) ∧ H.Valid ∧
      (∀ v, v ∈ H.nodes ↔ ∃ s ∈ S, Path0 G.E v s) ∧
      dsep H o A B C = dsep G o' A B C := by
  obtain ⟨H, h1, h2, h3, h4⟩ := ancestralSubgraph_spec hG ot oa os S
  refine ⟨H, h1, h2, h3, ?_⟩
  obtain ⟨r, hr, h⟩ := dsep_decides h2 o A B C hAC
  obtain ⟨r', hr', h'⟩ := dsep_decides hG o' A B C hAC
  rw [hr, hr']; congr 1
  rw [Bool.eq_iff_iff, h, h', Spec.dsep_iff, Spec.dsep_iff]
  have hT : ∀ i j, G.E i j → j ∈ {v | ∃ s ∈ S, Path0 G.E v s} → i ∈ {v | ∃ s ∈ S, Path0 G.E v s} := by
    rintro i j hij ⟨s, hs, hp⟩; exact ⟨s, hs, .head hij hp⟩
  have hsub : ∀ {X : Finset α}, X ⊆ S.toFinset → ∀ x ∈ X, x ∈ {v | ∃ s ∈ S, Path0 G.E v s} :=
    fun hX x hx => ⟨x, by simpa using hX hx, .refl⟩
  rw [h4]
  constructor
  · intro h a ha b hb hc
    exact h a ha b hb ((Spec.dconn_restrict hT (hsub hA a ha) (hsub hB b hb) (hsub hC)).2 hc)
  · intro h a ha b hb hc
    exact h a ha b hb ((Spec.dconn_restrict hT (hsub hA a ha) (hsub hB b hb) (hsub hC)).1 hc)

example : ∃ H, ancestralSubgraph Sample.order Sample.order Sample.order Sample.diamond [1, 2] = some (H, none) ∧
    dsep H Sample.sep {1} {2} ∅ = dsep Sample.diamond Sample.sep {1} {2} ∅ := by
  obtain ⟨H, h, _, _, h'⟩ := C33_ancestral_subgraph Sample.diamond Sample.diamond_valid Sample.order Sample.order
    Sample.order Sample.sep Sample.sep [1, 2] {1} {2} ∅ (by decide) (by decide) (by decide) (by decide)
  exact ⟨H, h, h'⟩

end Props
