import Verif.Proof.Orient

/-! # `cpdag`, `interventional_cpdag` -/

namespace Model.PDAG

open Spec
universe u
variable {α : Type u} [DecidableEq α] {G H : DAG α}

/-- `P` shows exactly the arcs of the closure, over the nodes and the skeleton of `G`. -/
structure Shows (G : DAG α) (B : α → α → Prop) (P : PDAG α) : Prop where
  cons : P.Consistent
  simp : P.Simple
  nodes : P.nodes = G.nodes
  arcs : ∀ i j, (i, j) ∈ P.arcs ↔ Meek G.E B i j
  edges : ∀ i j, {i, j} ∈ P.edges ↔ Undec G.E B i j

theorem orient_spec (hG : G.Valid) (oa : SetOrder Unit (α × α)) (o : OrientOracle α) (known : Finset (α × α))
    (B : α → α → Prop)
    (hk : ∀ i j, G.E i j → ((i, j) ∈ known ↔ (∃ l, VStruct G.E i j l) ∨ B i j)) :
    ∃ Q, ((new oa oa G.nodes G.arcs ∅ known).removeUnprotectedOrientations o).run = some (.ok Q) ∧ Shows G B Q ∧
      Q.known = known := by
  obtain ⟨h1, h2, h3, h4, h5⟩ := new_spec oa oa G.nodes G.arcs ∅ known (by simp)
  have hinv : Inv G.E B (new oa oa G.nodes G.arcs ∅ known) (G.arcs \ known) (fun a =>
      if a ∈ G.arcs \ known then some .undec else if a ∈ known then some .prot else none) := by
    refine ⟨h1, ⟨?_, ?_⟩, ?_, ?_, ?_, ?_, ?_, ?_, ?_, ?_⟩
    · intro i j hij hji; rw [h2] at hij hji; exact hG.acyclic.asymm hij hji
    · intro i j _; rw [h3]; simp
    · intro i j hij; rw [h2] at hij; exact hij
    · intro i j hij; rw [h2]; exact Or.inl hij
    · intro i j hij; rw [h3] at hij; simp at hij
    · rw [h2]; exact Finset.sdiff_subset
    · intro a ha hau
      rw [h2] at ha
      have hak : a ∈ known := by
        by_contra hc; exact hau (Finset.mem_sdiff.2 ⟨ha, hc⟩)
      refine ⟨by rw [if_neg hau, if_pos hak], ?_⟩
      rcases (hk a.1 a.2 ha).1 hak with ⟨l, hv⟩ | hb
      · exact .vstr hv
      · exact .base ha hb
    · intro a ha; exact if_pos ha
    · intro i j hij
      obtain ⟨h6, h7⟩ := Finset.mem_sdiff.1 hij
      rw [hk i j h6] at h7
      push Not at h7
      exact h7
    · intro i j hij hn; rw [h2] at hn; exact absurd hij hn
  obtain ⟨Q, fl, q1, q2, q3, q4⟩ := unprotectLoop_spec hG.acyclic o _ 0 _ _ _ le_rfl hinv
  refine ⟨Q, ?_, ?_, q4.trans h4⟩
  · unfold removeUnprotectedOrientations
    rw [h2, h4]; exact q1
  · have harcs : ∀ i j, (i, j) ∈ Q.arcs ↔ Meek G.E B i j := by
      intro i j
      exact ⟨fun h => (q2.dec _ h (by simp)).2, q2.kept⟩
    refine ⟨q2.cons, q2.simp, ?_, harcs, ?_⟩
    · rw [q3]; ext v; rw [h5]
      constructor
      · rintro (h | ⟨a, ha, rfl | rfl⟩ | ⟨a, ha, _⟩)
        · exact h
        · exact hG.fst_mem _ _ ha
        · exact hG.snd_mem _ _ ha
        · simp at ha
      · exact Or.inl
    · intro i j
      constructor
      · intro h
        refine undec_of_adj (q2.edge i j h) (fun hm => ?_) fun hm => ?_
        · exact q2.simp.no_edge _ _ (q2.kept hm) h
        · exact q2.simp.no_edge _ _ (q2.kept hm) (by rw [Finset.pair_comm]; exact h)
      · rintro (⟨h, hm⟩ | ⟨h, hm⟩)
        · exact ((q2.cover i j h).resolve_left fun h' => hm ((harcs _ _).1 h')).1
        · rw [Finset.pair_comm]
          exact ((q2.cover j i h).resolve_left fun h' => hm ((harcs _ _).1 h')).1

theorem mem_arcsInVstructures (hG : G.Valid) {i j : α} :
    (i, j) ∈ G.arcsInVstructures ↔ ∃ l, VStruct G.E i j l := by
  unfold DAG.arcsInVstructures
  rw [Finset.mem_filter]
  constructor
  · rintro ⟨h1, h2⟩
    obtain ⟨l, hl⟩ := Finset.nonempty_iff_ne_empty.2 h2
    simp only [Finset.mem_sdiff, Finset.mem_singleton, hG.parents_iff, hG.neighbors_iff, not_or] at hl
    exact ⟨l, Ne.symm hl.2, h1, hl.1.1, fun h => h.elim hl.1.2.2 hl.1.2.1⟩
  · rintro ⟨l, h1, h2, h3, h4⟩
    refine ⟨h2, Finset.nonempty_iff_ne_empty.1 ⟨l, ?_⟩⟩
    simp only [Finset.mem_sdiff, Finset.mem_singleton, hG.parents_iff, hG.neighbors_iff, not_or]
    exact ⟨⟨h3, fun h => h4 (Or.inr h), fun h => h4 (Or.inl h)⟩, Ne.symm h1⟩

theorem cpdag_shows (hG : G.Valid) (oa : SetOrder Unit (α × α)) (o : OrientOracle α) :
    ∃ Q, (G.cpdag oa o).run = some (.ok Q) ∧ Shows G (fun _ _ => False) Q ∧ Q.known = G.arcsInVstructures := by
  apply orient_spec hG oa o
  intro i j _; rw [mem_arcsInVstructures hG, or_false]

theorem card_pair_inter {i j : α} (hij : i ≠ j) (s : Finset α) :
    (({i, j} : Finset α) ∩ s).card = 1 ↔ ¬ (i ∈ s ↔ j ∈ s) := by
  by_cases hi : i ∈ s <;> by_cases hj : j ∈ s
  · have : ({i, j} : Finset α) ∩ s = {i, j} := by ext x; simp; rintro (rfl | rfl) <;> assumption
    rw [this, Finset.card_pair hij]; simp [hi, hj]
  · have : ({i, j} : Finset α) ∩ s = {i} := by
      ext x; simp only [Finset.mem_inter, Finset.mem_insert, Finset.mem_singleton]
      constructor
      · rintro ⟨rfl | rfl, h⟩
        · rfl
        · exact absurd h hj
      · rintro rfl; exact ⟨Or.inl rfl, hi⟩
    rw [this]; simp [hi, hj]
  · have : ({i, j} : Finset α) ∩ s = {j} := by
      ext x; simp only [Finset.mem_inter, Finset.mem_insert, Finset.mem_singleton]
      constructor
      · rintro ⟨rfl | rfl, h⟩
        · exact absurd h hi
        · rfl
      · rintro rfl; exact ⟨Or.inr rfl, hj⟩
    rw [this]; simp [hi, hj]
  · have : ({i, j} : Finset α) ∩ s = ∅ := by
      ext x; simp only [Finset.mem_inter, Finset.mem_insert, Finset.mem_singleton]
      constructor
      · rintro ⟨rfl | rfl, h⟩
        · exact absurd h hi
        · exact absurd h hj
      · simp
    rw [this]; simp [hi, hj]

theorem mem_cut (arcs : Finset (α × α)) (iv : List (Finset α)) : ∀ (c : Finset (α × α)) (a : α × α),
    a ∈ iv.foldl (fun c iv => c ∪ arcs.filter fun a => (({a.1, a.2} : Finset α) ∩ iv).card = 1) c ↔
      a ∈ c ∨ (a ∈ arcs ∧ ∃ s ∈ iv, (({a.1, a.2} : Finset α) ∩ s).card = 1) := by
  induction iv with
  | nil => simp
  | cons s iv ih =>
    intro c a
    rw [List.foldl_cons, ih, Finset.mem_union, Finset.mem_filter, List.exists_mem_cons_iff]
    generalize (∃ x ∈ iv, _) = q; tauto

theorem interventionalCpdag_shows (hG : G.Valid) (oa : SetOrder Unit (α × α)) (o : OrientOracle α)
    (iv : List (Finset α)) (c : PDAG α) (hc : c.known = G.arcsInVstructures) :
    ∃ Q, (G.interventionalCpdag oa o iv c).run = some (.ok Q) ∧ Shows G (CutBy (targets iv)) Q := by
  unfold DAG.interventionalCpdag
  obtain ⟨Q, h1, h2, _⟩ := orient_spec hG oa o
    (iv.foldl (fun c iv => c ∪ G.arcs.filter fun a => (({a.1, a.2} : Finset α) ∩ iv).card = 1) ∅ ∪ c.known)
    (CutBy (targets iv)) (by
      intro i j hij
      rw [Finset.mem_union, mem_cut, hc, mem_arcsInVstructures hG]
      have hne : i ≠ j := by rintro rfl; exact hG.acyclic.irrefl hij
      have hij' : (i, j) ∈ G.arcs := hij
      simp only [Finset.notMem_empty, false_or, hij', true_and, card_pair_inter hne]
      rw [or_comm]
      refine or_congr Iff.rfl ?_
      constructor
      · rintro ⟨s, hs, h⟩; exact ⟨s, ⟨s, hs, rfl⟩, by simpa using h⟩
      · rintro ⟨_, ⟨s, hs, rfl⟩, h⟩; exact ⟨s, hs, by simpa using h⟩)
  exact ⟨Q, h1, h2⟩

omit [DecidableEq α] in
theorem undec_iff_both {E B : α → α → Prop} (hE : Acyclic E) (hB : Cotrans B) {V : Finset α}
    (hV : ∀ a b, E a b → a ∈ V ∧ b ∈ V) {i j : α} :
    Undec E B i j ↔
      (∃ F, Acyclic F ∧ SameSkelV E F ∧ (∀ x y, B x y → (E x y ↔ F x y)) ∧ F i j) ∧
      (∃ F, Acyclic F ∧ SameSkelV E F ∧ (∀ x y, B x y → (E x y ↔ F x y)) ∧ F j i) := by
  have key : ∀ {i j}, E i j → ¬ Meek E B i j →
      (∃ F, Acyclic F ∧ SameSkelV E F ∧ (∀ x y, B x y → (E x y ↔ F x y)) ∧ F i j) ∧
      (∃ F, Acyclic F ∧ SameSkelV E F ∧ (∀ x y, B x y → (E x y ↔ F x y)) ∧ F j i) := fun h hm =>
    ⟨⟨E, hE, SameSkelV.refl E, fun _ _ _ => Iff.rfl, h⟩, meek_complete hE hB hV h hm⟩
  constructor
  · rintro (⟨h, hm⟩ | ⟨h, hm⟩)
    · exact key h hm
    · exact (key h hm).symm
  · rintro ⟨⟨F, f1, f2, f3, f4⟩, K, k1, k2, k3, k4⟩
    refine undec_of_adj ((f2.skel i j).2 (Or.inl f4)) (fun hm => ?_) fun hm => ?_
    · exact k1.asymm k4 (hm.sound hE k1 k2 fun x y h1 h2 => (k3 x y h1).1 h2)
    · exact f1.asymm f4 (hm.sound hE f1 f2 fun x y h1 h2 => (f3 x y h1).1 h2)

/-- Equality of the completed graphs. -/
theorem shows_eq {B : α → α → Prop} (hB : Cotrans B) (hG : G.Valid) (hH : H.Valid) {P Q : PDAG α}
    (hP : Shows G B P) (hQ : Shows H B Q) :
    P.eq Q = true ↔ G.nodes = H.nodes ∧ SameSkelV G.E H.E ∧ ∀ i j, B i j → (G.E i j ↔ H.E i j) := by
  have hVG : ∀ a b, G.E a b → a ∈ G.nodes ∧ b ∈ G.nodes := fun a b h => ⟨hG.fst_mem _ _ h, hG.snd_mem _ _ h⟩
  have hVH : ∀ a b, H.E a b → a ∈ H.nodes ∧ b ∈ H.nodes := fun a b h => ⟨hH.fst_mem _ _ h, hH.snd_mem _ _ h⟩
  unfold eq
  simp only [Bool.and_eq_true, decide_eq_true_eq, hP.nodes, hQ.nodes, and_assoc]
  refine and_congr_right fun _ => ?_
  constructor
  · rintro ⟨ha, he⟩
    have hm : ∀ i j, Meek G.E B i j ↔ Meek H.E B i j := fun i j => by rw [← hP.arcs, ← hQ.arcs, ha]
    have hu : ∀ i j, Undec G.E B i j ↔ Undec H.E B i j := fun i j => by rw [← hP.edges, ← hQ.edges, he]
    have hadj : ∀ {K : DAG α} {i j}, Adj K.E i j ↔ Meek K.E B i j ∨ Meek K.E B j i ∨ Undec K.E B i j := by
      intro K i j
      constructor
      · intro h
        by_cases h1 : Meek K.E B i j
        · exact Or.inl h1
        · by_cases h2 : Meek K.E B j i
          · exact Or.inr (Or.inl h2)
          · exact Or.inr (Or.inr (undec_of_adj h h1 h2))
      · rintro (h | h | h)
        · exact Or.inl h.sub
        · exact Or.inr h.sub
        · exact h.adj
    have hskel : ∀ i j, Adj G.E i j ↔ Adj H.E i j := fun i j => by rw [hadj, hadj, hm, hm, hu]
    refine ⟨⟨hskel, fun a c b => ⟨fun h => ?_, fun h => ?_⟩⟩, fun i j hij => ⟨fun h => ?_, fun h => ?_⟩⟩
    · exact ⟨h.1, ((hm _ _).1 (.vstr h)).sub, ((hm _ _).1 (.vstr (vstruct_symm h))).sub, fun h' => h.2.2.2 ((hskel _ _).2 h')⟩
    · exact ⟨h.1, ((hm _ _).2 (.vstr h)).sub, ((hm _ _).2 (.vstr (vstruct_symm h))).sub, fun h' => h.2.2.2 ((hskel _ _).1 h')⟩
    · exact ((hm _ _).1 (.base h hij)).sub
    · exact ((hm _ _).2 (.base h hij)).sub
  · rintro ⟨hs, hc⟩
    have hm : ∀ i j, Meek G.E B i j ↔ Meek H.E B i j := by
      intro i j
      rw [meek_iff hG.acyclic hB hVG, meek_iff hH.acyclic hB hVH]
      constructor
      · intro h F hF hsF hcF; exact h F hF (hs.trans hsF) fun x y hxy => (hc x y hxy).trans (hcF x y hxy)
      · intro h F hF hsF hcF
        exact h F hF (hs.symm.trans hsF) fun x y hxy => (hc x y hxy).symm.trans (hcF x y hxy)
    have hu : ∀ i j, Undec G.E B i j ↔ Undec H.E B i j := by
      have key : ∀ {K L : DAG α}, K.Valid → SameSkelV K.E L.E → (∀ i j, Meek K.E B i j ↔ Meek L.E B i j) → ∀ {i j},
          Undec K.E B i j → Undec L.E B i j := by
        intro K L hK hsk hm i j h
        exact undec_of_adj ((hsk.skel _ _).1 h.adj) (fun h' => h.not hK.acyclic ((hm _ _).2 h'))
          fun h' => h.symm.not hK.acyclic ((hm _ _).2 h')
      exact fun i j => ⟨key hG hs hm, key hH hs.symm fun i j => (hm i j).symm⟩
    constructor
    · ext ⟨i, j⟩; rw [hP.arcs, hQ.arcs, hm]
    · ext e
      constructor
      · intro he
        obtain ⟨i, j, _, rfl⟩ := hP.cons.edge_pair e he
        rw [hQ.edges, ← hu, ← hP.edges]; exact he
      · intro he
        obtain ⟨i, j, _, rfl⟩ := hQ.cons.edge_pair e he
        rw [hP.edges, hu, ← hQ.edges]; exact he

end Model.PDAG
