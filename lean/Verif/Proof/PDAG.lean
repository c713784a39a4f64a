import Verif.Spec.PViews
import Verif.Proof.Moral

/-! # Elementary facts about `PDAG` objects -/

namespace Model.PDAG

universe u
variable {α : Type u} [DecidableEq α] {P : PDAG α}

theorem pair_comm (i j : α) : ({i, j} : Finset α) = {j, i} := Finset.pair_comm i j

theorem pair_eq_iff {a b i j : α} : ({a, b} : Finset α) = {i, j} ↔ (a = i ∧ b = j) ∨ (a = j ∧ b = i) := by
  constructor
  · intro h
    have h1 : a ∈ ({i, j} : Finset α) := by rw [← h]; simp
    have h2 : b ∈ ({i, j} : Finset α) := by rw [← h]; simp
    have h3 : i ∈ ({a, b} : Finset α) := by rw [h]; simp
    have h4 : j ∈ ({a, b} : Finset α) := by rw [h]; simp
    simp only [Finset.mem_insert, Finset.mem_singleton] at h1 h2 h3 h4
    rcases h1 with rfl | rfl <;> rcases h2 with rfl | rfl <;> simp_all
  · rintro (⟨rfl, rfl⟩ | ⟨rfl, rfl⟩)
    · rfl
    · exact pair_comm _ _

theorem mem_addBoth {d : α → Finset α} {i j x y : α} :
    x ∈ addBoth d i j y ↔ x ∈ d y ∨ (x = j ∧ y = i) ∨ (x = i ∧ y = j) := by
  unfold addBoth
  by_cases hj : y = j
  · subst hj
    by_cases hi : y = i
    · subst hi; simp; tauto
    · simp [hi]; tauto
  · by_cases hi : y = i
    · subst hi; simp [hj]; tauto
    · simp [hi, hj]

theorem Consistent.edge_ne (hP : P.Consistent) {i j : α} (h : ({i, j} : Finset α) ∈ P.edges) : i ≠ j := by
  rintro rfl
  obtain ⟨a, b, hab, he⟩ := hP.edge_pair _ h
  have ha : a ∈ ({i, i} : Finset α) := by rw [he]; simp
  have hb : b ∈ ({i, i} : Finset α) := by rw [he]; simp
  simp at ha hb
  exact hab (ha.trans hb.symm)

theorem Simple.ne (hP : P.Simple) {i j : α} (h : (i, j) ∈ P.arcs) : i ≠ j := by
  rintro rfl; exact hP.one_arc _ _ h h

theorem empty_consistent (nodes : Finset α) (known : Finset (α × α)) : (empty nodes known).Consistent := by
  constructor <;> simp [empty]

theorem addArc_consistent (hP : P.Consistent) (i j : α) : (P.addArc i j).Consistent := by
  constructor
  · intro a b
    by_cases hb : b = j
    · subst hb; simp [addArc, hP.parents_iff, Prod.ext_iff]
    · simp [addArc, hb, hP.parents_iff, Prod.ext_iff]
  · intro a b
    by_cases ha : a = i
    · subst ha; simp [addArc, hP.children_iff, Prod.ext_iff]
    · simp [addArc, ha, hP.children_iff, Prod.ext_iff]
  · intro a b; exact hP.undirected_iff a b
  · intro a b
    show a ∈ addBoth _ _ _ _ ↔ _
    rw [mem_addBoth, hP.neighbors_iff]
    simp [addArc, Prod.ext_iff]; tauto
  · exact hP.edge_pair
  · intro a b h
    simp only [addArc, Finset.mem_insert, Prod.mk.injEq] at h ⊢
    rcases h with ⟨rfl, rfl⟩ | h
    · simp
    · exact ⟨Or.inr (Or.inr (hP.arc_mem _ _ h).1), Or.inr (Or.inr (hP.arc_mem _ _ h).2)⟩
  · intro e he; exact (hP.edge_mem e he).trans ((Finset.subset_insert _ _).trans (Finset.subset_insert _ _))

theorem addEdge_consistent (hP : P.Consistent) {i j : α} (hij : i ≠ j) : (P.addEdge i j).Consistent := by
  constructor
  · exact hP.parents_iff
  · exact hP.children_iff
  · intro a b
    show a ∈ addBoth _ _ _ _ ↔ _
    rw [mem_addBoth, hP.undirected_iff]
    simp only [addEdge, Finset.mem_insert, pair_eq_iff]; tauto
  · intro a b
    show a ∈ addBoth _ _ _ _ ↔ _
    rw [mem_addBoth, hP.neighbors_iff]
    simp only [addEdge, Finset.mem_insert, pair_eq_iff]; tauto
  · intro e he
    rcases Finset.mem_insert.1 he with rfl | he
    · exact ⟨i, j, hij, rfl⟩
    · exact hP.edge_pair e he
  · intro a b h
    have := hP.arc_mem a b h
    simp [addEdge, this.1, this.2]
  · intro e he
    rcases Finset.mem_insert.1 he with rfl | he
    · intro x hx; simp at hx; simp only [addEdge, Finset.mem_insert]; tauto
    · exact (hP.edge_mem e he).trans ((Finset.subset_insert _ _).trans (Finset.subset_insert _ _))

theorem addArcs_spec (l : List (α × α)) : ∀ (P : PDAG α), P.Consistent →
    (l.foldl (fun P a => P.addArc a.1 a.2) P).Consistent ∧
    (∀ a, a ∈ (l.foldl (fun P a => P.addArc a.1 a.2) P).arcs ↔ a ∈ l ∨ a ∈ P.arcs) ∧
    (l.foldl (fun P a => P.addArc a.1 a.2) P).edges = P.edges ∧
    (l.foldl (fun P a => P.addArc a.1 a.2) P).known = P.known ∧
    (∀ v, v ∈ (l.foldl (fun P a => P.addArc a.1 a.2) P).nodes ↔ v ∈ P.nodes ∨ ∃ a ∈ l, v = a.1 ∨ v = a.2) := by
  induction l with
  | nil => intro P hP; exact ⟨hP, by simp, rfl, rfl, by simp⟩
  | cons a l ih =>
    intro P hP
    obtain ⟨h1, h2, h3, h4, h5⟩ := ih _ (addArc_consistent hP a.1 a.2)
    refine ⟨h1, ?_, h3, h4, ?_⟩
    · intro b; rw [List.foldl_cons, h2]; simp [addArc]; tauto
    · intro v
      rw [List.foldl_cons, h5]
      simp only [addArc, Finset.mem_insert, List.exists_mem_cons_iff]
      generalize (∃ x ∈ l, _) = q; tauto

theorem addEdges_spec (l : List (α × α)) (hl : ∀ e ∈ l, e.1 ≠ e.2) : ∀ (P : PDAG α), P.Consistent →
    (l.foldl (fun P a => P.addEdge a.1 a.2) P).Consistent ∧
    (∀ e, e ∈ (l.foldl (fun P a => P.addEdge a.1 a.2) P).edges ↔ (∃ a ∈ l, e = {a.1, a.2}) ∨ e ∈ P.edges) ∧
    (l.foldl (fun P a => P.addEdge a.1 a.2) P).arcs = P.arcs ∧
    (l.foldl (fun P a => P.addEdge a.1 a.2) P).known = P.known ∧
    (∀ v, v ∈ (l.foldl (fun P a => P.addEdge a.1 a.2) P).nodes ↔ v ∈ P.nodes ∨ ∃ a ∈ l, v = a.1 ∨ v = a.2) := by
  induction l with
  | nil => intro P hP; exact ⟨hP, by simp, rfl, rfl, by simp⟩
  | cons a l ih =>
    intro P hP
    obtain ⟨h1, h2, h3, h4, h5⟩ := ih (fun e he => hl e (List.mem_cons_of_mem _ he)) _
      (addEdge_consistent hP (hl a List.mem_cons_self))
    refine ⟨h1, ?_, h3, h4, ?_⟩
    · intro b
      rw [List.foldl_cons, h2]
      simp only [addEdge, Finset.mem_insert, List.exists_mem_cons_iff]
      generalize (∃ x ∈ l, _) = q; tauto
    · intro v
      rw [List.foldl_cons, h5]
      simp only [addEdge, Finset.mem_insert, List.exists_mem_cons_iff]
      generalize (∃ x ∈ l, _) = q; tauto

/-- What the constructor builds. -/
theorem new_spec (oa oe : SetOrder Unit (α × α)) (nodes : Finset α) (arcs edges known : Finset (α × α))
    (he : ∀ e ∈ edges, e.1 ≠ e.2) :
    (new oa oe nodes arcs edges known).Consistent ∧
    (new oa oe nodes arcs edges known).arcs = arcs ∧
    (new oa oe nodes arcs edges known).edges = edges.image (fun e => {e.1, e.2}) ∧
    (new oa oe nodes arcs edges known).known = known ∧
    (∀ v, v ∈ (new oa oe nodes arcs edges known).nodes ↔
      v ∈ nodes ∨ (∃ a ∈ arcs, v = a.1 ∨ v = a.2) ∨ ∃ a ∈ edges, v = a.1 ∨ v = a.2) := by
  obtain ⟨h1, h2, h3, h4, h5⟩ := addArcs_spec (oa.ord () arcs) (empty nodes known) (empty_consistent _ _)
  obtain ⟨k1, k2, k3, k4, k5⟩ := addEdges_spec (oe.ord () edges)
    (fun e h => he e ((oe.mem_iff _ _ _).1 h)) _ h1
  refine ⟨k1, ?_, ?_, k4.trans h4, ?_⟩
  · unfold new; rw [k3]; ext a; rw [h2, oa.mem_iff]; simp [empty]
  · unfold new; ext e; rw [k2, h3]; simp [empty, oe.mem_iff, eq_comm]
  · intro v; unfold new; rw [k5, h5]; simp only [oa.mem_iff, oe.mem_iff, or_assoc]; rfl

omit [DecidableEq α] in
theorem remove_ok {β : Type u} [DecidableEq β] {s : Finset β} {x : β} (h : x ∈ s) :
    (remove s x : Except (Exn α) (Finset β)) = .ok (s.erase x) := if_pos h

/-- `_replace_arc_with_edge` on an existing arc. -/
theorem replaceArcWithEdge_spec (hP : P.Consistent) (hS : P.Simple) {i j : α} (h : (i, j) ∈ P.arcs) :
    ∃ Q, P.replaceArcWithEdge i j = .ok Q ∧ Q.Consistent ∧ Q.Simple ∧ Q.nodes = P.nodes ∧ Q.known = P.known ∧
      Q.arcs = P.arcs.erase (i, j) ∧ Q.edges = insert {i, j} P.edges := by
  have hne := hS.ne h
  unfold replaceArcWithEdge
  rw [remove_ok h, remove_ok ((hP.parents_iff i j).2 h), remove_ok ((hP.children_iff i j).2 h)]
  refine ⟨_, rfl, ?_, ?_, rfl, rfl, rfl, rfl⟩
  · constructor
    · intro a b
      by_cases hb : b = j
      · subst hb; simp [hP.parents_iff, Prod.ext_iff]
      · simp [hb, hP.parents_iff, Prod.ext_iff]
    · intro a b
      by_cases ha : a = i
      · subst ha; simp [hP.children_iff, Prod.ext_iff]
      · simp [ha, hP.children_iff, Prod.ext_iff]
    · intro a b
      show a ∈ addBoth _ _ _ _ ↔ _
      rw [mem_addBoth, hP.undirected_iff]
      simp only [Finset.mem_insert, pair_eq_iff]; tauto
    · intro a b
      show a ∈ P.neighbors b ↔ _
      rw [hP.neighbors_iff]
      simp only [Finset.mem_insert, Finset.mem_erase, pair_eq_iff, ne_eq, Prod.mk.injEq]
      by_cases h1 : a = i ∧ b = j
      · obtain ⟨rfl, rfl⟩ := h1; simp [h]
      · by_cases h2 : a = j ∧ b = i
        · obtain ⟨rfl, rfl⟩ := h2; simp [h]
        · have h2' : ¬ (b = i ∧ a = j) := fun h' => h2 h'.symm
          simp only [h1, h2, h2', not_false_eq_true, true_and, false_or]
    · intro e he
      rcases Finset.mem_insert.1 he with rfl | he
      · exact ⟨i, j, hne, rfl⟩
      · exact hP.edge_pair e he
    · intro a b hab; exact hP.arc_mem a b (Finset.mem_of_mem_erase hab)
    · intro e he
      rcases Finset.mem_insert.1 he with rfl | he
      · intro x hx; simp only [Finset.mem_insert, Finset.mem_singleton] at hx
        rcases hx with rfl | rfl
        · exact (hP.arc_mem _ _ h).1
        · exact (hP.arc_mem _ _ h).2
      · exact hP.edge_mem e he
  · constructor
    · intro a b hab hba
      exact hS.one_arc a b (Finset.mem_of_mem_erase hab) (Finset.mem_of_mem_erase hba)
    · intro a b hab he
      rw [Finset.mem_erase] at hab
      rcases Finset.mem_insert.1 he with he | he
      · rw [pair_eq_iff] at he
        rcases he with ⟨rfl, rfl⟩ | ⟨rfl, rfl⟩
        · exact hab.1 rfl
        · exact hS.one_arc _ _ h hab.2
      · exact hS.no_edge a b hab.2 he

/-- `_replace_edge_with_arc` on an existing edge. -/
theorem replaceEdgeWithArc_spec (hP : P.Consistent) (hS : P.Simple) {i j : α} (h : {i, j} ∈ P.edges) :
    ∃ Q, P.replaceEdgeWithArc i j = .ok Q ∧ Q.Consistent ∧ Q.Simple ∧ Q.nodes = P.nodes ∧ Q.known = P.known ∧
      Q.arcs = insert (i, j) P.arcs ∧ Q.edges = P.edges.erase {i, j} := by
  have hne := hP.edge_ne h
  have hji : ({j, i} : Finset α) ∈ P.edges := by rw [pair_comm]; exact h
  unfold replaceEdgeWithArc
  rw [remove_ok h, remove_ok ((hP.undirected_iff j i).2 hji)]
  have h3 : i ∈ Function.update P.undirected i ((P.undirected i).erase j) j := by
    rw [Function.update_of_ne hne.symm]; exact (hP.undirected_iff i j).2 h
  simp only [bind, Except.bind]
  rw [remove_ok h3]
  refine ⟨_, rfl, ?_, ?_, rfl, rfl, rfl, rfl⟩
  · constructor
    · intro a b
      by_cases hb : b = j
      · subst hb; simp [hP.parents_iff, Prod.ext_iff]
      · simp [hb, hP.parents_iff, Prod.ext_iff]
    · intro a b
      by_cases ha : a = i
      · subst ha; simp [hP.children_iff, Prod.ext_iff]
      · simp [ha, hP.children_iff, Prod.ext_iff]
    · intro a b
      simp only [Finset.mem_erase, ne_eq, pair_eq_iff]
      by_cases hb : b = j
      · subst hb
        simp [hne.symm, hP.undirected_iff]
      · by_cases hb' : b = i
        · subst hb'; simp [hb, hP.undirected_iff]
        · simp [hb, hb', hP.undirected_iff]
    · intro a b
      show a ∈ P.neighbors b ↔ _
      rw [hP.neighbors_iff]
      simp only [Finset.mem_insert, Finset.mem_erase, pair_eq_iff, ne_eq, Prod.mk.injEq]
      by_cases h1 : a = i ∧ b = j
      · obtain ⟨rfl, rfl⟩ := h1; simp [h]
      · by_cases h2 : a = j ∧ b = i
        · obtain ⟨rfl, rfl⟩ := h2; simp [hji]
        · have h2' : ¬ (b = i ∧ a = j) := fun h' => h2 h'.symm
          simp only [h1, h2, h2', or_self, not_false_eq_true, true_and, false_or]
    · intro e he; exact hP.edge_pair e (Finset.mem_of_mem_erase he)
    · intro a b hab
      rcases Finset.mem_insert.1 hab with hab | hab
      · obtain ⟨rfl, rfl⟩ := Prod.mk.inj hab
        exact ⟨hP.edge_mem _ h (by simp), hP.edge_mem _ h (by simp)⟩
      · exact hP.arc_mem a b hab
    · intro e he; exact hP.edge_mem e (Finset.mem_of_mem_erase he)
  · constructor
    · intro a b h1 h2
      rcases Finset.mem_insert.1 h1 with hab | hab
      · obtain ⟨rfl, rfl⟩ := Prod.mk.inj hab
        rcases Finset.mem_insert.1 h2 with hba | hba
        · exact hne (Prod.mk.inj hba).2
        · exact hS.no_edge _ _ hba hji
      · rcases Finset.mem_insert.1 h2 with hba | hba
        · obtain ⟨rfl, rfl⟩ := Prod.mk.inj hba
          exact hS.no_edge _ _ hab hji
        · exact hS.one_arc _ _ hab hba
    · intro a b hab he
      rw [Finset.mem_erase] at he
      rcases Finset.mem_insert.1 hab with hab | hab
      · obtain ⟨rfl, rfl⟩ := Prod.mk.inj hab
        exact he.1 rfl
      · exact hS.no_edge a b hab he.2

end Model.PDAG
