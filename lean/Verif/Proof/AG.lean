import Verif.Spec.AGViews
import Verif.Proof.UG

/-! # `AncestralGraph` mutators -/

namespace Model

universe u
variable {α : Type u} [DecidableEq α]

theorem mem_addAt {d : α → Finset α} {k x a b : α} : b ∈ addAt d k x a ↔ b ∈ d a ∨ (a = k ∧ b = x) := by
  unfold addAt
  by_cases h : a = k
  · subst h; rw [Function.update_self, Finset.mem_insert]; tauto
  · rw [Function.update_of_ne h]; tauto

theorem mem_delAt {d : α → Finset α} {k x a b : α} : b ∈ delAt d k x a ↔ b ∈ d a ∧ ¬ (a = k ∧ b = x) := by
  unfold delAt
  by_cases h : a = k
  · subst h; rw [Function.update_self, Finset.mem_erase]; tauto
  · rw [Function.update_of_ne h]; tauto

namespace AG

variable {A : AG α}

/-- Both invariants. -/
def Good (A : AG α) : Prop := A.Consistent ∧ A.Simple

theorem empty_good (nodes : Finset α) : (empty nodes).Good := by
  constructor <;> constructor <;> simp [empty]

theorem Consistent.bi_ne (h : A.Consistent) {i j : α} (hij : ({i, j} : Finset α) ∈ A.bidirected) : i ≠ j := by
  rintro rfl
  obtain ⟨a, b, hab, he⟩ := h.bi_pair _ hij
  rcases UG.pair_eq.1 he with ⟨rfl, rfl⟩ | ⟨rfl, rfl⟩ <;> exact hab rfl

theorem Consistent.un_ne (h : A.Consistent) {i j : α} (hij : ({i, j} : Finset α) ∈ A.undirected) : i ≠ j := by
  rintro rfl
  obtain ⟨a, b, hab, he⟩ := h.un_pair _ hij
  rcases UG.pair_eq.1 he with ⟨rfl, rfl⟩ | ⟨rfl, rfl⟩ <;> exact hab rfl

theorem not_adj_iff (h : A.Consistent) {i j : α} (hn : i ∉ A.adjacent j) :
    (i, j) ∉ A.directed ∧ (j, i) ∉ A.directed ∧ ({i, j} : Finset α) ∉ A.bidirected ∧ ({i, j} : Finset α) ∉ A.undirected := by
  rw [h.adjacent_iff] at hn; tauto

/-- `_add_directed`: nothing happens, or the edge is added to a pair that was not adjacent. -/
theorem addDirectedRaw_spec (h : A.Good) {i j : α} (hij : i ≠ j) :
    (A.addDirectedRaw i j).1.Good ∧
    ((A.addDirectedRaw i j).2 = none → (A.addDirectedRaw i j).1.directed = insert (i, j) A.directed ∧
      (A.addDirectedRaw i j).1.nodes = insert j (insert i A.nodes) ∧
      (A.addDirectedRaw i j).1.bidirected = A.bidirected ∧ (A.addDirectedRaw i j).1.undirected = A.undirected) ∧
    (∀ e, (A.addDirectedRaw i j).2 = some e → (A.addDirectedRaw i j).1 = A ∧ (e = .neighbor ∨ e = .adjacent)) := by
  obtain ⟨h, hs⟩ := h
  unfold addDirectedRaw
  by_cases c1 : (i, j) ∈ A.directed
  · rw [if_pos c1]
    have hm := h.dir_mem _ _ c1
    refine ⟨⟨h, hs⟩, fun _ => ⟨(Finset.insert_eq_of_mem c1).symm, ?_, rfl, rfl⟩, by simp⟩
    rw [Finset.insert_eq_of_mem hm.1, Finset.insert_eq_of_mem hm.2]
  rw [if_neg c1]
  by_cases c2 : (A.neighbors j).Nonempty
  · rw [if_pos c2]; exact ⟨⟨h, hs⟩, by simp, by simp⟩
  rw [if_neg c2]
  by_cases c3 : i ∈ A.adjacent j
  · rw [if_pos c3]; exact ⟨⟨h, hs⟩, by simp, by simp⟩
  rw [if_neg c3]
  obtain ⟨n1, n2, n3, n4⟩ := not_adj_iff h c3
  have hnj : ∀ k, ({j, k} : Finset α) ∉ A.undirected := by
    intro k hk
    rw [Finset.pair_comm, ← h.neighbors_iff] at hk
    exact c2 ⟨k, hk⟩
  refine ⟨⟨⟨?_, ?_, h.spouses_iff, h.neighbors_iff, ?_, ?_, h.bi_pair, h.un_pair, ?_, ?_, ?_⟩,
    ⟨?_, ?_, ?_, hs.bi_un, ?_⟩⟩, by simp, by simp⟩
  · intro a b
    simp only [mem_addAt, h.parents_iff, Finset.mem_insert, Prod.mk.injEq]; tauto
  · intro a b
    simp only [mem_addAt, h.children_iff, Finset.mem_insert, Prod.mk.injEq]; tauto
  · intro a b
    simp only [mem_addAt, h.adjacent_iff, Finset.mem_insert, Prod.mk.injEq]; tauto
  · intro a
    simp only [Finset.mem_insert, Prod.mk.injEq, not_or]
    exact ⟨fun ⟨h1, h2⟩ => hij (h1.symm.trans h2), h.dir_ne a⟩
  · intro a b
    simp only [Finset.mem_insert, Prod.mk.injEq]
    rintro (⟨rfl, rfl⟩ | hab)
    · simp
    · exact ⟨Or.inr (Or.inr (h.dir_mem _ _ hab).1), Or.inr (Or.inr (h.dir_mem _ _ hab).2)⟩
  · exact fun e he => (h.bi_mem e he).trans ((Finset.subset_insert _ _).trans (Finset.subset_insert _ _))
  · exact fun e he => (h.un_mem e he).trans ((Finset.subset_insert _ _).trans (Finset.subset_insert _ _))
  · intro a b
    simp only [Finset.mem_insert, Prod.mk.injEq, not_or]
    rintro (⟨rfl, rfl⟩ | hab)
    · exact ⟨fun ⟨h1, h2⟩ => hij h2, n2⟩
    · refine ⟨?_, hs.dir_dir _ _ hab⟩
      rintro ⟨rfl, rfl⟩
      exact n2 hab
  · intro a b
    simp only [Finset.mem_insert, Prod.mk.injEq]
    rintro (⟨rfl, rfl⟩ | hab)
    · exact n3
    · exact hs.dir_bi _ _ hab
  · intro a b
    simp only [Finset.mem_insert, Prod.mk.injEq]
    rintro (⟨rfl, rfl⟩ | hab)
    · exact n4
    · exact hs.dir_un _ _ hab
  · intro a b k hab
    refine ⟨?_, (hs.tails a b k hab).2⟩
    simp only [Finset.mem_insert, Prod.mk.injEq, not_or]
    refine ⟨?_, (hs.tails a b k hab).1⟩
    rintro ⟨-, rfl⟩
    exact hnj b hab

theorem addBidirectedRaw_spec (h : A.Good) {i j : α} (hij : i ≠ j) :
    (A.addBidirectedRaw i j).1.Good ∧
    ((A.addBidirectedRaw i j).2 = none → (A.addBidirectedRaw i j).1.bidirected = insert {i, j} A.bidirected ∧
      (A.addBidirectedRaw i j).1.nodes = insert j (insert i A.nodes) ∧
      (A.addBidirectedRaw i j).1.directed = A.directed ∧ (A.addBidirectedRaw i j).1.undirected = A.undirected) ∧
    (∀ e, (A.addBidirectedRaw i j).2 = some e → (A.addBidirectedRaw i j).1 = A ∧ (e = .neighbor ∨ e = .adjacent)) := by
  obtain ⟨h, hs⟩ := h
  unfold addBidirectedRaw
  by_cases c1 : ({i, j} : Finset α) ∈ A.bidirected
  · rw [if_pos c1]
    have hm := h.bi_mem _ c1
    have hi : i ∈ A.nodes := hm (by simp)
    have hj : j ∈ A.nodes := hm (by simp)
    refine ⟨⟨h, hs⟩, fun _ => ⟨(Finset.insert_eq_of_mem c1).symm, ?_, rfl, rfl⟩, by simp⟩
    rw [Finset.insert_eq_of_mem hi, Finset.insert_eq_of_mem hj]
  rw [if_neg c1]
  by_cases c2 : (A.neighbors i).Nonempty
  · rw [if_pos c2]; exact ⟨⟨h, hs⟩, by simp, by simp⟩
  rw [if_neg c2]
  by_cases c2' : (A.neighbors j).Nonempty
  · rw [if_pos c2']; exact ⟨⟨h, hs⟩, by simp, by simp⟩
  rw [if_neg c2']
  by_cases c3 : i ∈ A.adjacent j
  · rw [if_pos c3]; exact ⟨⟨h, hs⟩, by simp, by simp⟩
  rw [if_neg c3]
  obtain ⟨n1, n2, n3, n4⟩ := not_adj_iff h c3
  have hnj : ∀ k, ({j, k} : Finset α) ∉ A.undirected := by
    intro k hk
    rw [Finset.pair_comm, ← h.neighbors_iff] at hk
    exact c2' ⟨k, hk⟩
  have hni : ∀ k, ({i, k} : Finset α) ∉ A.undirected := by
    intro k hk
    rw [Finset.pair_comm, ← h.neighbors_iff] at hk
    exact c2 ⟨k, hk⟩
  refine ⟨⟨⟨h.parents_iff, h.children_iff, ?_, h.neighbors_iff, ?_, h.dir_ne, ?_, h.un_pair, ?_, ?_, ?_⟩,
    ⟨hs.dir_dir, ?_, hs.dir_un, ?_, ?_⟩⟩, by simp, by simp⟩
  · intro a b
    simp only [mem_addAt, h.spouses_iff, Finset.mem_insert, UG.pair_eq]; tauto
  · intro a b
    simp only [mem_addAt, h.adjacent_iff, Finset.mem_insert, UG.pair_eq]; tauto
  · intro e he
    rcases Finset.mem_insert.1 he with rfl | he
    · exact ⟨i, j, hij, rfl⟩
    · exact h.bi_pair e he
  · intro a b hab
    have := h.dir_mem _ _ hab
    simp [this.1, this.2]
  · intro e he
    rcases Finset.mem_insert.1 he with rfl | he
    · intro x hx; simp at hx ⊢; tauto
    · exact (h.bi_mem e he).trans ((Finset.subset_insert _ _).trans (Finset.subset_insert _ _))
  · exact fun e he => (h.un_mem e he).trans ((Finset.subset_insert _ _).trans (Finset.subset_insert _ _))
  · intro a b hab
    simp only [Finset.mem_insert, UG.pair_eq, not_or]
    refine ⟨⟨?_, ?_⟩, hs.dir_bi _ _ hab⟩
    · rintro ⟨rfl, rfl⟩; exact n1 hab
    · rintro ⟨rfl, rfl⟩; exact n2 hab
  · intro e he
    rcases Finset.mem_insert.1 he with rfl | he
    · exact n4
    · exact hs.bi_un e he
  · intro a b k hab
    refine ⟨(hs.tails a b k hab).1, ?_⟩
    simp only [Finset.mem_insert, UG.pair_eq, not_or]
    refine ⟨⟨?_, ?_⟩, (hs.tails a b k hab).2⟩
    · rintro ⟨-, rfl⟩; exact hnj b hab
    · rintro ⟨-, rfl⟩; exact hni b hab

theorem addUndirected_spec (h : A.Good) {i j : α} (hij : i ≠ j) :
    (A.addUndirected i j).1.Good ∧
    ((A.addUndirected i j).2 = none → (A.addUndirected i j).1.undirected = insert {i, j} A.undirected ∧
      (A.addUndirected i j).1.nodes = insert j (insert i A.nodes) ∧
      (A.addUndirected i j).1.directed = A.directed ∧ (A.addUndirected i j).1.bidirected = A.bidirected) ∧
    (∀ e, (A.addUndirected i j).2 = some e → (A.addUndirected i j).1 = A ∧ (e = .neighbor ∨ e = .adjacent)) := by
  obtain ⟨h, hs⟩ := h
  unfold addUndirected
  by_cases c1 : ({i, j} : Finset α) ∈ A.undirected
  · rw [if_pos c1]
    have hm := h.un_mem _ c1
    have hi : i ∈ A.nodes := hm (by simp)
    have hj : j ∈ A.nodes := hm (by simp)
    refine ⟨⟨h, hs⟩, fun _ => ⟨(Finset.insert_eq_of_mem c1).symm, ?_, rfl, rfl⟩, by simp⟩
    rw [Finset.insert_eq_of_mem hi, Finset.insert_eq_of_mem hj]
  rw [if_neg c1]
  by_cases c2 : (A.parents i).Nonempty
  · rw [if_pos c2]; exact ⟨⟨h, hs⟩, by simp, by simp⟩
  rw [if_neg c2]
  by_cases c3 : (A.spouses i).Nonempty
  · rw [if_pos c3]; exact ⟨⟨h, hs⟩, by simp, by simp⟩
  rw [if_neg c3]
  by_cases c4 : (A.parents j).Nonempty
  · rw [if_pos c4]; exact ⟨⟨h, hs⟩, by simp, by simp⟩
  rw [if_neg c4]
  by_cases c5 : (A.spouses j).Nonempty
  · rw [if_pos c5]; exact ⟨⟨h, hs⟩, by simp, by simp⟩
  rw [if_neg c5]
  by_cases c6 : i ∈ A.adjacent j
  · rw [if_pos c6]; exact ⟨⟨h, hs⟩, by simp, by simp⟩
  rw [if_neg c6]
  obtain ⟨n1, n2, n3, n4⟩ := not_adj_iff h c6
  have hpi : ∀ k, (k, i) ∉ A.directed := fun k hk => c2 ⟨k, (h.parents_iff _ _).2 hk⟩
  have hpj : ∀ k, (k, j) ∉ A.directed := fun k hk => c4 ⟨k, (h.parents_iff _ _).2 hk⟩
  have hsi : ∀ k, ({k, i} : Finset α) ∉ A.bidirected := fun k hk => c3 ⟨k, (h.spouses_iff _ _).2 hk⟩
  have hsj : ∀ k, ({k, j} : Finset α) ∉ A.bidirected := fun k hk => c5 ⟨k, (h.spouses_iff _ _).2 hk⟩
  refine ⟨⟨⟨h.parents_iff, h.children_iff, h.spouses_iff, ?_, ?_, h.dir_ne, h.bi_pair, ?_, ?_, ?_, ?_⟩,
    ⟨hs.dir_dir, hs.dir_bi, ?_, ?_, ?_⟩⟩, by simp, by simp⟩
  · intro a b
    simp only [mem_addAt, h.neighbors_iff, Finset.mem_insert, UG.pair_eq]; tauto
  · intro a b
    simp only [mem_addAt, h.adjacent_iff, Finset.mem_insert, UG.pair_eq]; tauto
  · intro e he
    rcases Finset.mem_insert.1 he with rfl | he
    · exact ⟨i, j, hij, rfl⟩
    · exact h.un_pair e he
  · intro a b hab
    have := h.dir_mem _ _ hab
    simp [this.1, this.2]
  · exact fun e he => (h.bi_mem e he).trans ((Finset.subset_insert _ _).trans (Finset.subset_insert _ _))
  · intro e he
    rcases Finset.mem_insert.1 he with rfl | he
    · intro x hx; simp at hx ⊢; tauto
    · exact (h.un_mem e he).trans ((Finset.subset_insert _ _).trans (Finset.subset_insert _ _))
  · intro a b hab
    simp only [Finset.mem_insert, UG.pair_eq, not_or]
    refine ⟨⟨?_, ?_⟩, hs.dir_un _ _ hab⟩
    · rintro ⟨rfl, rfl⟩; exact n1 hab
    · rintro ⟨rfl, rfl⟩; exact n2 hab
  · intro e he
    simp only [Finset.mem_insert, not_or]
    refine ⟨?_, hs.bi_un e he⟩
    rintro rfl
    exact n3 he
  · intro a b k hab
    rcases Finset.mem_insert.1 hab with hab | hab
    · rcases UG.pair_eq.1 hab with ⟨rfl, rfl⟩ | ⟨rfl, rfl⟩
      · exact ⟨hpi k, hsi k⟩
      · exact ⟨hpj k, hsj k⟩
    · exact hs.tails a b k hab

/-! ## Removing -/

theorem removeDirected_spec (h : A.Good) (ig : Bool) (i j : α) :
    (A.removeDirected ig i j).1.Good ∧ (A.removeDirected ig i j).1.nodes = A.nodes ∧
    (A.removeDirected ig i j).1.directed = A.directed.erase (i, j) ∧
    (A.removeDirected ig i j).1.bidirected = A.bidirected ∧ (A.removeDirected ig i j).1.undirected = A.undirected ∧
    (A.removeDirected ig i j).2 = if (i, j) ∈ A.directed ∨ ig = true then none else some .key := by
  obtain ⟨h, hs⟩ := h
  by_cases c : (i, j) ∈ A.directed
  · have hij : i ≠ j := by rintro rfl; exact h.dir_ne _ c
    have p1 : j ∈ A.children i := (h.children_iff _ _).2 c
    have p2 : i ∈ A.parents j := (h.parents_iff _ _).2 c
    have p3 : j ∈ A.adjacent i := (h.adjacent_iff _ _).2 (by tauto)
    have p4 : i ∈ delAt A.adjacent i j j := by
      rw [mem_delAt, h.adjacent_iff]; exact ⟨by tauto, fun h => hij h.1.symm⟩
    have e : A.removeDirected ig i j = ({ A with
        directed := A.directed.erase (i, j)
        children := delAt A.children i j
        parents := delAt A.parents j i
        adjacent := delAt (delAt A.adjacent i j) j i }, none) := by
      unfold removeDirected delDirected delChild delParent delAdj guard Step.andThen
      simp only [c, p1, p2, p3, p4, if_true]
      cases ig <;> rfl
    rw [e]
    have hb : ({i, j} : Finset α) ∉ A.bidirected := hs.dir_bi _ _ c
    have hb' : ({j, i} : Finset α) ∉ A.bidirected := by rwa [Finset.pair_comm]
    have hu : ({i, j} : Finset α) ∉ A.undirected := hs.dir_un _ _ c
    have hu' : ({j, i} : Finset α) ∉ A.undirected := by rwa [Finset.pair_comm]
    have hr : (j, i) ∉ A.directed := hs.dir_dir _ _ c
    refine ⟨⟨⟨?_, ?_, h.spouses_iff, h.neighbors_iff, ?_, ?_, h.bi_pair, h.un_pair, ?_, h.bi_mem, h.un_mem⟩,
      ⟨?_, ?_, ?_, hs.bi_un, ?_⟩⟩, rfl, rfl, rfl, rfl, by simp [c]⟩
    · intro a b
      simp only [mem_delAt, h.parents_iff, Finset.mem_erase, Ne, Prod.mk.injEq]; tauto
    · intro a b
      simp only [mem_delAt, h.children_iff, Finset.mem_erase, Ne, Prod.mk.injEq]; tauto
    · intro a b
      simp only [mem_delAt, h.adjacent_iff, Finset.mem_erase, Ne, Prod.mk.injEq]
      by_cases q1 : a = i ∧ b = j
      · obtain ⟨rfl, rfl⟩ := q1
        simp [hb, hu, hr]
      · by_cases q2 : a = j ∧ b = i
        · obtain ⟨rfl, rfl⟩ := q2
          simp [hb', hu', hr]
        · have q1' : ¬ (b = j ∧ a = i) := fun h => q1 ⟨h.2, h.1⟩
          have q2' : ¬ (b = i ∧ a = j) := fun h => q2 ⟨h.2, h.1⟩
          simp [q1, q1', q2']
    · exact fun a ha => h.dir_ne a (Finset.mem_of_mem_erase ha)
    · exact fun a b hab => h.dir_mem a b (Finset.mem_of_mem_erase hab)
    · exact fun a b hab hba => hs.dir_dir a b (Finset.mem_of_mem_erase hab) (Finset.mem_of_mem_erase hba)
    · exact fun a b hab => hs.dir_bi a b (Finset.mem_of_mem_erase hab)
    · exact fun a b hab => hs.dir_un a b (Finset.mem_of_mem_erase hab)
    · exact fun a b k hab => ⟨fun hk => (hs.tails a b k hab).1 (Finset.mem_of_mem_erase hk), (hs.tails a b k hab).2⟩
  · have e : A.removeDirected ig i j = (A, if ig = true then none else some .key) := by
      unfold removeDirected delDirected guard Step.andThen
      simp only [c, if_false]
      cases ig <;> rfl
    rw [e]
    exact ⟨⟨h, hs⟩, rfl, (Finset.erase_eq_of_notMem c).symm, rfl, rfl, by simp [c]⟩

theorem removeBidirected_spec (h : A.Good) (ig : Bool) (i j : α) :
    (A.removeBidirected ig i j).1.Good ∧ (A.removeBidirected ig i j).1.nodes = A.nodes ∧
    (A.removeBidirected ig i j).1.bidirected = A.bidirected.erase {i, j} ∧
    (A.removeBidirected ig i j).1.directed = A.directed ∧ (A.removeBidirected ig i j).1.undirected = A.undirected ∧
    (A.removeBidirected ig i j).2 = if {i, j} ∈ A.bidirected ∨ ig = true then none else some .key := by
  obtain ⟨h, hs⟩ := h
  by_cases c : ({i, j} : Finset α) ∈ A.bidirected
  · have hij : i ≠ j := h.bi_ne c
    have c' : ({j, i} : Finset α) ∈ A.bidirected := by rwa [Finset.pair_comm]
    have p1 : j ∈ A.spouses i := (h.spouses_iff _ _).2 c'
    have p2 : i ∈ delAt A.spouses i j j := by
      rw [mem_delAt, h.spouses_iff]; exact ⟨c, fun h => hij h.1.symm⟩
    have p3 : j ∈ A.adjacent i := (h.adjacent_iff _ _).2 (by tauto)
    have p4 : i ∈ delAt A.adjacent i j j := by
      rw [mem_delAt, h.adjacent_iff]; exact ⟨by tauto, fun h => hij h.1.symm⟩
    have e : A.removeBidirected ig i j = ({ A with
        bidirected := A.bidirected.erase {i, j}
        spouses := delAt (delAt A.spouses i j) j i
        adjacent := delAt (delAt A.adjacent i j) j i }, none) := by
      unfold removeBidirected delBidirected delSpouse delAdj guard Step.andThen
      simp only [c, p1, p2, p3, p4, if_true]
      cases ig <;> rfl
    rw [e]
    have hu : ({i, j} : Finset α) ∉ A.undirected := hs.bi_un _ c
    have hu' : ({j, i} : Finset α) ∉ A.undirected := by rwa [Finset.pair_comm]
    have hr : (i, j) ∉ A.directed := fun hd => hs.dir_bi _ _ hd c
    have hr' : (j, i) ∉ A.directed := fun hd => hs.dir_bi _ _ hd c'
    refine ⟨⟨⟨h.parents_iff, h.children_iff, ?_, h.neighbors_iff, ?_, h.dir_ne, ?_, h.un_pair, h.dir_mem, ?_, h.un_mem⟩,
      ⟨hs.dir_dir, ?_, hs.dir_un, ?_, ?_⟩⟩, rfl, rfl, rfl, rfl, by simp [c]⟩
    · intro a b
      simp only [mem_delAt, h.spouses_iff, Finset.mem_erase, Ne, UG.pair_eq]; tauto
    · intro a b
      simp only [mem_delAt, h.adjacent_iff, Finset.mem_erase, Ne, UG.pair_eq]
      by_cases q1 : a = i ∧ b = j
      · obtain ⟨rfl, rfl⟩ := q1
        simp [hr, hu, hr']
      · by_cases q2 : a = j ∧ b = i
        · obtain ⟨rfl, rfl⟩ := q2
          simp [hr, hu', hr']
        · have q1' : ¬ (b = j ∧ a = i) := fun h => q1 ⟨h.2, h.1⟩
          have q2' : ¬ (b = i ∧ a = j) := fun h => q2 ⟨h.2, h.1⟩
          simp [q1, q2, q1', q2']
    · exact fun e he => h.bi_pair e (Finset.mem_of_mem_erase he)
    · exact fun e he => h.bi_mem e (Finset.mem_of_mem_erase he)
    · exact fun a b hab hba => hs.dir_bi a b hab (Finset.mem_of_mem_erase hba)
    · exact fun e he => hs.bi_un e (Finset.mem_of_mem_erase he)
    · exact fun a b k hab => ⟨(hs.tails a b k hab).1, fun hk => (hs.tails a b k hab).2 (Finset.mem_of_mem_erase hk)⟩
  · have e : A.removeBidirected ig i j = (A, if ig = true then none else some .key) := by
      unfold removeBidirected delBidirected guard Step.andThen
      simp only [c, if_false]
      cases ig <;> rfl
    rw [e]
    exact ⟨⟨h, hs⟩, rfl, (Finset.erase_eq_of_notMem c).symm, rfl, rfl, by simp [c]⟩

theorem removeUndirected_spec (h : A.Good) (ig : Bool) (i j : α) :
    (A.removeUndirected ig i j).1.Good ∧ (A.removeUndirected ig i j).1.nodes = A.nodes ∧
    (A.removeUndirected ig i j).1.undirected = A.undirected.erase {i, j} ∧
    (A.removeUndirected ig i j).1.directed = A.directed ∧ (A.removeUndirected ig i j).1.bidirected = A.bidirected ∧
    (A.removeUndirected ig i j).2 = if {i, j} ∈ A.undirected ∨ ig = true then none else some .key := by
  obtain ⟨h, hs⟩ := h
  by_cases c : ({i, j} : Finset α) ∈ A.undirected
  · have hij : i ≠ j := h.un_ne c
    have c' : ({j, i} : Finset α) ∈ A.undirected := by rwa [Finset.pair_comm]
    have p1 : j ∈ A.neighbors i := (h.neighbors_iff _ _).2 c'
    have p2 : i ∈ delAt A.neighbors i j j := by
      rw [mem_delAt, h.neighbors_iff]; exact ⟨c, fun h => hij h.1.symm⟩
    have p3 : j ∈ A.adjacent i := (h.adjacent_iff _ _).2 (by tauto)
    have p4 : i ∈ delAt A.adjacent i j j := by
      rw [mem_delAt, h.adjacent_iff]; exact ⟨by tauto, fun h => hij h.1.symm⟩
    have e : A.removeUndirected ig i j = ({ A with
        undirected := A.undirected.erase {i, j}
        neighbors := delAt (delAt A.neighbors i j) j i
        adjacent := delAt (delAt A.adjacent i j) j i }, none) := by
      unfold removeUndirected delUndirected delNbr delAdj guard Step.andThen
      simp only [c, p1, p2, p3, p4, if_true]
      cases ig <;> rfl
    rw [e]
    have hu : ({i, j} : Finset α) ∉ A.bidirected := fun hb => hs.bi_un _ hb c
    have hu' : ({j, i} : Finset α) ∉ A.bidirected := by rwa [Finset.pair_comm]
    have hr : (i, j) ∉ A.directed := fun hd => hs.dir_un _ _ hd c
    have hr' : (j, i) ∉ A.directed := fun hd => hs.dir_un _ _ hd c'
    refine ⟨⟨⟨h.parents_iff, h.children_iff, h.spouses_iff, ?_, ?_, h.dir_ne, h.bi_pair, ?_, h.dir_mem, h.bi_mem, ?_⟩,
      ⟨hs.dir_dir, hs.dir_bi, ?_, ?_, ?_⟩⟩, rfl, rfl, rfl, rfl, by simp [c]⟩
    · intro a b
      simp only [mem_delAt, h.neighbors_iff, Finset.mem_erase, Ne, UG.pair_eq]; tauto
    · intro a b
      simp only [mem_delAt, h.adjacent_iff, Finset.mem_erase, Ne, UG.pair_eq]
      by_cases q1 : a = i ∧ b = j
      · obtain ⟨rfl, rfl⟩ := q1
        simp [hr, hu, hr']
      · by_cases q2 : a = j ∧ b = i
        · obtain ⟨rfl, rfl⟩ := q2
          simp [hr, hu', hr']
        · have q1' : ¬ (b = j ∧ a = i) := fun h => q1 ⟨h.2, h.1⟩
          have q2' : ¬ (b = i ∧ a = j) := fun h => q2 ⟨h.2, h.1⟩
          simp [q1, q2, q1', q2']
    · exact fun e he => h.un_pair e (Finset.mem_of_mem_erase he)
    · exact fun e he => h.un_mem e (Finset.mem_of_mem_erase he)
    · exact fun a b hab hba => hs.dir_un a b hab (Finset.mem_of_mem_erase hba)
    · exact fun e he hu => hs.bi_un e he (Finset.mem_of_mem_erase hu)
    · exact fun a b k hab => hs.tails a b k (Finset.mem_of_mem_erase hab)
  · have e : A.removeUndirected ig i j = (A, if ig = true then none else some .key) := by
      unfold removeUndirected delUndirected guard Step.andThen
      simp only [c, if_false]
      cases ig <;> rfl
    rw [e]
    exact ⟨⟨h, hs⟩, rfl, (Finset.erase_eq_of_notMem c).symm, rfl, rfl, by simp [c]⟩

theorem removeEdge_good (h : A.Good) (ig : Bool) (i j : α) : (A.removeEdge ig i j).1.Good := by
  unfold removeEdge
  split_ifs
  · exact (removeBidirected_spec h _ _ _).1
  · exact (removeDirected_spec h _ _ _).1
  · exact (removeDirected_spec h _ _ _).1
  · exact (removeUndirected_spec h _ _ _).1
  · exact h
  · exact h

omit [DecidableEq α] in
theorem andThen_none (A : AG α) (f : AG α → Step α) : Step.andThen (A, none) f = f A := rfl

/-- `for k in l: d[k].remove(v)` -/
def delAll (d : α → Finset α) (l : List α) (v : α) (k : α) : Finset α := if k ∈ l then (d k).erase v else d k

theorem delAll_nil (d : α → Finset α) (v : α) : delAll d [] v = d := by funext k; simp [delAll]

theorem delAll_cons (d : α → Finset α) (x : α) (l : List α) (v : α) :
    delAll (delAt d x v) l v = delAll d (x :: l) v := by
  funext k
  unfold delAll delAt
  by_cases hk : k = x
  · subst hk; simp
  · simp [hk]

theorem mem_delAll {d : α → Finset α} {l : List α} {v a b : α} :
    b ∈ delAll d l v a ↔ b ∈ d a ∧ ¬ (a ∈ l ∧ b = v) := by
  unfold delAll
  split_ifs with h
  · rw [Finset.mem_erase]; tauto
  · tauto

theorem parentLoop (v : α) : ∀ (l : List α) (A : AG α), l.Nodup →
    (∀ x ∈ l, v ∈ A.children x ∧ v ∈ A.adjacent x ∧ (x, v) ∈ A.directed) →
    forEach (fun A x => ((delChild x v A).andThen (delAdj x v)).andThen (delDirected (x, v))) l A =
      ({ A with
        directed := A.directed.filter fun e => ¬ ∃ x ∈ l, e = (x, v)
        children := delAll A.children l v
        adjacent := delAll A.adjacent l v }, none) := by
  intro l
  induction l with
  | nil =>
    intro A _ _
    simp [forEach, delAll_nil]
  | cons x l ih =>
    intro A hn h
    rw [List.nodup_cons] at hn
    obtain ⟨h1, h2, h3⟩ := h x (by simp)
    have hside : ∀ y ∈ l, v ∈ delAt A.children x v y ∧ v ∈ delAt A.adjacent x v y ∧
        ((fun x => (x, v)) y) ∈ A.directed.erase ((fun x => (x, v)) x) := by
      intro y hy
      have hyx : y ≠ x := fun h => hn.1 (h ▸ hy)
      obtain ⟨k1, k2, k3⟩ := h y (by simp [hy])
      refine ⟨mem_delAt.2 ⟨k1, fun h => hyx h.1⟩, mem_delAt.2 ⟨k2, fun h => hyx h.1⟩, Finset.mem_erase.2 ⟨?_, k3⟩⟩
      intro he
      simp only [Prod.mk.injEq] at he
      tauto
    have hb : ((delChild x v A).andThen (delAdj x v)).andThen (delDirected (x, v)) = ({ A with
        directed := A.directed.erase (x, v)
        children := delAt A.children x v
        adjacent := delAt A.adjacent x v }, none) := by
      unfold delChild delAdj delDirected Step.andThen
      simp only [h1, h2, h3, if_true]
    rw [forEach, hb, andThen_none, ih _ hn.2 hside]
    simp only [delAll_cons]
    congr 2
    ext e
    simp only [Finset.mem_filter, Finset.mem_erase, List.mem_cons, exists_eq_or_imp, not_or]
    tauto

theorem childLoop (v : α) : ∀ (l : List α) (A : AG α), l.Nodup →
    (∀ x ∈ l, v ∈ A.parents x ∧ v ∈ A.adjacent x ∧ (v, x) ∈ A.directed) →
    forEach (fun A x => ((delParent x v A).andThen (delAdj x v)).andThen (delDirected (v, x))) l A =
      ({ A with
        directed := A.directed.filter fun e => ¬ ∃ x ∈ l, e = (v, x)
        parents := delAll A.parents l v
        adjacent := delAll A.adjacent l v }, none) := by
  intro l
  induction l with
  | nil =>
    intro A _ _
    simp [forEach, delAll_nil]
  | cons x l ih =>
    intro A hn h
    rw [List.nodup_cons] at hn
    obtain ⟨h1, h2, h3⟩ := h x (by simp)
    have hside : ∀ y ∈ l, v ∈ delAt A.parents x v y ∧ v ∈ delAt A.adjacent x v y ∧
        ((fun x => (v, x)) y) ∈ A.directed.erase ((fun x => (v, x)) x) := by
      intro y hy
      have hyx : y ≠ x := fun h => hn.1 (h ▸ hy)
      obtain ⟨k1, k2, k3⟩ := h y (by simp [hy])
      refine ⟨mem_delAt.2 ⟨k1, fun h => hyx h.1⟩, mem_delAt.2 ⟨k2, fun h => hyx h.1⟩, Finset.mem_erase.2 ⟨?_, k3⟩⟩
      intro he
      simp only [Prod.mk.injEq] at he
      tauto
    have hb : ((delParent x v A).andThen (delAdj x v)).andThen (delDirected (v, x)) = ({ A with
        directed := A.directed.erase (v, x)
        parents := delAt A.parents x v
        adjacent := delAt A.adjacent x v }, none) := by
      unfold delParent delAdj delDirected Step.andThen
      simp only [h1, h2, h3, if_true]
    rw [forEach, hb, andThen_none, ih _ hn.2 hside]
    simp only [delAll_cons]
    congr 2
    ext e
    simp only [Finset.mem_filter, Finset.mem_erase, List.mem_cons, exists_eq_or_imp, not_or]
    tauto

theorem spouseLoop (v : α) : ∀ (l : List α) (A : AG α), l.Nodup →
    (∀ x ∈ l, v ∈ A.spouses x ∧ v ∈ A.adjacent x ∧ ({x, v} : Finset α) ∈ A.bidirected) →
    forEach (fun A x => ((delSpouse x v A).andThen (delAdj x v)).andThen (delBidirected ({x, v} : Finset α))) l A =
      ({ A with
        bidirected := A.bidirected.filter fun e => ¬ ∃ x ∈ l, e = ({x, v} : Finset α)
        spouses := delAll A.spouses l v
        adjacent := delAll A.adjacent l v }, none) := by
  intro l
  induction l with
  | nil =>
    intro A _ _
    simp [forEach, delAll_nil]
  | cons x l ih =>
    intro A hn h
    rw [List.nodup_cons] at hn
    obtain ⟨h1, h2, h3⟩ := h x (by simp)
    have hside : ∀ y ∈ l, v ∈ delAt A.spouses x v y ∧ v ∈ delAt A.adjacent x v y ∧
        ((fun x => ({x, v} : Finset α)) y) ∈ A.bidirected.erase ((fun x => ({x, v} : Finset α)) x) := by
      intro y hy
      have hyx : y ≠ x := fun h => hn.1 (h ▸ hy)
      obtain ⟨k1, k2, k3⟩ := h y (by simp [hy])
      refine ⟨mem_delAt.2 ⟨k1, fun h => hyx h.1⟩, mem_delAt.2 ⟨k2, fun h => hyx h.1⟩, Finset.mem_erase.2 ⟨?_, k3⟩⟩
      intro he
      rcases UG.pair_eq.1 he with ⟨h, -⟩ | ⟨h, h'⟩
      · exact hyx h
      · exact hyx (h.trans h')
    have hb : ((delSpouse x v A).andThen (delAdj x v)).andThen (delBidirected ({x, v} : Finset α)) = ({ A with
        bidirected := A.bidirected.erase ({x, v} : Finset α)
        spouses := delAt A.spouses x v
        adjacent := delAt A.adjacent x v }, none) := by
      unfold delSpouse delAdj delBidirected Step.andThen
      simp only [h1, h2, h3, if_true]
    rw [forEach, hb, andThen_none, ih _ hn.2 hside]
    simp only [delAll_cons]
    congr 2
    ext e
    simp only [Finset.mem_filter, Finset.mem_erase, List.mem_cons, exists_eq_or_imp, not_or]
    tauto

theorem nbrLoop (v : α) : ∀ (l : List α) (A : AG α), l.Nodup →
    (∀ x ∈ l, v ∈ A.neighbors x ∧ v ∈ A.adjacent x ∧ ({x, v} : Finset α) ∈ A.undirected) →
    forEach (fun A x => ((delNbr x v A).andThen (delAdj x v)).andThen (delUndirected ({x, v} : Finset α))) l A =
      ({ A with
        undirected := A.undirected.filter fun e => ¬ ∃ x ∈ l, e = ({x, v} : Finset α)
        neighbors := delAll A.neighbors l v
        adjacent := delAll A.adjacent l v }, none) := by
  intro l
  induction l with
  | nil =>
    intro A _ _
    simp [forEach, delAll_nil]
  | cons x l ih =>
    intro A hn h
    rw [List.nodup_cons] at hn
    obtain ⟨h1, h2, h3⟩ := h x (by simp)
    have hside : ∀ y ∈ l, v ∈ delAt A.neighbors x v y ∧ v ∈ delAt A.adjacent x v y ∧
        ((fun x => ({x, v} : Finset α)) y) ∈ A.undirected.erase ((fun x => ({x, v} : Finset α)) x) := by
      intro y hy
      have hyx : y ≠ x := fun h => hn.1 (h ▸ hy)
      obtain ⟨k1, k2, k3⟩ := h y (by simp [hy])
      refine ⟨mem_delAt.2 ⟨k1, fun h => hyx h.1⟩, mem_delAt.2 ⟨k2, fun h => hyx h.1⟩, Finset.mem_erase.2 ⟨?_, k3⟩⟩
      intro he
      rcases UG.pair_eq.1 he with ⟨h, -⟩ | ⟨h, h'⟩
      · exact hyx h
      · exact hyx (h.trans h')
    have hb : ((delNbr x v A).andThen (delAdj x v)).andThen (delUndirected ({x, v} : Finset α)) = ({ A with
        undirected := A.undirected.erase ({x, v} : Finset α)
        neighbors := delAt A.neighbors x v
        adjacent := delAt A.adjacent x v }, none) := by
      unfold delNbr delAdj delUndirected Step.andThen
      simp only [h1, h2, h3, if_true]
    rw [forEach, hb, andThen_none, ih _ hn.2 hside]
    simp only [delAll_cons]
    congr 2
    ext e
    simp only [Finset.mem_filter, Finset.mem_erase, List.mem_cons, exists_eq_or_imp, not_or]
    tauto

/-- `remove_node` removes the node and its edges. -/
theorem removeNode_spec (h : A.Good) (ig adjKey : Bool) (o : SetOrder (Fin 4) α) (v : α) :
    (A.removeNode ig adjKey o v).1.Good ∧ (A.removeNode ig adjKey o v).1.nodes = A.nodes.erase v ∧
    (∀ i j, (i, j) ∈ (A.removeNode ig adjKey o v).1.directed ↔ (i, j) ∈ A.directed ∧ i ≠ v ∧ j ≠ v) ∧
    (∀ e, e ∈ (A.removeNode ig adjKey o v).1.bidirected ↔ e ∈ A.bidirected ∧ v ∉ e) ∧
    (∀ e, e ∈ (A.removeNode ig adjKey o v).1.undirected ↔ e ∈ A.undirected ∧ v ∉ e) ∧
    (A.removeNode ig adjKey o v).2 = if (v ∈ A.nodes ∧ adjKey = true) ∨ ig = true then none else some .key := by
  obtain ⟨h, hs⟩ := h
  by_cases hv : v ∈ A.nodes
  · have sp : ∀ x, x ∈ A.spouses v ↔ v ∈ A.spouses x := by
      intro x; rw [h.spouses_iff, h.spouses_iff, Finset.pair_comm]
    have nb : ∀ x, x ∈ A.neighbors v ↔ v ∈ A.neighbors x := by
      intro x; rw [h.neighbors_iff, h.neighbors_iff, Finset.pair_comm]
    have hnot : ∀ x, x ∈ A.parents v → v ≠ x := by
      rintro x hx rfl; exact h.dir_ne _ ((h.parents_iff _ _).1 hx)
    have hnotc : ∀ x, x ∈ A.children v → v ≠ x := by
      rintro x hx rfl; exact h.dir_ne _ ((h.children_iff _ _).1 hx)
    have hnots : ∀ x, x ∈ A.spouses v → v ≠ x := fun x hx => (h.bi_ne ((h.spouses_iff _ _).1 hx)).symm
    have hnotn : ∀ x, x ∈ A.neighbors v → v ≠ x := fun x hx => (h.un_ne ((h.neighbors_iff _ _).1 hx)).symm
    have e1 := parentLoop v (o.ord 0 (A.parents v)) { A with nodes := A.nodes.erase v } (o.nodup _ _) (by
      intro x hx
      rw [o.mem_iff, h.parents_iff] at hx
      exact ⟨(h.children_iff _ _).2 hx, (h.adjacent_iff _ _).2 (by tauto), hx⟩)
    unfold removeNode
    rw [if_pos hv, e1]
    simp only [andThen_none]
    rw [childLoop v _ _ (o.nodup _ _) (by
      intro x hx
      rw [o.mem_iff] at hx
      dsimp only at hx ⊢
      rw [mem_delAll] at hx
      have hx := (h.children_iff _ _).1 hx.1
      refine ⟨(h.parents_iff _ _).2 hx, ?_, ?_⟩
      · rw [mem_delAll, h.adjacent_iff, o.mem_iff, h.parents_iff]
        exact ⟨by tauto, fun h => hs.dir_dir _ _ hx h.1⟩
      · rw [Finset.mem_filter]
        refine ⟨hx, ?_⟩
        rintro ⟨y, -, he⟩
        simp only [Prod.mk.injEq] at he
        exact h.dir_ne v (by rw [he.2] at hx; exact hx))]
    simp only [andThen_none]
    rw [spouseLoop v _ _ (o.nodup _ _) (by
      intro x hx
      rw [o.mem_iff] at hx
      dsimp only at hx ⊢
      have hb := (h.spouses_iff _ _).1 hx
      have hb' : ({v, x} : Finset α) ∈ A.bidirected := by rwa [Finset.pair_comm]
      refine ⟨(sp x).1 hx, ?_, hb⟩
      rw [mem_delAll, mem_delAll, h.adjacent_iff, o.mem_iff, o.mem_iff, h.parents_iff, mem_delAll, h.children_iff]
      exact ⟨⟨by tauto, fun h => hs.dir_bi _ _ h.1 hb⟩, fun h => hs.dir_bi _ _ h.1.1 hb'⟩)]
    simp only [andThen_none]
    rw [nbrLoop v _ _ (o.nodup _ _) (by
      intro x hx
      rw [o.mem_iff] at hx
      dsimp only at hx ⊢
      have hb := (h.neighbors_iff _ _).1 hx
      have hb' : ({v, x} : Finset α) ∈ A.undirected := by rwa [Finset.pair_comm]
      refine ⟨(nb x).1 hx, ?_, hb⟩
      rw [mem_delAll, mem_delAll, mem_delAll, h.adjacent_iff, o.mem_iff, o.mem_iff, o.mem_iff, h.parents_iff, mem_delAll,
        h.children_iff, h.spouses_iff]
      exact ⟨⟨⟨by tauto, fun h => hs.dir_un _ _ h.1 hb⟩, fun h => hs.dir_un _ _ h.1.1 hb'⟩,
        fun h => hs.bi_un _ h.1 hb⟩)]
    simp only [andThen_none, dropKeys, guard, o.mem_iff]
    have hD : ∀ i j, (i, j) ∈ ((A.directed.filter fun e => ¬ ∃ x ∈ A.parents v, e = (x, v)).filter fun e =>
        ¬ ∃ x ∈ delAll A.children (o.ord 0 (A.parents v)) v v, e = (v, x)) ↔ (i, j) ∈ A.directed ∧ i ≠ v ∧ j ≠ v := by
      intro i j
      simp only [Finset.mem_filter, mem_delAll, o.mem_iff, Prod.mk.injEq, h.parents_iff, h.children_iff]
      constructor
      · rintro ⟨⟨h1, h2⟩, h3⟩
        refine ⟨h1, ?_, ?_⟩
        · rintro rfl
          exact h3 ⟨j, ⟨h1, fun hh => h.dir_ne _ hh.1⟩, rfl, rfl⟩
        · rintro rfl
          exact h2 ⟨i, h1, rfl, rfl⟩
      · rintro ⟨h1, h2, h3⟩
        exact ⟨⟨h1, fun ⟨x, _, _, hx⟩ => h3 hx⟩, fun ⟨x, _, hx, _⟩ => h2 hx⟩
    have hB : ∀ e, e ∈ (A.bidirected.filter fun e => ¬ ∃ x ∈ A.spouses v, e = ({x, v} : Finset α)) ↔
        e ∈ A.bidirected ∧ v ∉ e := by
      intro e
      rw [Finset.mem_filter]
      refine and_congr_right fun he => ?_
      constructor
      · intro hx hve
        obtain ⟨a, b, hab, rfl⟩ := h.bi_pair e he
        simp only [Finset.mem_insert, Finset.mem_singleton] at hve
        rcases hve with rfl | rfl
        · exact hx ⟨b, (h.spouses_iff _ _).2 (by rwa [Finset.pair_comm]), Finset.pair_comm _ _⟩
        · exact hx ⟨a, (h.spouses_iff _ _).2 he, rfl⟩
      · rintro hve ⟨x, _, rfl⟩
        exact hve (by simp)
    have hU : ∀ e, e ∈ (A.undirected.filter fun e => ¬ ∃ x ∈ A.neighbors v, e = ({x, v} : Finset α)) ↔
        e ∈ A.undirected ∧ v ∉ e := by
      intro e
      rw [Finset.mem_filter]
      refine and_congr_right fun he => ?_
      constructor
      · intro hx hve
        obtain ⟨a, b, hab, rfl⟩ := h.un_pair e he
        simp only [Finset.mem_insert, Finset.mem_singleton] at hve
        rcases hve with rfl | rfl
        · exact hx ⟨b, (h.neighbors_iff _ _).2 (by rwa [Finset.pair_comm]), Finset.pair_comm _ _⟩
        · exact hx ⟨a, (h.neighbors_iff _ _).2 he, rfl⟩
      · rintro hve ⟨x, _, rfl⟩
        exact hve (by simp)
    generalize hd' : ((A.directed.filter fun e => ¬ ∃ x ∈ A.parents v, e = (x, v)).filter fun e =>
        ¬ ∃ x ∈ delAll A.children (o.ord 0 (A.parents v)) v v, e = (v, x)) = D at hD
    generalize hb' : (A.bidirected.filter fun e => ¬ ∃ x ∈ A.spouses v, e = ({x, v} : Finset α)) = B at hB
    generalize hu' : (A.undirected.filter fun e => ¬ ∃ x ∈ A.neighbors v, e = ({x, v} : Finset α)) = U at hU
    have upd : ∀ (d : α → Finset α) (a b : α), b ∈ Function.update d v ∅ a ↔ a ≠ v ∧ b ∈ d a := by
      intro d a b
      by_cases ha : a = v
      · subst ha; simp
      · rw [Function.update_of_ne ha]; simp [ha]
    have key : ∀ A' : AG α, A'.nodes = A.nodes.erase v → A'.directed = D → A'.bidirected = B → A'.undirected = U →
        (∀ a b, b ∈ A'.children a ↔ a ≠ v ∧ b ∈ A.children a ∧ b ≠ v) →
        (∀ a b, b ∈ A'.parents a ↔ a ≠ v ∧ b ∈ A.parents a ∧ b ≠ v) →
        (∀ a b, b ∈ A'.spouses a ↔ a ≠ v ∧ b ∈ A.spouses a ∧ b ≠ v) →
        (∀ a b, b ∈ A'.neighbors a ↔ a ≠ v ∧ b ∈ A.neighbors a ∧ b ≠ v) →
        (∀ a b, b ∈ A'.adjacent a ↔ a ≠ v ∧ b ∈ A.adjacent a ∧ b ≠ v) → A'.Good := by
      intro A' k1 k2 k3 k4 k5 k6 k7 k8 k9
      constructor
      · refine ⟨?_, ?_, ?_, ?_, ?_, ?_, ?_, ?_, ?_, ?_, ?_⟩
        · intro i j; rw [k6, k2, hD, h.parents_iff]; tauto
        · intro i j; rw [k5, k2, hD, h.children_iff]; tauto
        · intro i j
          rw [k7, k3, hB, h.spouses_iff, Finset.mem_insert, Finset.mem_singleton]
          constructor
          · rintro ⟨q1, q2, q3⟩; exact ⟨q2, fun q => q.elim (fun q => q3 q.symm) (fun q => q1 q.symm)⟩
          · rintro ⟨q1, q2⟩; exact ⟨fun q => q2 (Or.inr q.symm), q1, fun q => q2 (Or.inl q.symm)⟩
        · intro i j
          rw [k8, k4, hU, h.neighbors_iff, Finset.mem_insert, Finset.mem_singleton]
          constructor
          · rintro ⟨q1, q2, q3⟩; exact ⟨q2, fun q => q.elim (fun q => q3 q.symm) (fun q => q1 q.symm)⟩
          · rintro ⟨q1, q2⟩; exact ⟨fun q => q2 (Or.inr q.symm), q1, fun q => q2 (Or.inl q.symm)⟩
        · intro i j
          rw [k9, k2, k3, k4, hD, hD, hB, hU, h.adjacent_iff, Finset.mem_insert, Finset.mem_singleton]
          have q1 : (v = i) ↔ (i = v) := eq_comm
          have q2 : (v = j) ↔ (j = v) := eq_comm
          rw [q1, q2]
          tauto
        · intro i; rw [k2, hD]; exact fun q => h.dir_ne i q.1
        · intro e; rw [k3, hB]; exact fun q => h.bi_pair e q.1
        · intro e; rw [k4, hU]; exact fun q => h.un_pair e q.1
        · intro i j
          rw [k2, hD, k1]
          rintro ⟨q1, q2, q3⟩
          exact ⟨Finset.mem_erase.2 ⟨q2, (h.dir_mem _ _ q1).1⟩, Finset.mem_erase.2 ⟨q3, (h.dir_mem _ _ q1).2⟩⟩
        · intro e
          rw [k3, hB, k1]
          rintro ⟨q1, q2⟩ x hx
          exact Finset.mem_erase.2 ⟨fun hxv => q2 (hxv ▸ hx), h.bi_mem _ q1 hx⟩
        · intro e
          rw [k4, hU, k1]
          rintro ⟨q1, q2⟩ x hx
          exact Finset.mem_erase.2 ⟨fun hxv => q2 (hxv ▸ hx), h.un_mem _ q1 hx⟩
      · refine ⟨?_, ?_, ?_, ?_, ?_⟩
        · intro i j; rw [k2, hD, hD]; exact fun q q' => hs.dir_dir _ _ q.1 q'.1
        · intro i j; rw [k2, k3, hD, hB]; exact fun q q' => hs.dir_bi _ _ q.1 q'.1
        · intro i j; rw [k2, k4, hD, hU]; exact fun q q' => hs.dir_un _ _ q.1 q'.1
        · intro e; rw [k3, k4, hB, hU]; exact fun q q' => hs.bi_un _ q.1 q'.1
        · intro i j k
          rw [k2, k3, k4, hD, hB, hU]
          exact fun q => ⟨fun q' => (hs.tails i j k q.1).1 q'.1, fun q' => (hs.tails i j k q.1).2 q'.1⟩
    have fin : ∀ b : Bool, ∀ A' : AG α, ∀ r : Option (Exn α), (if b = true then (A', none) else (A', r)).1 = A' := by
      intro b A' r; cases b <;> rfl
    rw [fin]
    refine ⟨key _ rfl rfl rfl rfl ?_ ?_ ?_ ?_ ?_, rfl, ?_, ?_, ?_, ?_⟩
    · intro a b
      dsimp only
      rw [upd, mem_delAll, o.mem_iff, h.children_iff, h.parents_iff]
      constructor
      · rintro ⟨q1, q2, q3⟩; exact ⟨q1, q2, fun q => q3 ⟨by rwa [q] at q2, q⟩⟩
      · rintro ⟨q1, q2, q3⟩; exact ⟨q1, q2, fun q => q3 q.2⟩
    · intro a b
      dsimp only
      rw [upd, mem_delAll, o.mem_iff, mem_delAll, h.children_iff, h.parents_iff]
      constructor
      · rintro ⟨q1, q2, q3⟩
        exact ⟨q1, q2, fun q => q3 ⟨⟨by rwa [q] at q2, fun q' => q1 q'.2⟩, q⟩⟩
      · rintro ⟨q1, q2, q3⟩; exact ⟨q1, q2, fun q => q3 q.2⟩
    · intro a b
      dsimp only
      rw [upd, mem_delAll, o.mem_iff]
      constructor
      · rintro ⟨q1, q2, q3⟩; exact ⟨q1, q2, fun q => q3 ⟨(sp a).2 (by rwa [q] at q2), q⟩⟩
      · rintro ⟨q1, q2, q3⟩; exact ⟨q1, q2, fun q => q3 q.2⟩
    · intro a b
      dsimp only
      rw [upd, mem_delAll, o.mem_iff]
      constructor
      · rintro ⟨q1, q2, q3⟩; exact ⟨q1, q2, fun q => q3 ⟨(nb a).2 (by rwa [q] at q2), q⟩⟩
      · rintro ⟨q1, q2, q3⟩; exact ⟨q1, q2, fun q => q3 q.2⟩
    · intro a b
      dsimp only
      rw [upd, mem_delAll, mem_delAll, mem_delAll, mem_delAll, o.mem_iff, o.mem_iff, o.mem_iff, o.mem_iff, mem_delAll]
      constructor
      · rintro ⟨q1, ⟨⟨⟨q2, q3⟩, q4⟩, q5⟩, q6⟩
        refine ⟨q1, q2, ?_⟩
        rintro rfl
        rw [h.adjacent_iff] at q2
        rcases q2 with q2 | q2 | q2 | q2
        · exact q4 ⟨⟨(h.children_iff _ _).2 q2, fun q => q1 q.2⟩, rfl⟩
        · exact q3 ⟨(h.parents_iff _ _).2 q2, rfl⟩
        · exact q5 ⟨(sp a).2 ((h.spouses_iff _ _).2 q2), rfl⟩
        · exact q6 ⟨(nb a).2 ((h.neighbors_iff _ _).2 q2), rfl⟩
      · rintro ⟨q1, q2, q3⟩
        exact ⟨q1, ⟨⟨⟨q2, fun q => q3 q.2⟩, fun q => q3 q.2⟩, fun q => q3 q.2⟩, fun q => q3 q.2⟩
    · intro i j; rw [← hD i j]
    · intro e; rw [← hB e]
    · intro e; rw [← hU e]
    · cases ig <;> cases adjKey <;> simp [hv]
  · have e : A.removeNode ig adjKey o v = (A, if ig = true then none else some .key) := by
      unfold removeNode guard
      rw [if_neg hv]
      cases ig <;> rfl
    rw [e]
    refine ⟨⟨h, hs⟩, (Finset.erase_eq_of_notMem hv).symm, ?_, ?_, ?_, by simp [hv]⟩
    · intro i j
      refine ⟨fun q => ⟨q, ?_, ?_⟩, fun q => q.1⟩
      · rintro rfl; exact hv (h.dir_mem _ _ q).1
      · rintro rfl; exact hv (h.dir_mem _ _ q).2
    · exact fun e => ⟨fun q => ⟨q, fun q' => hv (h.bi_mem e q q')⟩, fun q => q.1⟩
    · exact fun e => ⟨fun q => ⟨q, fun q' => hv (h.un_mem e q q')⟩, fun q => q.1⟩

end AG

end Model
