import Verif.Spec.HiddenTables
import Verif.Proof.Hidden
import Verif.Proof.DiscreteFaithful

/-! # Tables on the graph with hidden causes and selection -/

namespace Model.DiscreteDAG

open Spec
open scoped NNReal

set_option linter.unusedSectionVars false

variable {α : Type} [DecidableEq α] {D : DiscreteDAG α}

/-- Independence of a list is inherited by each element. -/
theorem indep_elem (hD : D.Proper) {A B C : List α} (hnd : (A ++ B ++ C).Nodup) (hn : ∀ v ∈ A ++ B ++ C, v ∈ D.dag.nodes)
    (h : ∀ x : α → ℕ, (∀ v ∈ A ++ B ++ C, x v < D.dims v) → D.pr (A ++ B ++ C) x * D.pr C x = D.pr (A ++ C) x * D.pr (B ++ C) x) {a : α}
    (ha : a ∈ A) {x : α → ℕ} (hx : ∀ v ∈ [a] ++ B ++ C, x v < D.dims v) :
    D.pr ([a] ++ B ++ C) x * D.pr C x = D.pr ([a] ++ C) x * D.pr (B ++ C) x := by
  set l := A.erase a with hl
  have hA : A.Nodup := hnd.of_append_left.of_append_left
  have hperm : A.Perm (a :: l) := List.perm_cons_erase ha
  have memA : ∀ v, v ∈ A ↔ v = a ∨ v ∈ l := fun v => by rw [hperm.mem_iff, List.mem_cons]
  have hnd' : ((a :: l) ++ B ++ C).Nodup := ((hperm.append_right B).append_right C).nodup_iff.1 hnd
  have hlB : ∀ v ∈ l, v ∉ B := fun v h1 h2 => List.disjoint_of_nodup_append hnd.of_append_left ((memA v).2 (Or.inr h1)) h2
  have hlC : ∀ v ∈ l, v ∉ C := fun v h1 h2 => List.disjoint_of_nodup_append hnd (List.mem_append_left _ ((memA v).2 (Or.inr h1))) h2
  have p1 : ((a :: l) ++ B ++ C).Perm (([a] ++ B ++ C) ++ l) := by
    have : (l ++ (B ++ C)).Perm ((B ++ C) ++ l) := List.perm_append_comm
    simpa using this.cons a
  have p2 : ((a :: l) ++ C).Perm (([a] ++ C) ++ l) := by
    have : (l ++ C).Perm (C ++ l) := List.perm_append_comm
    simpa using this.cons a
  have nd1 := p1.nodup_iff.1 hnd'
  have nd2 : (([a] ++ C) ++ l).Nodup := by
    refine nd1.sublist ?_
    exact ((List.Sublist.refl [a]).append (List.sublist_append_right B C) |>.trans (by simp)).append (List.Sublist.refl l)
  have hn1 : ∀ v ∈ ([a] ++ B ++ C) ++ l, v ∈ D.dag.nodes := fun v hv => hn v (((hperm.append_right B).append_right C).mem_iff.2 (p1.mem_iff.2 hv))
  have hn2 : ∀ v ∈ ([a] ++ C) ++ l, v ∈ D.dag.nodes := fun v hv => hn1 v (by simp at hv ⊢; tauto)
  have look : ∀ S : List α, LooksAt (D.pr S) {v | v ∈ S} := fun S x y h => pr_base h
  rw [pr_sum hD.toShaped nd1 hn1 x hx, pr_sum hD.toShaped nd2 hn2 x fun v hv => hx v (by simp at hv ⊢; tauto),
    ← sumL_mul (look C) (fun v hv => hlC v hv), ← sumL_mul (look (B ++ C)) (fun v hv h => by
      rcases List.mem_append.1 h with h | h
      · exact hlB v hv h
      · exact hlC v hv h)]
  refine sumL_congr fun y h1 h2 => ?_
  have e1 : ∀ v, v ∈ ([a] ++ B ++ C) ++ l ↔ v ∈ A ++ B ++ C := fun v => (((hperm.append_right B).append_right C).trans p1).mem_iff.symm
  have e2 : ∀ v, v ∈ ([a] ++ C) ++ l ↔ v ∈ A ++ C := fun v => ((hperm.append_right C).trans p2).mem_iff.symm
  rw [pr_congr e1, pr_congr e2]
  refine h y fun v hv => ?_
  by_cases hvl : v ∈ l
  · exact h1 v hvl
  · rw [h2 v hvl]
    refine hx v ?_
    have := (e1 v).2 hv
    rcases List.mem_append.1 this with k | k
    · exact k
    · exact absurd k hvl

/-- Independence of lists is inherited by pairs. -/
theorem indep_pair (hD : D.Proper) {A B C : List α} (hnd : (A ++ B ++ C).Nodup) (hn : ∀ v ∈ A ++ B ++ C, v ∈ D.dag.nodes)
    (h : ∀ x : α → ℕ, (∀ v ∈ A ++ B ++ C, x v < D.dims v) → D.pr (A ++ B ++ C) x * D.pr C x = D.pr (A ++ C) x * D.pr (B ++ C) x) {a b : α}
    (ha : a ∈ A) (hb : b ∈ B) {x : α → ℕ} (hx : ∀ v ∈ a :: b :: C, x v < D.dims v) :
    D.pr (a :: b :: C) x * D.pr C x = D.pr (a :: C) x * D.pr (b :: C) x := by
  have nd1 : ([a] ++ B ++ C).Nodup :=
    hnd.sublist (((List.singleton_sublist.2 ha).append (List.Sublist.refl B)).append (List.Sublist.refl C))
  have sub : ∀ v ∈ [a] ++ B ++ C, v ∈ A ++ B ++ C := by
    intro v hv
    simp only [List.mem_append, List.mem_singleton] at hv ⊢
    rcases hv with (rfl | h) | h
    · exact Or.inl (Or.inl ha)
    · exact Or.inl (Or.inr h)
    · exact Or.inr h
  have sw : ([a] ++ B ++ C).Perm (B ++ [a] ++ C) := List.perm_append_comm.append_right C
  have key := indep_elem hD (A := B) (B := [a]) (C := C) (sw.nodup_iff.1 nd1) (fun v hv => hn v (sub v (sw.mem_iff.2 hv)))
    (fun y hy => by
      rw [pr_congr fun v => sw.symm.mem_iff, mul_comm (D.pr (B ++ C) y)]
      exact indep_elem hD hnd hn h ha fun v hv => hy v (sw.mem_iff.1 hv)) hb (x := x) (fun v hv => hx v (by simp at hv ⊢; tauto))
  rw [mul_comm (D.pr (a :: C) x), pr_congr (T := [b] ++ [a] ++ C) fun v => by simp; tauto]
  exact key

end Model.DiscreteDAG

namespace Model.AG

open Spec

variable {α : Type} [DecidableEq α] {G : AG α}

theorem anc_of (ha : G.mixed.Ancestral) : G.mixed.Canon where
  anc := ha
  bi_symm u v h := by
    change ({v, u} : Finset α) ∈ _
    rw [Finset.pair_comm]; exact h
  un_symm u v h := by
    change ({v, u} : Finset α) ∈ _
    rw [Finset.pair_comm]; exact h

/-- The arcs of the graph with hidden nodes. -/
def hiddenArcs (G : AG α) : Finset ((α ⊕ Finset α) × (α ⊕ Finset α)) :=
  G.directed.image (fun a => (.inl a.1, .inl a.2)) ∪ G.bidirected.biUnion (fun e => e.image fun v => (.inr e, .inl v)) ∪
    G.undirected.biUnion fun e => e.image fun v => (.inl v, .inr e)

/-- The graph with hidden nodes. -/
def hiddenDag (G : AG α) : DAG (α ⊕ Finset α) where
  nodes := G.nodes.image .inl ∪ (G.bidirected ∪ G.undirected).image .inr
  arcs := G.hiddenArcs
  neighbors v := (G.hiddenArcs.filter fun a => a.2 = v).image Prod.fst ∪ (G.hiddenArcs.filter fun a => a.1 = v).image Prod.snd
  parents v := (G.hiddenArcs.filter fun a => a.2 = v).image Prod.fst
  children v := (G.hiddenArcs.filter fun a => a.1 = v).image Prod.snd

theorem hiddenArcs_iff (hG : G.Good) (s t : α ⊕ Finset α) : (s, t) ∈ G.hiddenArcs ↔ Hidden G.mixed s t := by
  simp only [hiddenArcs, Finset.mem_union, Finset.mem_image, Finset.mem_biUnion, Prod.mk.injEq]
  constructor
  · rintro ((⟨⟨a, b⟩, h, rfl, rfl⟩ | ⟨e, he, v, hv, rfl, rfl⟩) | ⟨e, he, v, hv, rfl, rfl⟩)
    · exact .dir h
    · obtain ⟨i, j, -, rfl⟩ := hG.1.bi_pair e he
      rcases Finset.mem_insert.1 hv with rfl | hv
      · rw [Finset.pair_comm] at he ⊢; exact .cause he
      · rw [Finset.mem_singleton] at hv; subst hv; exact .cause he
    · obtain ⟨i, j, -, rfl⟩ := hG.1.un_pair e he
      rcases Finset.mem_insert.1 hv with rfl | hv
      · exact .effect he
      · rw [Finset.mem_singleton] at hv; subst hv
        rw [Finset.pair_comm] at he ⊢; exact .effect he
  · rintro (h | h | h)
    · exact Or.inl (Or.inl ⟨_, h, rfl, rfl⟩)
    · exact Or.inl (Or.inr ⟨_, h, _, by simp, rfl, rfl⟩)
    · exact Or.inr ⟨_, h, _, by simp, rfl, rfl⟩

theorem hiddenDag_E (hG : G.Good) : G.hiddenDag.E = Hidden G.mixed := by
  funext s t
  exact propext (hiddenArcs_iff hG s t)

theorem hiddenDag_valid (hG : G.Good) (ha : G.mixed.Ancestral) : G.hiddenDag.Valid where
  parents_iff i j := by simp [hiddenDag]
  children_iff i j := by simp [hiddenDag]
  neighbors_iff i j := by simp [hiddenDag]
  fst_mem i j h := by
    replace h := (hiddenArcs_iff hG i j).1 h
    rcases h with h | h | h
    · simp [hiddenDag, (hG.1.dir_mem _ _ h).1]
    · simp only [hiddenDag, Finset.mem_union, Finset.mem_image]
      exact Or.inr ⟨_, Or.inl h, rfl⟩
    · simp only [hiddenDag, Finset.mem_union, Finset.mem_image]
      exact Or.inl ⟨_, hG.1.un_mem _ h (by simp), rfl⟩
  snd_mem i j h := by
    replace h := (hiddenArcs_iff hG i j).1 h
    rcases h with h | h | h
    · simp [hiddenDag, (hG.1.dir_mem _ _ h).2]
    · simp only [hiddenDag, Finset.mem_union, Finset.mem_image]
      exact Or.inl ⟨_, hG.1.bi_mem _ h (by simp), rfl⟩
    · simp only [hiddenDag, Finset.mem_union, Finset.mem_image]
      exact Or.inr ⟨_, Or.inr h, rfl⟩
  acyclic := by
    rw [hiddenDag_E hG]
    exact (anc_of ha).hidden_acyclic

theorem hiddenDag_nodes (v : α) : .inl v ∈ G.hiddenDag.nodes ↔ v ∈ G.nodes := by simp [hiddenDag]

omit [DecidableEq α] in
theorem mem_selection {s : α ⊕ Finset α} : s ∈ selection G ↔ ∃ e ∈ G.undirected, s = .inr e := by
  simp [selection, eq_comm]

theorem selected_eq (hG : G.Good) : Selected G.mixed = {s | s ∈ selection G} := by
  ext s
  change (∃ u v, G.mixed.un u v ∧ s = .inr {u, v}) ↔ s ∈ selection G
  rw [mem_selection]
  constructor
  · rintro ⟨u, v, h, rfl⟩; exact ⟨_, h, rfl⟩
  · rintro ⟨e, he, rfl⟩
    obtain ⟨i, j, -, rfl⟩ := hG.1.un_pair e he
    exact ⟨i, j, he, rfl⟩

/-- What is conditioned on, as a list. -/
theorem given_eq (hG : G.Good) (C : List α) : Sum.inl '' {v | v ∈ C} ∪ Selected G.mixed = {s | s ∈ C.map .inl ++ selection G} := by
  rw [selected_eq hG]
  ext s
  simp

omit [DecidableEq α] in
theorem lists_nodup {A B C : List α} (h : (A ++ B ++ C).Nodup) : (A.map Sum.inl ++ B.map Sum.inl ++ (C.map Sum.inl ++ selection G)).Nodup := by
  rw [← List.append_assoc, ← List.map_append, ← List.map_append]
  refine List.nodup_append'.2 ⟨h.map Sum.inl_injective, (Finset.nodup_toList _).map Sum.inr_injective, fun s h1 h2 => ?_⟩
  obtain ⟨v, -, rfl⟩ := List.mem_map.1 h1
  obtain ⟨e, -, h⟩ := mem_selection.1 h2
  cases h

theorem lists_mem (hG : G.Good) {D : DiscreteDAG (α ⊕ Finset α)} (hD : HiddenTables G D) {A B C : List α} (h : ∀ v ∈ A ++ B ++ C, v ∈ G.nodes) :
    ∀ s ∈ A.map Sum.inl ++ B.map Sum.inl ++ (C.map Sum.inl ++ selection G), s ∈ D.dag.nodes := by
  intro s hs
  rw [← List.append_assoc, ← List.map_append, ← List.map_append] at hs
  rcases List.mem_append.1 hs with hs | hs
  · obtain ⟨v, hv, rfl⟩ := List.mem_map.1 hs
    exact (hD.nodes v).2 (h v hv)
  · obtain ⟨e, he, rfl⟩ := mem_selection.1 hs
    obtain ⟨i, j, -, rfl⟩ := hG.1.un_pair e he
    refine hD.proper.valid.snd_mem (.inl i) _ ?_
    change D.dag.E _ _
    rw [hD.arcs]
    exact .effect he

/-- Separated nodes are independent in the selected part of the samples. -/
theorem indep_of_msep (hG : G.Good) (ha : G.mixed.Ancestral) {D : DiscreteDAG (α ⊕ Finset α)} (hD : HiddenTables G D) {A B C : List α}
    (hnd : (A ++ B ++ C).Nodup) (hn : ∀ v ∈ A ++ B ++ C, v ∈ G.nodes) (hs : G.mixed.MSep {v | v ∈ A} {v | v ∈ B} {v | v ∈ C})
    {x : α ⊕ Finset α → ℕ} (hx : ∀ v ∈ D.dag.nodes, x v < D.dims v) : IndepAt G D A B C x := by
  have hAC : Disjoint {v | v ∈ A} {v | v ∈ C} := Set.disjoint_left.2 fun v h1 h2 =>
    List.disjoint_of_nodup_append hnd (List.mem_append_left _ h1) h2
  rw [← (anc_of ha).dsep_hidden hAC, given_eq hG, ← hD.arcs] at hs
  have hl : ∀ L : List α, (Sum.inl '' {v | v ∈ L} : Set (α ⊕ Finset α)) = {s | s ∈ L.map .inl} := fun L => by ext s; simp
  rw [hl, hl] at hs
  have hm := lists_mem hG hD hn
  exact DiscreteDAG.pr_dsep hD.proper (lists_nodup hnd) hm hs fun v hv => hx v (hm v hv)

/-- Some tables make all nodes dependent that are not separated. -/
theorem exists_hidden (hG : G.Good) (ha : G.mixed.Ancestral) : ∃ D, HiddenTables G D ∧ (∀ v, D.alph v = [0, 1]) ∧
    ∀ (i j : α) (C : List α), (i :: j :: C).Nodup → (∀ v ∈ i :: j :: C, v ∈ G.nodes) → IndepAt G D [i] [j] C (fun _ => 1) →
      G.mixed.MSep {i} {j} {v | v ∈ C} := by
  obtain ⟨D, h1, h2, -, h3, h4⟩ := DiscreteDAG.exists_binary (hiddenDag_valid hG ha)
  have hD : HiddenTables G D := ⟨h2, by rw [h1, hiddenDag_E hG], fun v => by rw [h1, hiddenDag_nodes]⟩
  refine ⟨D, hD, h3, fun i j C hnd hn h => ?_⟩
  have hiC : Disjoint ({i} : Set α) {v | v ∈ C} := Set.disjoint_singleton_left.2 fun h => (List.nodup_cons.1 hnd).1 (by
    simp at h; simp [h])
  rw [← (anc_of ha).dsep_hidden hiC, given_eq hG, ← hiddenDag_E hG, Set.image_singleton, Set.image_singleton]
  have hm := lists_mem hG hD (A := [i]) (B := [j]) (C := C) hn
  have hd := lists_nodup (G := G) (A := [i]) (B := [j]) (C := C) hnd
  rw [h1] at hm
  simp only [IndepAt, List.map_cons, List.map_nil, List.cons_append, List.nil_append] at h hm hd
  generalize C.map Sum.inl ++ selection G = L at h hm hd ⊢
  exact h4 (.inl i) (.inl j) L hd hm h

theorem indepAt_pair (hG : G.Good) {D : DiscreteDAG (α ⊕ Finset α)} (hD : HiddenTables G D) {A B C : List α} (hnd : (A ++ B ++ C).Nodup)
    (hn : ∀ v ∈ A ++ B ++ C, v ∈ G.nodes) (h : Indep G D A B C) {a b : α} (ha : a ∈ A) (hb : b ∈ B) {x : α ⊕ Finset α → ℕ}
    (hx : ∀ v ∈ D.dag.nodes, x v < D.dims v) : IndepAt G D [a] [b] C x := by
  have hm := lists_mem hG hD hn
  refine DiscreteDAG.indep_pair hD.proper (lists_nodup hnd) hm (fun y hy => ?_) (List.mem_map_of_mem ha) (List.mem_map_of_mem hb) fun v hv => hx v (hm v ?_)
  · -- values of the other nodes do not matter
    obtain ⟨z, z1, z2⟩ : ∃ z : α ⊕ Finset α → ℕ, (∀ v ∈ A.map Sum.inl ++ B.map Sum.inl ++ (C.map Sum.inl ++ selection G), z v = y v) ∧
        ∀ v ∈ D.dag.nodes, z v < D.dims v := by
      classical
      refine ⟨fun v => if v ∈ A.map Sum.inl ++ B.map Sum.inl ++ (C.map Sum.inl ++ selection G) then y v else 0, fun v hv => if_pos hv, fun v hv => ?_⟩
      dsimp only
      split
      · exact hy v ‹_›
      · exact hD.proper.dims_pos hv
    have := h z z2
    have e : ∀ S : List (α ⊕ Finset α), (∀ v ∈ S, v ∈ A.map Sum.inl ++ B.map Sum.inl ++ (C.map Sum.inl ++ selection G)) → D.pr S z = D.pr S y :=
      fun S hS => DiscreteDAG.pr_base fun v hv => z1 v (hS v hv)
    unfold IndepAt at this
    rwa [e _ fun v hv => hv, e _ fun v hv => List.mem_append_right _ hv, e _ fun v hv => by simp only [List.mem_append] at hv ⊢; tauto,
      e _ fun v hv => by simp only [List.mem_append] at hv ⊢; tauto] at this
  · simp only [List.mem_cons, List.mem_append, List.mem_map] at hv ⊢
    rcases hv with rfl | rfl | hv
    · exact Or.inl (Or.inl ⟨a, ha, rfl⟩)
    · exact Or.inl (Or.inr ⟨b, hb, rfl⟩)
    · exact Or.inr hv

/-- m-separation is independence in all distributions with hidden causes and selection. -/
theorem msep_iff_indep (hG : G.Good) (ha : G.mixed.Ancestral) {A B C : List α} (hnd : (A ++ B ++ C).Nodup) (hn : ∀ v ∈ A ++ B ++ C, v ∈ G.nodes) :
    G.mixed.MSep {v | v ∈ A} {v | v ∈ B} {v | v ∈ C} ↔ ∀ D, HiddenTables G D → Indep G D A B C := by
  refine ⟨fun h D hD x hx => indep_of_msep hG ha hD hnd hn h hx, fun h => ?_⟩
  obtain ⟨D, hD, h2, h3⟩ := exists_hidden hG ha
  have sub : ∀ a ∈ A, ∀ b ∈ B, ([a] ++ [b] ++ C).Sublist (A ++ B ++ C) := fun a ka b kb =>
    ((List.singleton_sublist.2 ka).append (List.singleton_sublist.2 kb)).append (List.Sublist.refl C)
  exact fun a ka b kb l => h3 a b C (hnd.sublist (sub a ka b kb)) (fun v hv => hn v ((sub a ka b kb).subset hv))
    (indepAt_pair hG hD hnd hn (h D hD) ka kb fun v hv => by simp [DiscreteDAG.dims, h2]) a rfl b rfl l

end Model.AG
