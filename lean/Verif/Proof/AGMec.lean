import Verif.Proof.AGMarks

/-! # `get_all_mec` -/

namespace Model

universe u
variable {α : Type u} [DecidableEq α] {A B C : AG α}
open Relation Spec

namespace AG

/-- A directed maximal ancestral graph with the nodes `V`. -/
structure IsMag (V : Finset α) (B : AG α) : Prop where
  good : B.Good
  nodes : B.nodes = V
  un : B.undirected = ∅
  anc : B.mixed.Ancestral
  max : B.mixed.Maximal {v | v ∈ V}

/-- `C` is `B` with one legitimate mark change. -/
def Next (V : Finset α) (B C : AG α) : Prop :=
  IsMag V C ∧ B.mixed.MarkovEquiv C.mixed {v | v ∈ V} ∧
    ((∃ i j, B.mixed.dir i j ∧ C.directed = B.directed.erase (i, j) ∧ C.bidirected = insert {i, j} B.bidirected) ∨
      ∃ i j, B.mixed.bi i j ∧ C.directed = insert (i, j) B.directed ∧ C.bidirected = B.bidirected.erase {i, j})

omit [DecidableEq α] in
theorem mixed_ext {M N : Mixed α} (h1 : ∀ u v, M.dir u v ↔ N.dir u v) (h2 : ∀ u v, M.bi u v ↔ N.bi u v)
    (h3 : ∀ u v, M.un u v ↔ N.un u v) : M = N := by
  cases M; cases N
  simp only [Mixed.mk.injEq]
  exact ⟨funext fun u => funext fun v => propext (h1 u v), funext fun u => funext fun v => propext (h2 u v),
    funext fun u => funext fun v => propext (h3 u v)⟩

theorem mixed_toBi {i j : α} (h1 : C.directed = B.directed.erase (i, j))
    (h2 : C.bidirected = insert {i, j} B.bidirected) (h3 : C.undirected = B.undirected) : C.mixed = B.mixed.toBi i j := by
  refine mixed_ext (fun u v => ?_) (fun u v => ?_) (fun u v => ?_)
  · change (u, v) ∈ C.directed ↔ (u, v) ∈ B.directed ∧ _
    rw [h1, Finset.mem_erase, Ne, Prod.mk.injEq, and_comm]
  · change {u, v} ∈ C.bidirected ↔ {u, v} ∈ B.bidirected ∨ _
    rw [h2, Finset.mem_insert, UG.pair_eq, or_comm]
  · change _ ∈ C.undirected ↔ _ ∈ B.undirected
    rw [h3]

theorem mixed_toDir {i j : α} (h1 : C.directed = insert (i, j) B.directed)
    (h2 : C.bidirected = B.bidirected.erase {i, j}) (h3 : C.undirected = B.undirected) : C.mixed = B.mixed.toDir i j := by
  refine mixed_ext (fun u v => ?_) (fun u v => ?_) (fun u v => ?_)
  · change (u, v) ∈ C.directed ↔ (u, v) ∈ B.directed ∨ _
    rw [h1, Finset.mem_insert, Prod.mk.injEq, or_comm]
  · change {u, v} ∈ C.bidirected ↔ {u, v} ∈ B.bidirected ∧ _
    rw [h2, Finset.mem_erase, Ne, UG.pair_eq, not_or, and_comm]
  · change _ ∈ C.undirected ↔ _ ∈ B.undirected
    rw [h3]

theorem Good.eq_of_mixed (hB : B.Good) (hC : C.Good) (hn : B.nodes = C.nodes) (h : B.mixed = C.mixed) : B = C := by
  have h1 : ∀ u v, B.mixed.dir u v ↔ C.mixed.dir u v := fun u v => by rw [h]
  have h2 : ∀ u v, B.mixed.bi u v ↔ C.mixed.bi u v := fun u v => by rw [h]
  have h3 : ∀ u v, B.mixed.un u v ↔ C.mixed.un u v := fun u v => by rw [h]
  refine hB.1.ext hC.1 hn (Finset.ext fun e => h1 e.1 e.2) (Finset.ext fun e => ⟨fun k => ?_, fun k => ?_⟩)
    (Finset.ext fun e => ⟨fun k => ?_, fun k => ?_⟩)
  · obtain ⟨i, j, -, rfl⟩ := hB.1.bi_pair e k; exact (h2 i j).1 k
  · obtain ⟨i, j, -, rfl⟩ := hC.1.bi_pair e k; exact (h2 i j).2 k
  · obtain ⟨i, j, -, rfl⟩ := hB.1.un_pair e k; exact (h3 i j).1 k
  · obtain ⟨i, j, -, rfl⟩ := hC.1.un_pair e k; exact (h3 i j).2 k

variable {V : Finset α}

theorem IsMag.ext (hB : IsMag V B) (hC : IsMag V C) (h1 : B.directed = C.directed) (h2 : B.bidirected = C.bidirected) : B = C :=
  hB.good.1.ext hC.good.1 (hB.nodes.trans hC.nodes.symm) h1 h2 (hB.un.trans hC.un.symm)

theorem IsMag.of_dmag (hB : IsMag V B) (hC : C.Good) (hn : C.nodes = B.nodes) (hu : C.undirected = ∅) {N : Mixed α} (hN : C.mixed = N)
    (h : N.DMAG {v | v ∈ B.nodes}) : IsMag V C :=
  ⟨hC, hn.trans hB.nodes, hu, by rw [hN]; exact h.anc, by rw [hN, ← hB.nodes]; exact h.max⟩

theorem addBidirected_free (hB : B.Good) (hun : B.undirected = ∅) {i j : α} (hij : i ≠ j) (hna : ¬ B.mixed.Adj i j) :
    ∃ C, B.addBidirected i j = (C, none) ∧ C.Good ∧ C.bidirected = insert {i, j} B.bidirected ∧
      C.nodes = insert j (insert i B.nodes) ∧ C.directed = B.directed ∧ C.undirected = B.undirected := by
  have hno : (B.addBidirectedRaw i j).2 = none := by
    unfold addBidirectedRaw
    have n : ∀ v, B.neighbors v = ∅ := fun v => Finset.eq_empty_iff_forall_notMem.2 fun x k => by
      rw [hB.1.neighbors_iff, hun] at k; simp at k
    split
    · rfl
    · rw [if_neg (by simp [n]), if_neg (by simp [n]), if_neg]
      rw [hB.1.adjacent_iff]; exact hna
  obtain ⟨h1, h2, -⟩ := addBidirectedRaw_spec hB hij
  exact ⟨_, by rw [addBidirected_eq hB hij]; exact Prod.ext rfl hno, h1, h2 hno⟩

theorem addDirected_free (hB : B.Good) (hun : B.undirected = ∅) {i j : α} (hij : i ≠ j) (hna : ¬ B.mixed.Adj i j)
    (hanc : ∀ C : AG α, C.directed = insert (i, j) B.directed → C.bidirected = B.bidirected → C.undirected = ∅ → C.mixed.Ancestral)
    (o os : SetOrder (Option α) α) :
    ∃ C, B.addDirected o os i j = some (C, none) ∧ C.Good ∧ C.directed = insert (i, j) B.directed ∧
      C.nodes = insert j (insert i B.nodes) ∧ C.bidirected = B.bidirected ∧ C.undirected = B.undirected := by
  have hno : (B.addDirectedRaw i j).2 = none := by
    unfold addDirectedRaw
    have n : ∀ v, B.neighbors v = ∅ := fun v => Finset.eq_empty_iff_forall_notMem.2 fun x k => by
      rw [hB.1.neighbors_iff, hun] at k; simp at k
    split
    · rfl
    · rw [if_neg (by simp [n]), if_neg]
      rw [hB.1.adjacent_iff]; exact hna
  obtain ⟨h1, h2, -⟩ := addDirectedRaw_spec hB hij
  obtain ⟨k1, k2, k3, k4⟩ := h2 hno
  obtain ⟨l, hl, -⟩ := topologicalSort_ok h1 (hanc _ k1 k3 (k4.trans hun)) o os
  refine ⟨_, ?_, h1, k1, k2, k3, k4⟩
  unfold addDirected
  have : B.addDirectedRaw i j = ((B.addDirectedRaw i j).1, none) := Prod.ext rfl hno
  rw [this]
  dsimp only
  rw [hl]

/-- The graph made from a directed edge. -/
theorem make_bi (hB : IsMag V B) {i j : α} (hd : B.mixed.dir i j) (hl : B.mixed.Legit i j) (o : SetOrder (Fin 3) (α × α)) (up : Unpack α) :
    ∃ C, (do
      let A ← ofStep (some (B.copy o up))
      let A ← ofStep (some (A.removeDirected false i j))
      ofStep (some (A.addBidirected i j)) : Run α (AG α)) = pure C ∧ Next V B C ∧
      C.directed = B.directed.erase (i, j) ∧ C.bidirected = insert {i, j} B.bidirected := by
  have hg := hB.good
  have hij : i ≠ j := by rintro rfl; exact hg.1.dir_ne _ hd
  obtain ⟨r1, r2, r3, r4, r5, r6⟩ := removeDirected_spec hg false i j
  have hna : ¬ (B.removeDirected false i j).1.mixed.Adj i j := by
    rintro (k | k | k | k)
    · change _ ∈ _ at k; rw [r3] at k; simp at k
    · change _ ∈ _ at k; rw [r3] at k; exact hg.2.dir_dir _ _ hd (Finset.mem_erase.1 k).2
    · change _ ∈ _ at k; rw [r4] at k; exact hg.2.dir_bi _ _ hd k
    · change _ ∈ _ at k; rw [r5, hB.un] at k; simp at k
  obtain ⟨C, c1, c2, c3, c4, c5, c6⟩ := addBidirected_free r1 (r5.trans hB.un) hij hna
  rw [r3] at c5; rw [r4] at c3; rw [r2] at c4; rw [r5] at c6
  have hm := hg.1.dir_mem _ _ hd
  rw [Finset.insert_eq_of_mem hm.1, Finset.insert_eq_of_mem hm.2] at c4
  have hmix := mixed_toBi c5 c3 c6
  have hD := (legit_toBi hg hB.anc (by rw [hB.nodes]; exact hB.max) hB.un hd).1 hl
  refine ⟨C, ?_, ⟨hB.of_dmag c2 c4 (c6.trans hB.un) hmix hD.1, ?_, Or.inl ⟨i, j, hd, c5, c3⟩⟩, c5, c3⟩
  · have e : B.removeDirected false i j = ((B.removeDirected false i j).1, none) :=
      Prod.ext rfl (r6.trans (if_pos (Or.inl hd)))
    rw [copy_spec hg]
    simp only [ofStep, pure_bind]
    rw [e]
    simp only [pure_bind]
    rw [c1]
  · rw [hmix, ← hB.nodes]; exact hD.2

/-- The graph made from a bidirected edge. -/
theorem make_dir (hB : IsMag V B) {i j : α} (hd : B.mixed.bi i j) (hl : B.mixed.Legit i j) (o : SetOrder (Fin 3) (α × α)) (up : Unpack α)
    (oc os : SetOrder (Option α) α) :
    ∃ C, (do
      let A ← ofStep (some (B.copy o up))
      let A ← ofStep (some (A.removeBidirected false i j))
      ofStep (A.addDirected oc os i j) : Run α (AG α)) = pure C ∧ Next V B C ∧
      C.directed = insert (i, j) B.directed ∧ C.bidirected = B.bidirected.erase {i, j} := by
  have hg := hB.good
  have hij : i ≠ j := hg.1.bi_ne hd
  obtain ⟨r1, r2, r3, r4, r5, r6⟩ := removeBidirected_spec hg false i j
  have hD := (legit_toDir hg hB.anc (by rw [hB.nodes]; exact hB.max) hB.un hd).1 hl
  have hna : ¬ (B.removeBidirected false i j).1.mixed.Adj i j := by
    rintro (k | k | k | k)
    · change _ ∈ _ at k; rw [r4] at k; exact hg.2.dir_bi _ _ k hd
    · change _ ∈ _ at k; rw [r4] at k; exact hg.2.dir_bi _ _ k (by rw [Finset.pair_comm]; exact hd)
    · change _ ∈ _ at k; rw [r3] at k; simp at k
    · change _ ∈ _ at k; rw [r5, hB.un] at k; simp at k
  obtain ⟨C, c1, c2, c3, c4, c5, c6⟩ := addDirected_free r1 (r5.trans hB.un) hij hna (fun C k1 k2 k3 => by
    rw [r4] at k1; rw [r3] at k2
    rw [mixed_toDir k1 k2 (k3.trans hB.un.symm)]
    exact hD.1.anc) oc os
  rw [r4] at c3; rw [r3] at c5; rw [r2] at c4; rw [r5] at c6
  have hm := hg.1.bi_mem _ hd
  rw [Finset.insert_eq_of_mem (hm (by simp) : i ∈ _), Finset.insert_eq_of_mem (hm (by simp) : j ∈ _)] at c4
  have hmix := mixed_toDir c3 c5 c6
  refine ⟨C, ?_, ⟨hB.of_dmag c2 c4 (c6.trans hB.un) hmix hD.1, ?_, Or.inr ⟨i, j, hd, c3, c5⟩⟩, c3, c5⟩
  · have e : B.removeBidirected false i j = ((B.removeBidirected false i j).1, none) :=
      Prod.ext rfl (r6.trans (if_pos (Or.inl hd)))
    rw [copy_spec hg]
    simp only [ofStep, pure_bind]
    rw [e]
    simp only [pure_bind]
    rw [c1]
  · rw [hmix, ← hB.nodes]; exact hD.2

/-- The key of a graph. -/
def key (B : AG α) : Key α := (B.directed, B.bidirected)

theorem IsMag.key_inj (hB : IsMag V B) (hC : IsMag V C) (h : B.key = C.key) : B = C :=
  hB.ext hC (Prod.mk.inj h).1 (Prod.mk.inj h).2

theorem pushBi_fold (hB : IsMag V B) (w : MecOracle α) (visited : Finset (Key α)) : ∀ (L : List (α × α)) (queue : List (AG α)),
    (∀ e ∈ L, B.mixed.dir e.1 e.2 ∧ B.mixed.Legit e.1 e.2) →
    ∃ new, L.foldlM (pushBi w B visited) queue = (pure (new ++ queue) : Run α _) ∧
      (∀ C ∈ new, Next V B C ∧ C.key ∉ visited) ∧
      ∀ e ∈ L, ∀ C, IsMag V C → C.directed = B.directed.erase e → C.bidirected = insert {e.1, e.2} B.bidirected →
        C.key ∉ visited → C ∈ new
  | [], queue, _ => ⟨[], rfl, by simp, by simp⟩
  | e :: L, queue, h => by
    have he := h e (by simp)
    have hL : ∀ e ∈ L, _ := fun e he => h e (List.mem_cons_of_mem _ he)
    rw [List.foldlM_cons]
    by_cases hv : (B.directed.erase e, insert {e.1, e.2} B.bidirected) ∈ visited
    · obtain ⟨new, k1, k2, k3⟩ := pushBi_fold hB w visited L queue hL
      refine ⟨new, ?_, k2, ?_⟩
      · rw [pushBi, if_pos hv, pure_bind]; exact k1
      · intro e' he' C hC c1 c2 c3
        rcases List.mem_cons.1 he' with rfl | he'
        · exact absurd (by unfold key; rw [c1, c2]; exact hv) c3
        · exact k3 e' he' C hC c1 c2 c3
    · obtain ⟨C, c1, c2, c3, c4⟩ := make_bi hB he.1 he.2 (w.copy false e) (w.unpack false e)
      obtain ⟨new, k1, k2, k3⟩ := pushBi_fold hB w visited L (C :: queue) hL
      refine ⟨new ++ [C], ?_, ?_, ?_⟩
      · have : pushBi w B visited queue e = pure (C :: queue) := by
          rw [pushBi, if_neg hv]
          rw [show (do
            let A ← ofStep (some (B.copy (w.copy false e) (w.unpack false e)))
            let A ← ofStep (some (A.removeDirected false e.1 e.2))
            let A ← ofStep (some (A.addBidirected e.1 e.2))
            return A :: queue : Run α (List (AG α))) = (do
            let A ← (do
              let A ← ofStep (some (B.copy (w.copy false e) (w.unpack false e)))
              let A ← ofStep (some (A.removeDirected false e.1 e.2))
              ofStep (some (A.addBidirected e.1 e.2)) : Run α (AG α))
            return A :: queue) by simp only [bind_assoc], c1]
          rfl
        rw [this, pure_bind, k1]
        simp
      · intro D hD
        rcases List.mem_append.1 hD with hD | hD
        · exact k2 D hD
        · rw [List.mem_singleton] at hD
          subst hD
          exact ⟨c2, by unfold key; rw [c3, c4]; exact hv⟩
      · intro e' he' D hD d1 d2 d3
        rcases List.mem_cons.1 he' with rfl | he'
        · have : D = C := hD.ext c2.1 (d1.trans c3.symm) (d2.trans c4.symm)
          simp [this]
        · exact List.mem_append_left _ (k3 e' he' D hD d1 d2 d3)

theorem pushDir_fold (hB : IsMag V B) (w : MecOracle α) (visited : Finset (Key α)) : ∀ (L : List (α × α)) (queue : List (AG α)),
    (∀ e ∈ L, B.mixed.bi e.1 e.2 ∧ B.mixed.Legit e.1 e.2) →
    ∃ new, L.foldlM (pushDir w B visited) queue = (pure (new ++ queue) : Run α _) ∧
      (∀ C ∈ new, Next V B C ∧ C.key ∉ visited) ∧
      ∀ e ∈ L, ∀ C, IsMag V C → C.directed = insert e B.directed → C.bidirected = B.bidirected.erase {e.1, e.2} →
        C.key ∉ visited → C ∈ new
  | [], queue, _ => ⟨[], rfl, by simp, by simp⟩
  | e :: L, queue, h => by
    have he := h e (by simp)
    have hL : ∀ e ∈ L, _ := fun e he => h e (List.mem_cons_of_mem _ he)
    rw [List.foldlM_cons]
    by_cases hv : (insert e B.directed, B.bidirected.erase {e.1, e.2}) ∈ visited
    · obtain ⟨new, k1, k2, k3⟩ := pushDir_fold hB w visited L queue hL
      refine ⟨new, ?_, k2, ?_⟩
      · rw [pushDir, if_pos hv, pure_bind]; exact k1
      · intro e' he' C hC c1 c2 c3
        rcases List.mem_cons.1 he' with rfl | he'
        · exact absurd (by unfold key; rw [c1, c2]; exact hv) c3
        · exact k3 e' he' C hC c1 c2 c3
    · obtain ⟨C, c1, c2, c3, c4⟩ := make_dir hB he.1 he.2 (w.copy true e) (w.unpack true e) (w.children e) (w.spouses e)
      obtain ⟨new, k1, k2, k3⟩ := pushDir_fold hB w visited L (C :: queue) hL
      refine ⟨new ++ [C], ?_, ?_, ?_⟩
      · have : pushDir w B visited queue e = pure (C :: queue) := by
          rw [pushDir, if_neg hv]
          rw [show (do
            let A ← ofStep (some (B.copy (w.copy true e) (w.unpack true e)))
            let A ← ofStep (some (A.removeBidirected false e.1 e.2))
            let A ← ofStep (A.addDirected (w.children e) (w.spouses e) e.1 e.2)
            return A :: queue : Run α (List (AG α))) = (do
            let A ← (do
              let A ← ofStep (some (B.copy (w.copy true e) (w.unpack true e)))
              let A ← ofStep (some (A.removeBidirected false e.1 e.2))
              ofStep (A.addDirected (w.children e) (w.spouses e) e.1 e.2) : Run α (AG α))
            return A :: queue) by simp only [bind_assoc], c1]
          rfl
        rw [this, pure_bind, k1]
        simp
      · intro D hD
        rcases List.mem_append.1 hD with hD | hD
        · exact k2 D hD
        · rw [List.mem_singleton] at hD
          subst hD
          exact ⟨c2, by unfold key; rw [c3, c4]; exact hv⟩
      · intro e' he' D hD d1 d2 d3
        rcases List.mem_cons.1 he' with rfl | he'
        · have : D = C := hD.ext c2.1 (d1.trans c3.symm) (d2.trans c4.symm)
          simp [this]
        · exact List.mem_append_left _ (k3 e' he' D hD d1 d2 d3)

/-- One round: exactly the changed graphs not visited are put on the stack. -/
theorem mecLoop_cons (hB : IsMag V B) (w : ℕ → MecOracle α) (n : ℕ) (queue : List (AG α)) (visited : Finset (Key α))
    (mags : List (AG α)) :
    ∃ new, mecLoop w n (B :: queue) visited mags = mecLoop w (n + 1) (new ++ queue) (insert B.key visited) (B :: mags) ∧
      ∀ C, C ∈ new ↔ Next V B C ∧ C.key ∉ insert B.key visited := by
  obtain ⟨D, E, h1, h2, h3⟩ := legitimateMarkChanges_spec hB.good hB.anc hB.un (w n).marks
  obtain ⟨new1, a1, a2, a3⟩ := pushBi_fold hB (w n) (insert B.key visited) ((w n).loop.ord false D) queue (by
    rintro ⟨i, j⟩ he
    rw [(w n).loop.mem_iff] at he
    exact (h2 i j).1 he)
  obtain ⟨new2, b1, b2, b3⟩ := pushDir_fold hB (w n) (insert B.key visited) ((w n).loop.ord true E) (new1 ++ queue) (by
    rintro ⟨i, j⟩ he
    rw [(w n).loop.mem_iff] at he
    exact (h3 i j).1 he)
  refine ⟨new2 ++ new1, ?_, ?_⟩
  · rw [mecLoop]
    dsimp only
    rw [h1, pure_bind]
    change (List.foldlM (pushBi (w n) B (insert B.key visited)) queue _ >>= fun _ => _) = _
    rw [a1, pure_bind]
    change (List.foldlM (pushDir (w n) B (insert B.key visited)) (new1 ++ queue) _ >>= fun _ => _) = _
    rw [b1, pure_bind, List.append_assoc]
    rfl
  · intro C
    constructor
    · intro hC
      rcases List.mem_append.1 hC with hC | hC
      · exact b2 C hC
      · exact a2 C hC
    · rintro ⟨⟨c1, c2, ⟨i, j, hd, c3, c4⟩ | ⟨i, j, hd, c3, c4⟩⟩, hv⟩
      · apply List.mem_append_right
        refine a3 (i, j) ?_ C c1 c3 c4 hv
        rw [(w n).loop.mem_iff, h2]
        have hmix := mixed_toBi c3 c4 (c1.un.trans hB.un.symm)
        refine ⟨hd, (legit_toBi hB.good hB.anc (by rw [hB.nodes]; exact hB.max) hB.un hd).2 ?_⟩
        rw [← hmix, hB.nodes]
        exact ⟨⟨Good.un_empty c1.un, c1.anc, c1.max⟩, c2⟩
      · apply List.mem_append_left
        refine b3 (i, j) ?_ C c1 c3 c4 hv
        rw [(w n).loop.mem_iff, h3]
        have hmix := mixed_toDir c3 c4 (c1.un.trans hB.un.symm)
        refine ⟨hd, (legit_toDir hB.good hB.anc (by rw [hB.nodes]; exact hB.max) hB.un hd).2 ?_⟩
        rw [← hmix, hB.nodes]
        exact ⟨⟨Good.un_empty c1.un, c1.anc, c1.max⟩, c2⟩

/-- All keys of graphs with the nodes `V`. -/
def univ (V : Finset α) : Finset (Key α) := (V ×ˢ V).powerset ×ˢ V.powerset.powerset

theorem IsMag.key_mem (hB : IsMag V B) : B.key ∈ univ V := by
  unfold univ key
  simp only [Finset.mem_product, Finset.mem_powerset]
  constructor
  · intro e he
    have := hB.good.1.dir_mem e.1 e.2 he
    rw [hB.nodes] at this
    exact Finset.mem_product.2 this
  · intro e he
    have := hB.good.1.bi_mem e he
    rw [hB.nodes] at this
    exact Finset.mem_powerset.2 this

/-- What is known about the rest of the loop. -/
def MecOut (V : Finset α) (m : Run α (List (AG α))) (queue mags : List (AG α)) : Prop :=
  ∃ r, m = pure (mags.reverse ++ r) ∧ (∀ B ∈ r, IsMag V B) ∧ queue ⊆ r ∧
      (∀ X, (X ∈ mags ∨ X ∈ r) → ∀ Y, Next V X Y → Y ∈ mags ∨ Y ∈ r) ∧
      (∀ B ∈ r, ∃ A ∈ queue, ReflTransGen (Next V) A B) ∧
      ((mags.reverse ++ r).Nodup → (mags.reverse ++ queue).Nodup) ∧
      ((mags.reverse ++ r).Nodup → ∀ L1 X L2, queue = L1 ++ X :: L2 → ∀ C ∈ L1, ¬ Next V C X) ∧
      ((mags.reverse ++ r).Nodup → ∀ L1 X L2, queue = L1 ++ X :: L2 → ∀ Y ∈ L1, ∀ C, C ≠ Y → Next V Y C → C ∉ mags →
        ¬ Next V C X)

theorem MecOut.cons {m : Run α (List (AG α))} {new queue mags : List (AG α)} (hB : IsMag V B)
    (e2 : ∀ C ∈ new, Next V B C) (hnot : ∀ C, Next V B C → C ∈ B :: mags ∨ C ∈ new)
    (h : MecOut V m (new ++ queue) (B :: mags)) : MecOut V m (B :: queue) mags := by
  obtain ⟨r, f1, f2, f3, f4, f5, f6, f7, f8⟩ := h
  have hrev : (B :: mags).reverse ++ r = mags.reverse ++ (B :: r) := by simp
  have g7 : (mags.reverse ++ B :: r).Nodup → ∀ L1 X L2, B :: queue = L1 ++ X :: L2 → ∀ C ∈ L1, ¬ Next V C X := by
    intro hnd L1 X L2 he C hC hN
    rw [← hrev] at hnd
    cases L1 with
    | nil => simp at hC
    | cons a L1 =>
      obtain ⟨rfl, rfl⟩ := List.cons.inj he
      rcases List.mem_cons.1 hC with rfl | hC
      · -- `C` is expanded while `X` is still on the stack
        have hnd' := f6 hnd
        rcases hnot X hN with h | h
        · have : ((C :: mags).reverse ++ (new ++ (L1 ++ X :: L2))).Nodup := hnd'
          rw [List.nodup_append] at this
          exact this.2.2 X (by simpa using (List.mem_cons.1 h).symm) X (by simp) rfl
        · have : ((C :: mags).reverse ++ (new ++ (L1 ++ X :: L2))).Nodup := hnd'
          rw [List.nodup_append] at this
          have := this.2.1
          rw [List.nodup_append] at this
          exact this.2.2 X h X (by simp) rfl
      · exact f7 hnd (new ++ L1) X L2 (by simp) C (by simp [hC]) hN
  refine ⟨B :: r, ?_, ?_, ?_, ?_, ?_, ?_, g7, ?_⟩
  · rw [f1, hrev]
  · intro C hC
    rcases List.mem_cons.1 hC with rfl | hC
    · exact hB
    · exact f2 C hC
  · intro C hC
    rcases List.mem_cons.1 hC with rfl | hC
    · simp
    · exact List.mem_cons_of_mem _ (f3 (List.mem_append_right _ hC))
  · intro X hX Y hY
    have : X ∈ B :: mags ∨ X ∈ r := by
      simp only [List.mem_cons] at hX ⊢; tauto
    have := f4 X this Y hY
    simp only [List.mem_cons] at this ⊢; tauto
  · intro C hC
    rcases List.mem_cons.1 hC with rfl | hC
    · exact ⟨C, by simp, .refl⟩
    · obtain ⟨A, hA, hAC⟩ := f5 C hC
      rcases List.mem_append.1 hA with hA | hA
      · exact ⟨B, by simp, .head (e2 A hA) hAC⟩
      · exact ⟨A, by simp [hA], hAC⟩
  · intro hnd
    rw [← hrev] at hnd
    have := f6 hnd
    have hs : (mags.reverse ++ B :: queue).Sublist ((B :: mags).reverse ++ (new ++ queue)) := by
      rw [show (B :: mags).reverse ++ (new ++ queue) = mags.reverse ++ (B :: (new ++ queue)) by simp]
      exact (List.Sublist.refl _).append (List.Sublist.cons_cons _ (List.sublist_append_right _ _))
    exact hs.nodup this
  · intro hnd L1 X L2 he Y hY C hCY hYC hCm hN
    cases L1 with
    | nil => simp at hY
    | cons a L1 =>
      obtain ⟨rfl, rfl⟩ := List.cons.inj he
      by_cases hCB : C = B
      · exact g7 hnd (B :: L1) X L2 rfl C (by simp [hCB]) hN
      · rw [← hrev] at hnd
        rcases List.mem_cons.1 hY with rfl | hY
        · rcases hnot C hYC with h | h
          · exact hCm ((List.mem_cons.1 h).resolve_left hCB)
          · exact f7 hnd (new ++ L1) X L2 (by simp) C (by simp [h]) hN
        · exact f8 hnd (new ++ L1) X L2 (by simp) Y (by simp [hY]) C hCY hYC (by simp [hCB, hCm]) hN

theorem mecLoop_spec (w : ℕ → MecOracle α) : ∀ (m k n : ℕ) (queue : List (AG α)) (visited : Finset (Key α)) (mags : List (AG α)),
    (univ V \ visited).card = m → queue.length = k →
    (∀ B ∈ queue, IsMag V B) → (∀ B ∈ mags, IsMag V B) → (∀ x, x ∈ visited ↔ ∃ B ∈ mags, B.key = x) →
    (∀ X ∈ mags, ∀ Y, Next V X Y → Y ∈ mags ∨ Y ∈ queue) →
    (∀ L1 X L2, queue = L1 ++ X :: L2 → X ∈ mags → ∀ Y, Next V X Y → Y ∈ mags ∨ Y ∈ L1) →
    MecOut V (mecLoop w n queue visited mags) queue mags := by
  intro m
  induction m using Nat.strong_induction_on with
  | _ m ihm =>
    intro k
    induction k using Nat.strong_induction_on with
    | _ k ihk =>
      intro n queue visited mags hm hk hq hg hvis hnext hstack
      cases queue with
      | nil =>
        refine ⟨[], by rw [mecLoop]; simp, by simp, by simp, ?_, by simp, by simp, by simp, by simp⟩
        intro X hX Y hY
        rcases hX with hX | hX
        · simpa using hnext X hX Y hY
        · simp at hX
      | cons B queue =>
        have hB := hq B (by simp)
        obtain ⟨new, e1, e2⟩ := mecLoop_cons hB w n queue visited mags
        have hnewmem : ∀ C ∈ new, C ∉ B :: mags := by
          intro C hC hmem
          apply ((e2 C).1 hC).2
          rw [Finset.mem_insert]
          rcases List.mem_cons.1 hmem with rfl | hmem
          · exact Or.inl rfl
          · exact Or.inr ((hvis _).2 ⟨C, hmem, rfl⟩)
        have hvis' : ∀ x, x ∈ insert B.key visited ↔ ∃ C ∈ B :: mags, C.key = x := by
          intro x
          rw [Finset.mem_insert, hvis]
          constructor
          · rintro (rfl | ⟨C, hC, rfl⟩)
            · exact ⟨B, by simp, rfl⟩
            · exact ⟨C, by simp [hC], rfl⟩
          · rintro ⟨C, hC, rfl⟩
            rcases List.mem_cons.1 hC with rfl | hC
            · exact Or.inl rfl
            · exact Or.inr ⟨C, hC, rfl⟩
        have hg' : ∀ C ∈ B :: mags, IsMag V C := by
          intro C hC
          rcases List.mem_cons.1 hC with rfl | hC
          · exact hB
          · exact hg C hC
        have hnot : ∀ C, Next V B C → C ∈ B :: mags ∨ C ∈ new := by
          intro C hC
          by_cases hv : C.key ∈ insert B.key visited
          · obtain ⟨D, hD, hDk⟩ := (hvis' _).1 hv
            have := (hg' D hD).key_inj hC.1 hDk
            subst this; exact Or.inl hD
          · exact Or.inr ((e2 C).2 ⟨hC, hv⟩)
        have hq' : ∀ C ∈ new ++ queue, IsMag V C := by
          intro C hC
          rcases List.mem_append.1 hC with hC | hC
          · exact ((e2 C).1 hC).1.1
          · exact hq C (by simp [hC])
        have hnext' : ∀ X ∈ B :: mags, ∀ Y, Next V X Y → Y ∈ B :: mags ∨ Y ∈ new ++ queue := by
          intro X hX Y hY
          rcases List.mem_cons.1 hX with rfl | hX
          · rcases hnot Y hY with h | h
            · exact Or.inl h
            · exact Or.inr (List.mem_append_left _ h)
          · rcases hnext X hX Y hY with h | h
            · exact Or.inl (by simp [h])
            · rcases List.mem_cons.1 h with rfl | h
              · exact Or.inl (by simp)
              · exact Or.inr (List.mem_append_right _ h)
        have hstack' : ∀ L1 X L2, new ++ queue = L1 ++ X :: L2 → X ∈ B :: mags → ∀ Y, Next V X Y → Y ∈ B :: mags ∨ Y ∈ L1 := by
          intro L1 X L2 he hX Y hY
          -- `X` lies in the old part
          rcases List.append_eq_append_iff.1 he with ⟨t, rfl, ht⟩ | ⟨t, rfl, ht⟩
          · rcases List.mem_cons.1 hX with rfl | hX
            · rcases hnot Y hY with h | h
              · exact Or.inl h
              · exact Or.inr (List.mem_append_left _ h)
            · rcases hstack (B :: t) X L2 (by simp [ht]) hX Y hY with h | h
              · exact Or.inl (by simp [h])
              · rcases List.mem_cons.1 h with rfl | h
                · exact Or.inl (by simp)
                · exact Or.inr (List.mem_append_right _ h)
          · cases t with
            | nil =>
              simp only [List.nil_append] at ht
              subst ht
              rcases List.mem_cons.1 hX with rfl | hX
              · rcases hnot Y hY with h | h
                · exact Or.inl h
                · exact Or.inr (by simpa using h)
              · rcases hstack [B] X L2 (by simp) hX Y hY with h | h
                · exact Or.inl (by simp [h])
                · rw [List.mem_singleton] at h; subst h; exact Or.inl (by simp)
            | cons a t =>
              obtain ⟨rfl, -⟩ := List.cons.inj ht
              exact absurd hX (hnewmem X (by simp))
        -- the recursive call
        rw [e1]
        refine MecOut.cons hB (fun C hC => ((e2 C).1 hC).1) hnot ?_
        by_cases hv : B ∈ mags
        · have hnil : new = [] := by
            rw [List.eq_nil_iff_forall_not_mem]
            intro C hC
            have h1 := ((e2 C).1 hC).1
            rcases hstack [] B queue rfl hv C h1 with h | h
            · exact hnewmem C hC (by simp [h])
            · simp at h
          have hins : insert B.key visited = visited := Finset.insert_eq_of_mem ((hvis _).2 ⟨B, hv, rfl⟩)
          exact ihk queue.length (by rw [← hk]; simp) (n + 1) (new ++ queue) _ _ (by rw [hins]; exact hm) (by simp [hnil])
            hq' hg' hvis' hnext' hstack'
        · refine ihm (univ V \ insert B.key visited).card ?_ _ (n + 1) (new ++ queue) _ _ rfl rfl hq' hg' hvis' hnext' hstack'
          rw [← hm]
          apply Finset.card_lt_card
          refine ⟨Finset.sdiff_subset_sdiff le_rfl (Finset.subset_insert _ _), fun h => ?_⟩
          have hBv : B.key ∉ visited := by
            intro k
            obtain ⟨D, hD, hDk⟩ := (hvis _).1 k
            have := (hg D hD).key_inj hB hDk
            subst this; exact hv hD
          have := h (Finset.mem_sdiff.2 ⟨hB.key_mem, hBv⟩)
          simp at this

/-- The result of `get_all_mec`. -/
theorem getAllMec_spec (hA : IsMag V A) (w : ℕ → MecOracle α) :
    ∃ r, A.getAllMec w = pure (A :: r) ∧ ∀ C, C ∈ A :: r ↔ ReflTransGen (Next V) A C := by
  obtain ⟨r, h1, h2, h3, h4, h5, -⟩ := mecLoop_spec (V := V) w _ _ 0 [A] ∅ [] rfl rfl (by simpa using hA) (by simp) (by simp)
    (by simp) (by simp)
  obtain ⟨new, e1, e2⟩ := mecLoop_cons hA w 0 [] ∅ []
  have hcl : ∀ C, ReflTransGen (Next V) A C → C ∈ r := by
    intro C hC
    induction hC with
    | refl => exact h3 (by simp)
    | tail _ hn ih =>
      rcases h4 _ (Or.inr ih) _ hn with h | h
      · simp at h
      · exact h
  have hr : ∃ t, r = A :: t := by
    obtain ⟨t, k1, -⟩ := mecLoop_spec (V := V) w _ _ 1 (new ++ []) (insert A.key ∅) [A] rfl rfl
      (by simpa using fun C hC => ((e2 C).1 hC).1.1) (by simpa using hA) (by simp [eq_comm])
      (fun X hX Y hY => by
        rw [List.mem_singleton] at hX; subst hX
        by_cases hv : Y.key ∈ insert X.key (∅ : Finset (Key α))
        · have : Y.key = X.key := by simpa using hv
          rw [hY.1.key_inj hA this]; exact Or.inl (by simp)
        · exact Or.inr (List.mem_append_left _ ((e2 Y).2 ⟨hY, hv⟩)))
      (fun L1 X L2 he hX Y hY => by
        rw [List.mem_singleton] at hX; subst hX
        rw [List.append_nil] at he
        exact absurd ((e2 X).1 (by rw [he]; simp)).2 (by simp))
    have := h1.symm.trans (e1.trans k1)
    have := congrArg ExceptT.run this
    simp at this
    exact ⟨t, this⟩
  obtain ⟨t, rfl⟩ := hr
  refine ⟨t, by rw [getAllMec, h1]; rfl, fun C => ⟨fun hC => ?_, hcl C⟩⟩
  obtain ⟨B, hB, hBC⟩ := h5 C hC
  rw [List.mem_singleton] at hB
  subst hB; exact hBC

/-- Two mark changes that can be made in either order lead to a repeated graph. -/
theorem getAllMec_repeats {X Y Z : AG α} (hA : IsMag V A) (hAX : Next V A X) (hAY : Next V A Y) (hXY : X ≠ Y) (hXA : X ≠ A) (hYA : Y ≠ A)
    (hZA : Z ≠ A) (hZX : Z ≠ X) (hZY : Z ≠ Y) (h1 : Next V X Z) (h2 : Next V Y Z) (h3 : Next V Z X) (h4 : Next V Z Y)
    (w : ℕ → MecOracle α) {r : List (AG α)} (hr : A.getAllMec w = pure r) : ¬ r.Nodup := by
  intro hnd
  obtain ⟨new, e1, e2⟩ := mecLoop_cons hA w 0 [] ∅ []
  have hkey : ∀ B, IsMag V B → B ≠ A → B.key ∉ insert A.key (∅ : Finset (Key α)) := by
    intro B hB hne hk
    exact hne (hB.key_inj hA (by simpa using hk))
  have hX : X ∈ new := (e2 X).2 ⟨hAX, hkey X hAX.1 hXA⟩
  have hY : Y ∈ new := (e2 Y).2 ⟨hAY, hkey Y hAY.1 hYA⟩
  obtain ⟨t, k1, -, -, -, -, -, -, k8⟩ := mecLoop_spec (V := V) w _ _ 1 (new ++ []) (insert A.key ∅) [A] rfl rfl
    (by simpa using fun C hC => ((e2 C).1 hC).1.1) (by simpa using hA) (by simp [eq_comm])
    (fun X hX Y hY => by
      rw [List.mem_singleton] at hX; subst hX
      by_cases hv : Y.key ∈ insert X.key (∅ : Finset (Key α))
      · have : Y.key = X.key := by simpa using hv
        rw [hY.1.key_inj hA this]; exact Or.inl (by simp)
      · exact Or.inr (List.mem_append_left _ ((e2 Y).2 ⟨hY, hv⟩)))
    (fun L1 X L2 he hX Y hY => by
      rw [List.mem_singleton] at hX; subst hX
      rw [List.append_nil] at he
      exact absurd ((e2 X).1 (by rw [he]; simp)).2 (by simp))
  have hrt : r = [A].reverse ++ t := by
    have := hr.symm.trans (e1.trans k1)
    have := congrArg ExceptT.run this
    simpa using this
  rw [hrt] at hnd
  obtain ⟨L1, L2, hL⟩ := List.append_of_mem hX
  rw [List.append_nil] at k8
  rw [hL, List.mem_append, List.mem_cons] at hY
  rcases hY with hY | hY | hY
  · exact k8 hnd L1 X L2 hL Y hY Z hZY h2 (by simpa using hZA) h3
  · exact hXY hY.symm
  · obtain ⟨L3, L4, rfl⟩ := List.append_of_mem hY
    exact k8 hnd (L1 ++ X :: L3) Y L4 (by rw [hL]; simp) X (by simp) Z hZX h1 (by simpa using hZA) h4

theorem next_iff (hB : IsMag V B) (hC : C.Good) (hn : C.nodes = V) (hu : C.undirected = ∅) :
    Next V B C ↔ Mixed.MarkStep {v | v ∈ V} B.mixed C.mixed := by
  constructor
  · rintro ⟨h1, h2, h3⟩
    refine ⟨⟨Good.un_empty hu, h1.anc, h1.max⟩, h2, ?_⟩
    rcases h3 with ⟨i, j, k1, k2, k3⟩ | ⟨i, j, k1, k2, k3⟩
    · exact Or.inl ⟨i, j, k1, mixed_toBi k2 k3 (hu.trans hB.un.symm)⟩
    · exact Or.inr ⟨i, j, k1, mixed_toDir k2 k3 (hu.trans hB.un.symm)⟩
  · rintro ⟨h1, h2, h3⟩
    have hC' : IsMag V C := ⟨hC, hn, hu, h1.anc, h1.max⟩
    have ext2 : ∀ (F : Finset (Finset α)), (∀ e ∈ F, ∃ i j, i ≠ j ∧ e = {i, j}) →
        (∀ u v, C.mixed.bi u v ↔ {u, v} ∈ F) → C.bidirected = F := by
      intro F hF h
      ext e
      constructor
      · intro k; obtain ⟨i, j, -, rfl⟩ := hC.1.bi_pair e k; exact (h i j).1 k
      · intro k; obtain ⟨i, j, -, rfl⟩ := hF e k; exact (h i j).2 k
    refine ⟨hC', h2, ?_⟩
    rcases h3 with ⟨i, j, k1, k2⟩ | ⟨i, j, k1, k2⟩
    · have hij : i ≠ j := by rintro rfl; exact hB.good.1.dir_ne _ k1
      refine Or.inl ⟨i, j, k1, Finset.ext fun e => ?_, ext2 _ ?_ fun u v => ?_⟩
      · change C.mixed.dir e.1 e.2 ↔ _
        rw [k2]
        change (e.1, e.2) ∈ B.directed ∧ _ ↔ _
        rw [Finset.mem_erase, Ne, Prod.ext_iff, and_comm]
      · intro e he
        rcases Finset.mem_insert.1 he with rfl | he
        · exact ⟨i, j, hij, rfl⟩
        · exact hB.good.1.bi_pair e he
      · rw [k2, Finset.mem_insert, UG.pair_eq, or_comm]; rfl
    · refine Or.inr ⟨i, j, k1, Finset.ext fun e => ?_, ext2 _ ?_ fun u v => ?_⟩
      · change C.mixed.dir e.1 e.2 ↔ _
        rw [k2]
        change (e.1, e.2) ∈ B.directed ∨ _ ↔ _
        rw [Finset.mem_insert, Prod.ext_iff, or_comm]
      · intro e he
        exact hB.good.1.bi_pair e (Finset.mem_erase.1 he).2
      · rw [k2, Finset.mem_erase, Ne, UG.pair_eq, not_or, and_comm]; rfl

/-- Every mark change can be made by the code. -/
theorem exists_next (hB : IsMag V B) (w : MecOracle α) {N : Mixed α} (h : Mixed.MarkStep {v | v ∈ V} B.mixed N) :
    ∃ C, Next V B C ∧ C.mixed = N := by
  obtain ⟨h1, h2, ⟨i, j, k1, rfl⟩ | ⟨i, j, k1, rfl⟩⟩ := h
  · have hl := (legit_toBi hB.good hB.anc (by rw [hB.nodes]; exact hB.max) hB.un k1).2 (by rw [hB.nodes]; exact ⟨h1, h2⟩)
    obtain ⟨C, -, c2, c3, c4⟩ := make_bi hB k1 hl (w.copy false (i, j)) (w.unpack false (i, j))
    exact ⟨C, c2, mixed_toBi c3 c4 (c2.1.un.trans hB.un.symm)⟩
  · have hl := (legit_toDir hB.good hB.anc (by rw [hB.nodes]; exact hB.max) hB.un k1).2 (by rw [hB.nodes]; exact ⟨h1, h2⟩)
    obtain ⟨C, -, c2, c3, c4⟩ := make_dir hB k1 hl (w.copy true (i, j)) (w.unpack true (i, j)) (w.children (i, j)) (w.spouses (i, j))
    exact ⟨C, c2, mixed_toDir c3 c4 (c2.1.un.trans hB.un.symm)⟩

theorem isMag_of_reach (hA : IsMag V A) (h : ReflTransGen (Next V) A C) : IsMag V C := by
  cases h with
  | refl => exact hA
  | tail _ h => exact h.1

theorem reach_iff (hA : IsMag V A) (w : MecOracle α) : ReflTransGen (Next V) A C ↔
    C.Good ∧ C.nodes = V ∧ C.undirected = ∅ ∧ ReflTransGen (Mixed.MarkStep {v | v ∈ V}) A.mixed C.mixed := by
  constructor
  · intro h
    have hC := isMag_of_reach hA h
    refine ⟨hC.good, hC.nodes, hC.un, ?_⟩
    clear hC
    induction h with
    | refl => exact .refl
    | tail h1 h2 ih => exact .tail ih ((next_iff (isMag_of_reach hA h1) h2.1.good h2.1.nodes h2.1.un).1 h2)
  · rintro ⟨h1, h2, h3, h4⟩
    have : ∀ N, ReflTransGen (Mixed.MarkStep {v | v ∈ V}) A.mixed N → ∃ D, ReflTransGen (Next V) A D ∧ D.mixed = N := by
      intro N h
      induction h with
      | refl => exact ⟨A, .refl, rfl⟩
      | tail _ k ih =>
        obtain ⟨D, d1, rfl⟩ := ih
        obtain ⟨E, e1, e2⟩ := exists_next (isMag_of_reach hA d1) w k
        exact ⟨E, .tail d1 e1, e2⟩
    obtain ⟨D, d1, d2⟩ := this _ h4
    have hD := isMag_of_reach hA d1
    rwa [h1.eq_of_mixed hD.good (h2.trans hD.nodes.symm) d2.symm]

omit [DecidableEq α] in
theorem markSteps_equiv {V : Set α} {M N : Mixed α} (h : ReflTransGen (Mixed.MarkStep V) M N) : M.MarkovEquiv N V := by
  induction h with
  | refl => exact fun _ _ _ _ _ _ _ _ _ => Iff.rfl
  | tail _ h ih => exact fun S T Z h1 h2 h3 h4 h5 h6 => (ih S T Z h1 h2 h3 h4 h5 h6).trans (h.2.1 S T Z h1 h2 h3 h4 h5 h6)

end AG

end Model
