import Verif.Model.DAGSimple
import Verif.Proof.Amat
import Verif.Props.Mutators
import Mathlib.Algebra.Order.BigOperators.Group.Finset

/-! # Degrees, triples and data frames of DAGs -/

set_option linter.unusedSectionVars false

namespace Model.DAG

open Spec Relation

universe u v
variable {α : Type u} [DecidableEq α]

theorem foldl_max_spec (f : α → ℕ) : ∀ (l : List α) (m : ℕ),
    m ≤ l.foldl (fun m y => max m (f y)) m ∧ (∀ y ∈ l, f y ≤ l.foldl (fun m y => max m (f y)) m) ∧
      (l.foldl (fun m y => max m (f y)) m = m ∨ ∃ y ∈ l, l.foldl (fun m y => max m (f y)) m = f y)
  | [], m => by simp
  | x :: l, m => by
    obtain ⟨h1, h2, h3⟩ := foldl_max_spec f l (max m (f x))
    rw [List.foldl_cons]
    refine ⟨(le_max_left _ _).trans h1, fun y hy => ?_, ?_⟩
    · rcases List.mem_cons.1 hy with rfl | hy
      · exact (le_max_right _ _).trans h1
      · exact h2 y hy
    · rcases h3 with h | ⟨y, hy, h⟩
      · rw [h]
        rcases max_choice m (f x) with k | k
        · exact .inl k
        · exact .inr ⟨x, by simp, k⟩
      · exact .inr ⟨y, by simp [hy], h⟩

theorem maxOf_spec (f : α → ℕ) {l : List α} (hl : l ≠ []) :
    ∃ m, maxOf f l = .ok m ∧ (∀ y ∈ l, f y ≤ m) ∧ ∃ y ∈ l, f y = m := by
  rcases l with _ | ⟨x, l⟩
  · exact absurd rfl hl
  · obtain ⟨h1, h2, h3⟩ := foldl_max_spec f l (f x)
    refine ⟨_, rfl, fun y hy => ?_, ?_⟩
    · rcases List.mem_cons.1 hy with rfl | hy
      · exact h1
      · exact h2 y hy
    · rcases h3 with h | ⟨y, hy, h⟩
      · exact ⟨x, by simp, h.symm⟩
      · exact ⟨y, by simp [hy], h.symm⟩

theorem foldl_insert_spec {β γ : Type u} [DecidableEq γ] (f : β → γ) : ∀ (l : List β) (s : Finset γ) (x : γ),
    x ∈ l.foldl (fun s p => insert (f p) s) s ↔ x ∈ s ∨ ∃ p ∈ l, x = f p
  | [], s, x => by simp
  | p :: l, s, x => by
    rw [List.foldl_cons, foldl_insert_spec f l]
    simp only [Finset.mem_insert, List.mem_cons, exists_eq_or_imp]
    tauto

theorem foldl_union_spec {β : Type u} (view : β → Finset α) : ∀ (l : List β) (s : Finset α) (x : α),
    x ∈ l.foldl (fun s n => s ∪ view n) s ↔ x ∈ s ∨ ∃ n ∈ l, x ∈ view n
  | [], s, x => by simp
  | n :: l, s, x => by
    rw [List.foldl_cons, foldl_union_spec view l]
    simp only [Finset.mem_union, List.mem_cons, exists_eq_or_imp]
    tauto

theorem unionOver_spec (view : α → Finset α) {l : List α} (hl : l ≠ []) :
    ∃ s, unionOver view l = .ok s ∧ ∀ x, x ∈ s ↔ ∃ n ∈ l, x ∈ view n := by
  rcases l with _ | ⟨y, l⟩
  · exact absurd rfl hl
  · refine ⟨_, rfl, fun x => ?_⟩
    rw [foldl_union_spec]
    simp

theorem ord_ne_nil {κ : Type v} (o : SetOrder κ α) (k : κ) {s : Finset α} (hs : s.Nonempty) : o.ord k s ≠ [] := by
  obtain ⟨x, hx⟩ := hs
  exact List.ne_nil_of_mem ((o.mem_iff k s x).2 hx)

theorem ord_empty {κ : Type v} (o : SetOrder κ α) (k : κ) : o.ord k ∅ = [] := by
  refine List.eq_nil_iff_forall_not_mem.2 fun x hx => ?_
  simpa using (o.mem_iff k ∅ x).1 hx

theorem incoming_eq {G : DAG α} (hG : G.Consistent) (v : α) :
    G.arcs.filter (fun a => a.2 = v) = (G.parents v).image fun p => (p, v) := by
  ext ⟨a, b⟩
  simp only [Finset.mem_filter, Finset.mem_image, Prod.mk.injEq, hG.parents_iff]
  constructor
  · rintro ⟨h, rfl⟩; exact ⟨a, h, rfl, rfl⟩
  · rintro ⟨p, h, rfl, rfl⟩; exact ⟨h, rfl⟩

theorem outgoing_eq {G : DAG α} (hG : G.Consistent) (v : α) :
    G.arcs.filter (fun a => a.1 = v) = (G.children v).image fun c => (v, c) := by
  ext ⟨a, b⟩
  simp only [Finset.mem_filter, Finset.mem_image, Prod.mk.injEq, hG.children_iff]
  constructor
  · rintro ⟨h, rfl⟩; exact ⟨b, h, rfl, rfl⟩
  · rintro ⟨p, h, rfl, rfl⟩; exact ⟨h, rfl⟩

theorem sum_indegree {G : DAG α} (hG : G.Consistent) : ∑ v ∈ G.nodes, G.indegreeOf v = G.arcs.card := by
  rw [Finset.card_eq_sum_card_fiberwise (f := Prod.snd) (t := G.nodes) fun a ha => hG.snd_mem a.1 a.2 ha]
  refine Finset.sum_congr rfl fun v _ => ?_
  rw [incoming_eq hG, Finset.card_image_of_injective _ fun a b h => (Prod.mk.inj h).1]
  rfl

theorem sum_outdegree {G : DAG α} (hG : G.Consistent) : ∑ v ∈ G.nodes, G.outdegreeOf v = G.arcs.card := by
  rw [Finset.card_eq_sum_card_fiberwise (f := Prod.fst) (t := G.nodes) fun a ha => hG.fst_mem a.1 a.2 ha]
  refine Finset.sum_congr rfl fun v _ => ?_
  rw [outgoing_eq hG, Finset.card_image_of_injective _ fun a b h => (Prod.mk.inj h).2]
  rfl

/-- Both directions of the arcs of an acyclic graph. -/
theorem twice_arcs {G : DAG α} (hG : G.Valid) :
    (G.arcs ∪ G.arcs.image Prod.swap).card = 2 * G.arcs.card ∧ G.arcs ∪ G.arcs.image Prod.swap ⊆ G.nodes.offDiag := by
  constructor
  · rw [Finset.card_union_of_disjoint, Finset.card_image_of_injective _ Prod.swap_injective, two_mul]
    refine Finset.disjoint_left.2 fun ⟨a, b⟩ h h' => ?_
    obtain ⟨⟨c, d⟩, hc, he⟩ := Finset.mem_image.1 h'
    simp only [Prod.swap_prod_mk, Prod.mk.injEq] at he
    obtain ⟨rfl, rfl⟩ := he
    exact hG.acyclic c (.tail (.single hc) h)
  · have key : ∀ a b, (a, b) ∈ G.arcs → a ∈ G.nodes ∧ b ∈ G.nodes ∧ a ≠ b := fun a b h =>
      ⟨hG.fst_mem a b h, hG.snd_mem a b h, by rintro rfl; exact hG.acyclic a (.single h)⟩
    rintro ⟨a, b⟩ h
    rw [Finset.mem_offDiag]
    rcases Finset.mem_union.1 h with h | h
    · exact key a b h
    · obtain ⟨⟨c, d⟩, hc, he⟩ := Finset.mem_image.1 h
      simp only [Prod.swap_prod_mk, Prod.mk.injEq] at he
      obtain ⟨rfl, rfl⟩ := he
      obtain ⟨h1, h2, h3⟩ := key c d hc
      exact ⟨h2, h1, h3.symm⟩

theorem offDiag_card_eq (s : Finset α) : s.offDiag.card = s.card * (s.card - 1) := by
  rw [Finset.offDiag_card, Nat.mul_sub, mul_one]

theorem mem_pairsOf : ∀ {l : List α} (_ : l.Nodup) {a b : α}, ((a, b) ∈ pairsOf l ∨ (b, a) ∈ pairsOf l) ↔ a ∈ l ∧ b ∈ l ∧ a ≠ b
  | [], _, a, b => by simp [pairsOf]
  | x :: l, h, a, b => by
    have ih := mem_pairsOf (List.nodup_cons.1 h).2 (a := a) (b := b)
    have hx := (List.nodup_cons.1 h).1
    simp only [pairsOf, List.mem_append, List.mem_map, Prod.mk.injEq, List.mem_cons]
    constructor
    · rintro ((⟨y, hy, rfl, rfl⟩ | k) | (⟨y, hy, rfl, rfl⟩ | k))
      · exact ⟨.inl rfl, .inr hy, fun h => hx (h ▸ hy)⟩
      · obtain ⟨h1, h2, h3⟩ := ih.1 (.inl k)
        exact ⟨.inr h1, .inr h2, h3⟩
      · exact ⟨.inr hy, .inl rfl, fun h => hx (h ▸ hy)⟩
      · obtain ⟨h1, h2, h3⟩ := ih.1 (.inr k)
        exact ⟨.inr h1, .inr h2, h3⟩
    · rintro ⟨rfl | h1, rfl | h2, h3⟩
      · exact absurd rfl h3
      · exact .inl (.inl ⟨b, h2, rfl, rfl⟩)
      · exact .inr (.inl ⟨a, h1, rfl, rfl⟩)
      · rcases ih.2 ⟨h1, h2, h3⟩ with k | k
        · exact .inl (.inr k)
        · exact .inr (.inr k)

theorem triples_spec {G : DAG α} (hG : G.Consistent) (o : SetOrder Unit α) (on : SetOrder α α) (t : Finset α) :
    t ∈ G.triples o on ↔ ∃ i j k, i ≠ k ∧ Adj G.E i j ∧ Adj G.E j k ∧ t = {i, j, k} := by
  unfold triples
  rw [foldl_union_spec (fun v => ((pairsOf (on.ord v (G.neighbors v))).map fun p => ({p.1, v, p.2} : Finset α)).toFinset)]
  simp only [Finset.notMem_empty, false_or, o.mem_iff, List.mem_toFinset, List.mem_map, Prod.exists]
  constructor
  · rintro ⟨v, -, a, b, hab, rfl⟩
    obtain ⟨h1, h2, h3⟩ := (mem_pairsOf (on.nodup _ _)).1 (.inl hab)
    rw [on.mem_iff, hG.neighbors_iff] at h1 h2
    refine ⟨a, v, b, h3, ?_, ?_, rfl⟩
    · unfold Adj E; tauto
    · unfold Adj E; tauto
  · rintro ⟨i, j, k, hik, h1, h2, rfl⟩
    have hj : j ∈ G.nodes := by
      rcases h2 with h | h
      · exact hG.fst_mem _ _ h
      · exact hG.snd_mem _ _ h
    have n1 : i ∈ on.ord j (G.neighbors j) := by
      rw [on.mem_iff, hG.neighbors_iff]; unfold Adj E at h1; tauto
    have n2 : k ∈ on.ord j (G.neighbors j) := by
      rw [on.mem_iff, hG.neighbors_iff]; unfold Adj E at h2; tauto
    rcases (mem_pairsOf (on.nodup _ _)).2 ⟨n1, n2, hik⟩ with h | h
    · exact ⟨j, hj, i, k, h, rfl⟩
    · refine ⟨j, hj, k, i, h, ?_⟩
      ext x; simp only [Finset.mem_insert, Finset.mem_singleton]; tauto

/-- The relation of the nonzero cells. -/
def CellE (l : List ((α × α) × ℤ)) (a b : α) : Prop := ∃ x, ((a, b), x) ∈ l ∧ x ≠ 0

theorem addCells_spec (o : ℕ → SetOrder (Option α) α) : ∀ (l : List ((α × α) × ℤ)) {G : DAG α}, G.Valid →
    (∀ c ∈ l, c.1.1 ∈ G.nodes ∧ c.1.2 ∈ G.nodes) →
    (Acyclic (fun a b => G.E a b ∨ CellE l a b) → ∃ G', addCells o l G = some (.ok G') ∧ G'.Valid ∧ G'.nodes = G.nodes ∧
      ∀ a b, (a, b) ∈ G'.arcs ↔ (a, b) ∈ G.arcs ∨ CellE l a b) ∧
    (¬ Acyclic (fun a b => G.E a b ∨ CellE l a b) → ∃ e, addCells o l G = some (.error e))
  | [], G, hG, _ => by
    refine ⟨fun _ => ⟨G, rfl, hG, rfl, by simp [CellE]⟩, fun h => absurd ?_ h⟩
    have : (fun a b => G.E a b ∨ CellE [] a b) = G.E := by funext a b; simp [CellE]
    rw [this]
    exact hG.acyclic
  | c :: l, G, hG, hm => by
    have hcell : ∀ a b, CellE (c :: l) a b ↔ (c.2 ≠ 0 ∧ a = c.1.1 ∧ b = c.1.2) ∨ CellE l a b := by
      intro a b
      unfold CellE
      simp only [List.mem_cons]
      constructor
      · rintro ⟨x, rfl | h, hx⟩
        · exact .inl ⟨hx, rfl, rfl⟩
        · exact .inr ⟨x, h, hx⟩
      · rintro (⟨h, rfl, rfl⟩ | ⟨x, h, hx⟩)
        · exact ⟨c.2, .inl rfl, h⟩
        · exact ⟨x, .inr h, hx⟩
    by_cases hc : c.2 = 0
    · have hE : (fun a b => G.E a b ∨ CellE (c :: l) a b) = fun a b => G.E a b ∨ CellE l a b := by
        funext a b; rw [hcell]; simp [hc]
      have hrun : addCells o (c :: l) G = addCells o l G := by rw [addCells, if_neg (by simp [hc])]
      obtain ⟨h1, h2⟩ := addCells_spec o l hG fun d hd => hm d (by simp [hd])
      rw [hE, hrun]
      refine ⟨fun h => ?_, h2⟩
      obtain ⟨G', k1, k2, k3, k4⟩ := h1 h
      refine ⟨G', k1, k2, k3, fun a b => ?_⟩
      rw [k4, hcell]; simp [hc]
    · obtain ⟨G1, e, r1, r2, r3, r4, r5, r6⟩ := Props.C03_add_arc G hG (o l.length) c.1.1 c.1.2
      cases e with
      | some e =>
        have hno : ¬ Acyclic (fun a b => G.E a b ∨ CellE (c :: l) a b) := by
          intro ha
          have := r2.2 ⟨?_, ?_⟩
          · cases this
          · intro h
            exact ha c.1.1 (.single (.inr ((hcell _ _).2 (.inl ⟨hc, rfl, h⟩))))
          · intro hp
            refine ha c.1.2 ?_
            refine .tail (path_mono (fun a b h => Or.inl h) hp) (.inr ((hcell _ _).2 (.inl ⟨hc, rfl, rfl⟩)))
        refine ⟨fun h => absurd h hno, fun _ => ⟨e, ?_⟩⟩
        rw [addCells, if_pos hc, r1]
      | none =>
        obtain ⟨a1, a2⟩ := r3 rfl
        have hv : G1.Valid := ⟨a2, r6⟩
        have hn : G1.nodes = G.nodes := by
          ext v
          rw [r5]
          obtain ⟨m1, m2⟩ := hm c (by simp)
          constructor
          · rintro (h | rfl | rfl) <;> assumption
          · exact .inl
        have hE : (fun a b => G.E a b ∨ CellE (c :: l) a b) = fun a b => G1.E a b ∨ CellE l a b := by
          funext a b
          rw [hcell]
          unfold E
          rw [a1, Finset.mem_insert, Prod.mk.injEq]
          apply propext
          tauto
        have hrun : addCells o (c :: l) G = addCells o l G1 := by rw [addCells, if_pos hc, r1]
        obtain ⟨h1, h2⟩ := addCells_spec o l hv fun d hd => by rw [hn]; exact hm d (by simp [hd])
        rw [hE, hrun]
        refine ⟨fun h => ?_, h2⟩
        obtain ⟨G', k1, k2, k3, k4⟩ := h1 h
        refine ⟨G', k1, k2, k3.trans hn, fun a b => ?_⟩
        have := congrFun (congrFun hE a) b
        rw [k4]
        exact (iff_of_eq this).symm

theorem mem_cells (D : Frame α) (a b : α) (x : ℤ) :
    ((a, b), x) ∈ cells D ↔ ∃ i j, D.index[i]? = some a ∧ D.columns[j]? = some b ∧ x = D.values i j := by
  unfold cells
  simp only [List.mem_flatMap, List.mem_map, Prod.mk.injEq, Prod.exists, List.mem_zipIdx_iff_getElem?]
  constructor
  · rintro ⟨a', i, h1, b', j, h2, ⟨rfl, rfl⟩, rfl⟩
    exact ⟨i, j, h1, h2, rfl⟩
  · rintro ⟨i, j, h1, h2, rfl⟩
    exact ⟨a, i, h1, b, j, h2, ⟨rfl, rfl⟩, rfl⟩

end Model.DAG
