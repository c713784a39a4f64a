import Verif.Model.Components
import Verif.Proof.Reach
import Verif.Proof.ToDag

/-! # Connected components -/

namespace Model

universe u
variable {α : Type u} [DecidableEq α]
open Relation

theorem reachable_spec (next : α → Finset α) (o : SetOrder (α × Finset α) α) (U : Finset α)
    (hU : ∀ x ∈ U, next x ⊆ U) :
    ∀ (n : ℕ) (t v : Finset α) (node : α), (U \ v).card ≤ n → node ∈ U → node ∉ v →
      ∃ N, reachable next o (t, v) node = some (t ∪ N, v ∪ N) ∧ node ∈ N ∧ Disjoint N v ∧
        (∀ x ∈ N, ReflTransGen (fun a b => b ∈ next a) node x) ∧ ∀ x ∈ N, next x ⊆ v ∪ N := by
  intro n
  induction n with
  | zero =>
    intro t v node hn hN hv
    exfalso
    have : U ⊆ v := by
      rw [← Finset.sdiff_eq_empty_iff_subset, ← Finset.card_eq_zero]; omega
    exact hv (this hN)
  | succ n ih =>
    intro t v node hn hN hv
    rw [reachable]
    obtain ⟨s, hs, N, h1, h2, h3, h4, h5, h6⟩ := foldlM_option
      (f := fun (st : Finset α × Finset α) c => if c ∉ st.2 then reachable next o st c else some st)
      (fun pre s => ∃ N, s = (t ∪ N, v ∪ N) ∧ node ∈ N ∧ Disjoint N v ∧
        (∀ x ∈ N, ReflTransGen (fun a b => b ∈ next a) node x) ∧
        (∀ x ∈ N, x ≠ node → next x ⊆ v ∪ N) ∧ ∀ x ∈ pre, x ∈ v ∪ N)
      (o.ord (node, v) (next node)) (insert node t, insert node v)
      ⟨{node}, by rw [Finset.union_comm t, Finset.union_comm v]; rfl, by simp, by simpa using hv, by
        intro x hx; simp at hx; subst hx; exact .refl, by simp, by simp⟩
      (by
        rintro pre x post s hl ⟨N, rfl, k2, k3, k4, k5, k6⟩
        have hx : x ∈ next node := by rw [← o.mem_iff (node, v), hl]; simp
        have hxU := hU _ hN hx
        by_cases hxs : x ∈ v ∪ N
        · refine ⟨_, by simp only [hxs, not_true, if_false], N, rfl, k2, k3, k4, k5, ?_⟩
          intro y hy
          rcases List.mem_append.1 hy with hy | hy
          · exact k6 y hy
          · simp at hy; subst hy; exact hxs
        · have hc : (U \ (v ∪ N)).card ≤ n := by
            have e1 : (U \ (v ∪ N)) ⊆ (U \ v).erase node := by
              intro y hy
              simp only [Finset.mem_sdiff, Finset.mem_union, not_or, Finset.mem_erase] at hy ⊢
              exact ⟨fun h => hy.2.2 (h ▸ k2), hy.1, hy.2.1⟩
            have e2 := Finset.card_le_card e1
            have e3 := Finset.card_erase_add_one (s := U \ v) (a := node) (by simp [hN, hv])
            omega
          obtain ⟨M, m1, m2, m3, m4, m5⟩ := ih (t ∪ N) (v ∪ N) x hc hxU hxs
          refine ⟨(t ∪ N ∪ M, v ∪ N ∪ M), by simp only [hxs, not_false_eq_true, if_true]; exact m1, N ∪ M, ?_, ?_, ?_, ?_, ?_, ?_⟩
          · simp [Finset.union_assoc]
          · exact Finset.mem_union_left _ k2
          · rw [Finset.disjoint_union_left]
            exact ⟨k3, (Finset.disjoint_union_right.1 m3).1⟩
          · intro y hy
            rcases Finset.mem_union.1 hy with hy | hy
            · exact k4 y hy
            · exact ReflTransGen.head hx (m4 y hy)
          · intro y hy hyn
            rw [← Finset.union_assoc]
            rcases Finset.mem_union.1 hy with hy | hy
            · exact (k5 y hy hyn).trans Finset.subset_union_left
            · exact m5 y hy
          · intro y hy
            rw [← Finset.union_assoc]
            rcases List.mem_append.1 hy with hy | hy
            · exact Finset.mem_union_left _ (k6 y hy)
            · simp at hy; subst hy; exact Finset.mem_union_right _ m2)
    refine ⟨N, ?_, h2, h3, h4, ?_⟩
    · rw [← h1]; exact hs
    · intro x hx
      by_cases hxn : x = node
      · subst hxn
        intro y hy
        exact h6 y ((o.mem_iff _ _ _).2 hy)
      · exact h5 x hx hxn

/-- `visited` closed under a symmetric relation: the new nodes are exactly the class of the start node. -/
theorem reachable_class (next : α → Finset α) (o : SetOrder (α × Finset α) α) (U : Finset α)
    (hU : ∀ x ∈ U, next x ⊆ U) (hsym : ∀ x y, y ∈ next x → x ∈ next y) (v : Finset α) (hv : ∀ x ∈ v, next x ⊆ v)
    (node : α) (hN : node ∈ U) (hn : node ∉ v) :
    ∃ N, reachable next o (∅, v) node = some (N, v ∪ N) ∧ node ∈ N ∧ Disjoint N v ∧
      ∀ x, x ∈ N ↔ ReflTransGen (fun a b => b ∈ next a) node x := by
  obtain ⟨N, h1, h2, h3, h4, h5⟩ := reachable_spec next o U hU _ ∅ v node le_rfl hN hn
  refine ⟨N, by simpa using h1, h2, h3, fun x => ⟨h4 x, fun hx => ?_⟩⟩
  induction hx with
  | refl => exact h2
  | tail _ hbc ih =>
    rename_i b c _
    rcases Finset.mem_union.1 (h5 b ih hbc) with h | h
    · exact absurd (hv c h (hsym _ _ hbc)) (Finset.disjoint_left.1 h3 ih)
    · exact h

theorem componentsLoop_spec (next : α → Finset α) (o : SetOrder (α × Finset α) α) (pk : Pick α) (keep : Finset α → Bool)
    (U : Finset α) (hU : ∀ x ∈ U, next x ⊆ U) (hsym : ∀ x y, y ∈ next x → x ∈ next y) :
    ∀ (m n : ℕ) (queue visited : Finset α) (comps : List (Finset α)), queue.card = m → queue ⊆ U →
      (∀ x ∈ visited, next x ⊆ visited) → (∀ c ∈ comps, c ⊆ visited) → comps.Pairwise Disjoint →
      ∃ cs, componentsLoop next o pk keep n queue visited comps = some (comps ++ cs) ∧
        (comps ++ cs).Pairwise Disjoint ∧
        (∀ c ∈ cs, keep c = true ∧ ∃ v ∈ c, v ∈ queue ∧ ∀ x, x ∈ c ↔ ReflTransGen (fun a b => b ∈ next a) v x) ∧
        ∀ v ∈ queue, v ∉ visited → (∃ c ∈ cs, v ∈ c) ∨
          ∃ c : Finset α, keep c = false ∧ ∀ x, x ∈ c ↔ ReflTransGen (fun a b => b ∈ next a) v x := by
  have hsymm : ∀ {a b}, ReflTransGen (fun a b => b ∈ next a) a b → ReflTransGen (fun a b => b ∈ next a) b a := by
    intro a b h
    induction h with
    | refl => exact .refl
    | tail _ h ih => exact ReflTransGen.head (hsym _ _ h) ih
  intro m
  induction m with
  | zero =>
    intro n queue visited comps hm _ _ _ hd
    rw [Finset.card_eq_zero] at hm
    subst hm
    refine ⟨[], ?_, by simpa using hd, by simp, by simp⟩
    rw [componentsLoop]; simp
  | succ m ih =>
    intro n queue visited comps hm hq hv hc hd
    have hne : queue.Nonempty := by rw [← Finset.card_pos]; omega
    rw [componentsLoop, dif_pos hne]
    set node := pk.pick n queue hne with hnode
    have hmem : node ∈ queue := pk.mem _ _ _
    have hcard : (queue.erase node).card = m := by rw [Finset.card_erase_of_mem hmem]; omega
    have hsub : queue.erase node ⊆ U := (Finset.erase_subset _ _).trans hq
    by_cases hvis : node ∈ visited
    · rw [if_pos hvis]
      obtain ⟨cs, h1, h2, h3, h4⟩ := ih (n + 1) (queue.erase node) visited comps hcard hsub hv hc hd
      refine ⟨cs, h1, h2, ?_, ?_⟩
      · intro c hc
        obtain ⟨k1, v, k2, k3, k4⟩ := h3 c hc
        exact ⟨k1, v, k2, Finset.mem_of_mem_erase k3, k4⟩
      · intro v hvq hvv
        exact h4 v (Finset.mem_erase.2 ⟨fun h => hvv (h ▸ hvis), hvq⟩) hvv
    · rw [if_neg hvis]
      obtain ⟨N, r1, r2, r3, r4⟩ := reachable_class next o U hU hsym visited hv node (hq hmem) hvis
      simp only [r1, Option.bind_eq_bind, Option.bind_some]
      have hv' : ∀ x ∈ visited ∪ N, next x ⊆ visited ∪ N := by
        intro x hx
        rcases Finset.mem_union.1 hx with hx | hx
        · exact (hv x hx).trans Finset.subset_union_left
        · intro y hy
          exact Finset.mem_union_right _ ((r4 y).2 (((r4 x).1 hx).tail hy))
      have hcls : ∀ v, v ∈ N → ∀ x, x ∈ N ↔ ReflTransGen (fun a b => b ∈ next a) v x := by
        intro v hvN x
        rw [r4]
        have h := (r4 v).1 hvN
        exact ⟨fun h' => (hsymm h).trans h', fun h' => h.trans h'⟩
      have hback : ∀ v, v ∈ queue → v ∉ visited → v ∉ N → v ∈ queue.erase node ∧ v ∉ visited ∪ N := by
        intro v h1 h2 h3
        exact ⟨Finset.mem_erase.2 ⟨fun h => h3 (h ▸ r2), h1⟩, by simp [h2, h3]⟩
      by_cases hk : keep N = true
      · rw [if_pos hk]
        obtain ⟨cs, h1, h2, h3, h4⟩ := ih (n + 1) (queue.erase node) (visited ∪ N) (comps ++ [N]) hcard hsub hv'
          (by
            intro c hcm
            rcases List.mem_append.1 hcm with h | h
            · exact (hc c h).trans Finset.subset_union_left
            · simp at h; subst h; exact Finset.subset_union_right)
          (by
            rw [List.pairwise_append]
            refine ⟨hd, by simp, ?_⟩
            intro a ha b hb
            simp at hb; subst hb
            exact (Finset.disjoint_of_subset_right (hc a ha) r3).symm)
        refine ⟨N :: cs, by simpa using h1, by simpa using h2, ?_, ?_⟩
        · intro c hcm
          rcases List.mem_cons.1 hcm with rfl | hcm
          · exact ⟨hk, node, r2, hmem, r4⟩
          · obtain ⟨k1, v, k2, k3, k4⟩ := h3 c hcm
            exact ⟨k1, v, k2, Finset.mem_of_mem_erase k3, k4⟩
        · intro v hvq hvv
          by_cases hvN : v ∈ N
          · exact Or.inl ⟨N, by simp, hvN⟩
          · obtain ⟨b1, b2⟩ := hback v hvq hvv hvN
            rcases h4 v b1 b2 with ⟨c, k1, k2⟩ | h
            · exact Or.inl ⟨c, by simp [k1], k2⟩
            · exact Or.inr h
      · rw [if_neg hk]
        obtain ⟨cs, h1, h2, h3, h4⟩ := ih (n + 1) (queue.erase node) (visited ∪ N) comps hcard hsub hv'
          (fun c hcm => (hc c hcm).trans Finset.subset_union_left) hd
        refine ⟨cs, h1, h2, ?_, ?_⟩
        · intro c hc
          obtain ⟨k1, v, k2, k3, k4⟩ := h3 c hc
          exact ⟨k1, v, k2, Finset.mem_of_mem_erase k3, k4⟩
        · intro v hvq hvv
          by_cases hvN : v ∈ N
          · exact Or.inr ⟨N, by simpa using hk, hcls v hvN⟩
          · obtain ⟨b1, b2⟩ := hback v hvq hvv hvN
            exact h4 v b1 b2

/-- The whole loop. -/
theorem components_spec (next : α → Finset α) (o : SetOrder (α × Finset α) α) (pk : Pick α) (keep : Finset α → Bool)
    (U : Finset α) (hU : ∀ x ∈ U, next x ⊆ U) (hsym : ∀ x y, y ∈ next x → x ∈ next y) :
    ∃ cs, componentsLoop next o pk keep 0 U ∅ [] = some cs ∧ cs.Pairwise Disjoint ∧
      (∀ c ∈ cs, keep c = true ∧ ∃ v ∈ c, v ∈ U ∧ ∀ x, x ∈ c ↔ ReflTransGen (fun a b => b ∈ next a) v x) ∧
      ∀ v ∈ U, (∃ c ∈ cs, v ∈ c) ∨
        ∃ c : Finset α, keep c = false ∧ ∀ x, x ∈ c ↔ ReflTransGen (fun a b => b ∈ next a) v x := by
  obtain ⟨cs, h1, h2, h3, h4⟩ := componentsLoop_spec next o pk keep U hU hsym _ 0 U ∅ [] rfl le_rfl (by simp) (by simp)
    (by simp)
  refine ⟨cs, by simpa using h1, by simpa using h2, h3, fun v hv => h4 v hv (by simp)⟩

namespace PDAG

variable {P : PDAG α}

theorem inducedSubgraph_spec (hP : P.Consistent) (oa oe : SetOrder Unit (α × α)) (up : Unpack α) (nodes : Finset α) :
    (P.inducedSubgraph oa oe up nodes).Consistent ∧ (P.inducedSubgraph oa oe up nodes).nodes = nodes ∧
    (∀ i j, (i, j) ∈ (P.inducedSubgraph oa oe up nodes).arcs ↔ (i, j) ∈ P.arcs ∧ i ∈ nodes ∧ j ∈ nodes) ∧
    ∀ e, e ∈ (P.inducedSubgraph oa oe up nodes).edges ↔ e ∈ P.edges ∧ e ⊆ nodes := by
  have hup : ∀ e ∈ P.edges, (up.fn e).1 ≠ (up.fn e).2 ∧ e = {(up.fn e).1, (up.fn e).2} := by
    intro e he
    obtain ⟨i, j, hij, rfl⟩ := hP.edge_pair e he
    rcases up.spec i j hij with h | h <;> rw [h]
    · exact ⟨hij, rfl⟩
    · exact ⟨hij.symm, Finset.pair_comm _ _⟩
  obtain ⟨h1, h2, h3, _, h5⟩ := new_spec oa oe nodes (P.arcs.filter fun a => a.1 ∈ nodes ∧ a.2 ∈ nodes)
    ((P.edges.image up.fn).filter fun a => a.1 ∈ nodes ∧ a.2 ∈ nodes) ∅ (by
      intro a ha
      obtain ⟨e, he, rfl⟩ := Finset.mem_image.1 (Finset.mem_filter.1 ha).1
      exact (hup e he).1)
  refine ⟨h1, ?_, ?_, ?_⟩
  · ext v
    refine (h5 v).trans ⟨?_, Or.inl⟩
    rintro (h | ⟨a, ha, h⟩ | ⟨a, ha, h⟩)
    · exact h
    · have := (Finset.mem_filter.1 ha).2
      rcases h with rfl | rfl
      · exact this.1
      · exact this.2
    · have := (Finset.mem_filter.1 ha).2
      rcases h with rfl | rfl
      · exact this.1
      · exact this.2
  · intro i j
    change (i, j) ∈ (new oa oe nodes _ _ ∅).arcs ↔ _
    rw [h2, Finset.mem_filter]
  · intro e
    change e ∈ (new oa oe nodes _ _ ∅).edges ↔ _
    rw [h3, Finset.mem_image]
    constructor
    · rintro ⟨a, ha, rfl⟩
      obtain ⟨ha, hm⟩ := Finset.mem_filter.1 ha
      obtain ⟨e, he, rfl⟩ := Finset.mem_image.1 ha
      rw [← (hup e he).2]
      refine ⟨he, ?_⟩
      rw [(hup e he).2]
      intro x hx
      simp only [Finset.mem_insert, Finset.mem_singleton] at hx
      rcases hx with rfl | rfl
      · exact hm.1
      · exact hm.2
    · rintro ⟨he, hs⟩
      rw [(hup e he).2] at hs
      refine ⟨up.fn e, Finset.mem_filter.2 ⟨Finset.mem_image_of_mem _ he, hs (by simp), hs (by simp)⟩, (hup e he).2.symm⟩

end PDAG

end Model
