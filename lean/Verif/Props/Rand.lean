import Verif.Proof.Rand
import Verif.Props.Topo
import Verif.Props.Gauss

/-! # C44, C81, C82: random graphs -/

namespace Props

open Model Model.DAG Spec

/-- C44. `directed_erdos(n)` returns, whatever the coins and the permutation are, an acyclic graph on `0, …, n-1` with one arc
for each coin that shows heads. Without a random order all arcs point to larger labels, otherwise to later members of the
permutation. -/
theorem C44_erdos (o : SetOrder (Option ℕ) ℕ) (oa : SetOrder Bool (ℕ × ℕ)) (n : ℕ) {bools : List Bool}
    (hb : bools.length = n * (n - 1) / 2) {perm : Option (List ℕ)} (hp : ∀ p, perm = some p → p.Perm (List.range n)) :
    ∃ G, directedErdos o oa n bools perm = some (G, none) ∧ G.Consistent ∧ Acyclic G.E ∧ G.nodes = Finset.range n ∧
      G.arcs.card = bools.count true ∧ LinearExtension {v | v < n} G.E (perm.getD (List.range n)) := by
  obtain ⟨G, h1, h2, h3, h4, h5⟩ := directedErdos_spec o oa n bools hp
  refine ⟨G, h1, h2.toConsistent, h2.acyclic, h3, ?_, ?_, ?_, ?_⟩
  · rw [h5, chosen_length]
    rw [pairs_length, List.length_range, Nat.choose_two_right, hb]
  · cases perm with
    | none => exact List.nodup_range
    | some p => exact (hp p rfl).nodup_iff.2 List.nodup_range
  · intro v
    cases perm with
    | none => simp
    | some p => rw [Option.getD_some, (hp p rfl).mem_iff, List.mem_range]; rfl
  · intro x y hxy
    obtain ⟨i, j, hij, rfl, rfl⟩ := (h4 x y).1 hxy
    obtain ⟨hlt, hj⟩ := mem_pairs_range.1 ((chosen_sublist _ _).subset hij)
    cases perm with
    | none => exact pairs_iff_sublist.1 (mem_pairs_range.2 ⟨hlt, hj⟩)
    | some p => exact getD_sublist hlt (by rw [(hp p rfl).length_eq, List.length_range]; exact hj)

/-- C44. Without a random order, every acyclic graph whose arcs point to larger labels is the result for exactly one outcome
of the coins. -/
theorem C44_erdos_unique (o : SetOrder (Option ℕ) ℕ) (oa : SetOrder Bool (ℕ × ℕ)) (n : ℕ) (arcs : Finset (ℕ × ℕ))
    (hA : ∀ a ∈ arcs, a.1 < a.2 ∧ a.2 < n) :
    ∃! bools : List Bool, bools.length = n * (n - 1) / 2 ∧
      ∃ G, directedErdos o oa n bools none = some (G, none) ∧ G.arcs = arcs := by
  have hlen : n * (n - 1) / 2 = (pairs (List.range n)).length := by
    rw [pairs_length, List.length_range, Nat.choose_two_right]
  have hspec := fun bools => directedErdos_spec o oa n bools (perm := none) (by simp)
  rw [hlen]
  refine ⟨(pairs (List.range n)).map fun a => decide (a ∈ arcs), ⟨List.length_map _, ?_⟩, ?_⟩
  · obtain ⟨G, h1, -, -, h4, -⟩ := hspec ((pairs (List.range n)).map fun a => decide (a ∈ arcs))
    refine ⟨G, h1, ?_⟩
    ext ⟨x, y⟩
    rw [h4, chosen_map]
    simp only [relabel, id, List.mem_filter, decide_eq_true_eq, ↓existsAndEq, and_true, mem_pairs_range]
    exact ⟨fun h => h.2, fun h => ⟨hA _ h, h⟩⟩
  · rintro bs ⟨hl, G, h1, h2⟩
    refine chosen_inj (pairs_nodup List.pairwise_lt_range) hl (List.length_map _) ?_
    rintro ⟨x, y⟩
    obtain ⟨G', g1, -, -, g4, -⟩ := hspec bs
    obtain rfl : G = G' := by
      have := h1.symm.trans g1
      simpa using this
    have h3 := g4 x y
    simp only [relabel, id, ↓existsAndEq, and_true] at h3
    rw [← h3, h2, chosen_map]
    simp only [List.mem_filter, decide_eq_true_eq, mem_pairs_range]
    exact ⟨fun h => ⟨hA _ h, h⟩, fun h => h.2⟩

/-- C44. With a random order, every acyclic graph on `0, …, n-1` is a possible result. -/
theorem C44_erdos_all (o : SetOrder (Option ℕ) ℕ) (oa : SetOrder Bool (ℕ × ℕ)) {D : DAG ℕ} (hD : D.Valid) {n : ℕ}
    (hn : D.nodes = Finset.range n) :
    ∃ (bools : List Bool) (p : List ℕ), bools.length = n * (n - 1) / 2 ∧ p.Perm (List.range n) ∧
      ∃ G, directedErdos o oa n bools (some p) = some (G, none) ∧ G.arcs = D.arcs := by
  obtain ⟨t, -, ht⟩ := topologicalSort_ok D o hD
  have hp : t.Perm (List.range n) := by
    rw [List.perm_ext_iff_of_nodup ht.nodup List.nodup_range]
    intro v
    rw [ht.mem_iff, Finset.mem_coe, hn, Finset.mem_range, List.mem_range]
  have hl : t.length = n := by rw [hp.length_eq, List.length_range]
  refine ⟨(pairs (List.range n)).map fun a => decide ((t.getD a.1 0, t.getD a.2 0) ∈ D.arcs), t, ?_, hp, ?_⟩
  · rw [List.length_map, pairs_length, List.length_range, Nat.choose_two_right]
  · obtain ⟨G, h1, -, -, h4, -⟩ := directedErdos_spec o oa n
      ((pairs (List.range n)).map fun a => decide ((t.getD a.1 0, t.getD a.2 0) ∈ D.arcs)) (perm := some t)
      (by rintro p ⟨⟩; exact hp)
    refine ⟨G, h1, ?_⟩
    ext ⟨x, y⟩
    rw [h4, chosen_map]
    simp only [relabel, List.mem_filter, decide_eq_true_eq, mem_pairs_range]
    constructor
    · rintro ⟨i, j, ⟨-, h⟩, rfl, rfl⟩; exact h
    · intro h
      obtain ⟨i, j, hij, hj, rfl, rfl⟩ := sublist_getD (ht.before x y h)
      exact ⟨i, j, ⟨⟨hij, by omega⟩, h⟩, rfl, rfl⟩

/-- C44. `directed_random_graph(n, model)` returns, for every loop-free undirected graph on `0, …, n-1` and every permutation,
the acyclic graph with that skeleton whose arcs follow the permutation. -/
theorem C44_random_graph (o : SetOrder (Option ℕ) ℕ) (oa : SetOrder Bool (ℕ × ℕ)) {n : ℕ} {edges : List (ℕ × ℕ)}
    (he : ∀ e ∈ edges, e.1 ≠ e.2 ∧ e.1 < n ∧ e.2 < n) {p : List ℕ} (hp : p.Perm (List.range n)) :
    ∃ G, directedRandomGraph o oa n edges p = some (G, none) ∧ G.Consistent ∧ Acyclic G.E ∧ G.nodes = Finset.range n ∧
      (∀ i j, Adj G.E i j ↔ (i, j) ∈ edges ∨ (j, i) ∈ edges) ∧ LinearExtension {v | v < n} G.E p := by
  have hnd : p.Nodup := hp.nodup_iff.2 List.nodup_range
  have hmem : ∀ v, v < n → v ∈ p := fun v hv => hp.mem_iff.2 (List.mem_range.2 hv)
  have ho : ∀ e ∈ edges, orientEdge p e =
      some (if p.idxOf e.1 < p.idxOf e.2 then (e.1, e.2) else (e.2, e.1)) := fun e h => by
    obtain ⟨-, h1, h2⟩ := he e h
    rw [orientEdge, position, position, if_pos (hmem _ h1), if_pos (hmem _ h2)]
    rfl
  have hm : edges.mapM (orientEdge p) =
      some (edges.map fun e => if p.idxOf e.1 < p.idxOf e.2 then (e.1, e.2) else (e.2, e.1)) := by
    clear he
    induction edges with
    | nil => rfl
    | cons e l ih =>
      rw [List.mapM_cons, ho e List.mem_cons_self, ih fun e' h' => ho e' (List.mem_cons_of_mem _ h')]
      rfl
  have hA : ∀ i j, (i, j) ∈ (edges.map fun e => if p.idxOf e.1 < p.idxOf e.2 then (e.1, e.2) else (e.2, e.1)).toFinset →
      i < n ∧ j < n ∧ List.Sublist [i, j] p ∧ ((i, j) ∈ edges ∨ (j, i) ∈ edges) := by
    intro i j h
    rw [List.mem_toFinset, List.mem_map] at h
    obtain ⟨⟨a, b⟩, h1, h2⟩ := h
    obtain ⟨h3, h4, h5⟩ := he _ h1
    dsimp only at h2 h3 h4 h5
    split at h2
    · obtain ⟨rfl, rfl⟩ := Prod.mk.inj h2
      exact ⟨h4, h5, idxOf_lt_sublist (by assumption) (hmem _ h5), Or.inl h1⟩
    · obtain ⟨rfl, rfl⟩ := Prod.mk.inj h2
      refine ⟨h5, h4, idxOf_lt_sublist ?_ (hmem _ h4), Or.inr h1⟩
      rename_i hlt
      refine lt_of_le_of_ne (not_lt.1 hlt) fun hc => h3 ?_
      exact ((List.idxOf_inj (hmem _ h5)).1 hc).symm
  have hlin : LinearExtension {v | v < n} (fun i j => (i, j) ∈
      (edges.map fun e => if p.idxOf e.1 < p.idxOf e.2 then (e.1, e.2) else (e.2, e.1)).toFinset) p :=
    ⟨hnd, fun v => by rw [hp.mem_iff, List.mem_range]; rfl, fun i j h => (hA i j h).2.2.1⟩
  obtain ⟨G, h1, h2, h3, h4⟩ := new_ok o oa (Finset.range n) _ (linear_acyclic hlin)
  refine ⟨G, ?_, h2.toConsistent, h2.acyclic, ?_, ?_, ?_⟩
  · rw [directedRandomGraph, hm]; exact h1
  · rw [h4]
    ext v
    simp only [Finset.mem_union, Finset.mem_range, Finset.mem_image, Prod.exists, exists_and_right, exists_eq_right]
    constructor
    · rintro ((h | ⟨y, h⟩) | ⟨y, h⟩)
      · exact h
      · exact (hA _ _ h).1
      · exact (hA _ _ h).2.1
    · intro h; exact Or.inl (Or.inl h)
  · intro i j
    have hE : ∀ a b, G.E a b ↔ (a, b) ∈
        (edges.map fun e => if p.idxOf e.1 < p.idxOf e.2 then (e.1, e.2) else (e.2, e.1)).toFinset := fun a b => by
      rw [DAG.E, h3]
    have hin : ∀ a b, (a, b) ∈ edges → Adj G.E a b := by
      intro a b hab
      by_cases hlt : p.idxOf a < p.idxOf b
      · refine Or.inl ((hE _ _).2 (List.mem_toFinset.2 (List.mem_map.2 ⟨_, hab, ?_⟩)))
        exact if_pos hlt
      · refine Or.inr ((hE _ _).2 (List.mem_toFinset.2 (List.mem_map.2 ⟨_, hab, ?_⟩)))
        exact if_neg hlt
    constructor
    · rintro (h | h)
      · exact (hA _ _ ((hE _ _).1 h)).2.2.2
      · exact (hA _ _ ((hE _ _).1 h)).2.2.2.symm
    · rintro (h | h)
      · exact hin _ _ h
      · exact (hin _ _ h).symm
  · refine ⟨hnd, hlin.mem_iff, fun i j h => hlin.before i j ?_⟩
    rw [DAG.E, h3] at h
    exact h

/-- Concrete cases: five heads out of six coins on four nodes; a path of four nodes in an arbitrary order. -/
example : ∃ G, directedErdos Sample.order Sample.order 4 [true, true, false, true, true, true] (some [2, 0, 3, 1]) =
    some (G, none) ∧ G.arcs.card = 5 := by
  obtain ⟨G, h1, -, -, -, h2, -⟩ := C44_erdos Sample.order Sample.order 4 (bools := [true, true, false, true, true, true])
    (by decide) (perm := some [2, 0, 3, 1]) (by rintro p ⟨⟩; decide)
  exact ⟨G, h1, h2⟩

example : ∃ G, directedRandomGraph Sample.order Sample.order 4 [(0, 1), (1, 2), (2, 3)] [2, 0, 3, 1] = some (G, none) ∧
    Adj G.E 1 2 ∧ Acyclic G.E := by
  obtain ⟨G, h1, -, h2, -, h3, -⟩ := C44_random_graph Sample.order Sample.order (n := 4)
    (edges := [(0, 1), (1, 2), (2, 3)]) (by decide) (p := [2, 0, 3, 1]) (by decide)
  exact ⟨G, h1, (h3 1 2).2 (by decide), h2⟩

/-- C81 (partial: the nodes are all of `0, …, n+k-1` only under an extra condition). `directed_erdos_with_confounders` with
`n` nodes and `k` confounders never fails, and the result is an acyclic graph with one arc for each head; no arc joins two
confounders. If every confounder points to every node, the nodes are `0, …, n+k-1`. -/
theorem C81_confounders_partial (o : SetOrder (Option ℕ) ℕ) (oa : SetOrder Bool (ℕ × ℕ)) (n k : ℕ)
    {bools bools' : List Bool} (hb : bools.length = k * n) (hb' : bools'.length = n * (n - 1) / 2)
    {perm : Option (List ℕ)} (hp : ∀ p, perm = some p → p.Perm (List.range (n + k))) :
    ∃ G, erdosConfounders o oa n k bools bools' perm = some (G, none) ∧ G.Consistent ∧ Acyclic G.E ∧
      G.nodes ⊆ Finset.range (n + k) ∧ n ≤ G.nodes.card ∧ G.arcs.card = bools.count true + bools'.count true ∧
      (perm = none → ∀ i j, (i, j) ∈ G.arcs → i < j ∧ k ≤ j) ∧
      (0 < n → 0 < k → (∀ b ∈ bools, b = true) → G.nodes = Finset.range (n + k)) := by
  obtain ⟨G, H, f, h1, h2, h3, h4, h5, h6, h7, h8, h9⟩ := erdosConfounders_spec o oa n k bools bools' hp
  have hA : ∀ i j, (i, j) ∈ G.arcs → i < j ∧ k ≤ j ∧ j < n + k := fun i j h => confounders_mem (h3 ▸ h)
  have hN : G.nodes ⊆ Finset.range (n + k) := by
    intro v hv
    rw [h4] at hv
    simp only [Finset.mem_union, Finset.mem_image, Finset.mem_range] at hv ⊢
    rcases hv with (h | ⟨⟨a, b⟩, h, rfl⟩) | ⟨⟨a, b⟩, h, rfl⟩
    · omega
    · have := hA _ _ h; simp only; omega
    · have := hA _ _ h; simp only; omega
  refine ⟨H, h1, h2.toConsistent, h2.acyclic, ?_, ?_, ?_, ?_, ?_⟩
  · rw [h7]
    intro x hx
    obtain ⟨i, hi, rfl⟩ := Finset.mem_image.1 hx
    exact Finset.mem_range.2 (h5 i (Finset.mem_range.1 (hN hi)))
  · rw [h7, Finset.card_image_of_injOn]
    · calc n = (Finset.range n).card := (Finset.card_range n).symm
        _ ≤ _ := Finset.card_le_card (by rw [h4, Finset.union_assoc]; exact Finset.subset_union_left)
    · intro a ha b hb h
      exact h6 a b (Finset.mem_range.1 (hN ha)) (Finset.mem_range.1 (hN hb)) h
  · rw [card_arcs h6 (fun i j h => by have := hA i j h; omega) h8, h3, Finset.card_union_of_disjoint,
      List.toFinset_card_of_nodup, List.toFinset_card_of_nodup, chosen_length, chosen_length]
    · rw [pairs_length, List.length_range', Nat.choose_two_right, hb']
    · rw [List.length_product, List.length_range, List.length_range', hb]
    · exact (pairs_nodup List.pairwise_lt_range').sublist (chosen_sublist _ _)
    · exact (List.Nodup.product List.nodup_range List.nodup_range').sublist (chosen_sublist _ _)
    · rw [Finset.disjoint_left]
      rintro ⟨i, j⟩ h h'
      have g1 := List.pair_mem_product.1 ((chosen_sublist _ _).subset (List.mem_toFinset.1 h))
      have g2 := (mem_pairs_lt List.pairwise_lt_range').1 ((chosen_sublist _ _).subset (List.mem_toFinset.1 h'))
      simp only [List.mem_range, List.mem_range'_1] at g1 g2
      omega
  · rintro rfl i j hij
    obtain rfl := h9 rfl
    obtain ⟨a, b, hab, rfl, rfl⟩ := (h8 _ _).1 hij
    have := hA a b hab
    exact ⟨this.1, this.2.1⟩
  · intro hn hk hall
    rw [h7, show G.nodes = Finset.range (n + k) from ?_, image_range h5 h6]
    have hch : chosen (List.range k ×ˢ List.range' k n) bools = List.range k ×ˢ List.range' k n := by
      have hl : bools.length = (List.range k ×ˢ List.range' k n).length := by
        rw [List.length_product, List.length_range, List.length_range', hb]
      refine (chosen_sublist _ _).eq_of_length ?_
      rw [chosen_length hl, ← hl, List.count_eq_length]
      exact fun b hb => (hall b hb).symm
    refine Finset.Subset.antisymm hN fun v hv => ?_
    rw [Finset.mem_range] at hv
    rw [h4, h3, hch]
    simp only [Finset.mem_union, Finset.mem_image, Finset.mem_range, List.mem_toFinset]
    by_cases hvk : v < k
    · refine Or.inl (Or.inr ⟨(v, k), Or.inl (List.pair_mem_product.2 ?_), rfl⟩)
      rw [List.mem_range, List.mem_range'_1]; omega
    · refine Or.inr ⟨(0, v), Or.inl (List.pair_mem_product.2 ?_), rfl⟩
      rw [List.mem_range, List.mem_range'_1]; omega

/-- C81 is violated: if the single confounder of a single node points nowhere, the graph has one node instead of two. -/
theorem C81_violated (o : SetOrder (Option ℕ) ℕ) (oa : SetOrder Bool (ℕ × ℕ)) :
    ∃ G, erdosConfounders o oa 1 1 [false] [] none = some (G, none) ∧ G.nodes = {0} ∧ G.nodes ≠ Finset.range 2 := by
  obtain ⟨G, H, f, h1, h2, h3, h4, h5, h6, h7, h8, h9⟩ :=
    erdosConfounders_spec o oa 1 1 [false] [] (perm := none) (by simp)
  obtain rfl := h9 rfl
  have hA : G.arcs = ∅ := by rw [h3]; rfl
  have hn : H.nodes = {0} := by
    rw [h7, h4, hA]; rfl
  exact ⟨H, h1, hn, by rw [hn]; decide⟩

example : ∃ G, erdosConfounders Sample.order Sample.order 2 1 [true, true] [true] (some [2, 0, 1]) = some (G, none) ∧
    G.nodes = Finset.range 3 ∧ G.arcs.card = 3 := by
  obtain ⟨G, h1, -, -, -, -, h2, -, h3⟩ := C81_confounders_partial Sample.order Sample.order 2 1 (bools := [true, true])
    (bools' := [true]) rfl rfl (perm := some [2, 0, 1]) (by rintro p ⟨⟩; decide)
  exact ⟨G, h1, h3 (by decide) (by decide) (by simp), h2⟩

/-! ## C82 -/

variable {K : Type} [Field K] [DecidableEq K]

/-- C82 (partial: only if the labels of the graph are `0, …, n-1`). `rand_weights` returns an object with exactly the arcs of
the graph and the drawn weights, provided that no weight is zero. -/
theorem C82_rand_weights_partial (oa : SetOrder Bool (ℕ × ℕ)) {D : DAG ℕ} (hD : D.Valid)
    (hn : D.nodes = Finset.range D.nodes.card) {l : List (ℕ × ℕ)} (hl : l.Nodup) (hl' : ∀ a, a ∈ l ↔ a ∈ D.arcs)
    {weights : List K} (hw : weights.length = l.length) (h0 : ∀ w ∈ weights, w ≠ 0) :
    ∃ G, randWeights oa D l weights = (G, none) ∧ G.Plain ∧ G.dag.arcs = D.arcs ∧
      ∀ a b w, ((a.val, b.val), w) ∈ l.zip weights → G.weight a b = w := by
  have hfst : (l.zip weights).map Prod.fst = l := by
    rw [List.map_fst_zip]; omega
  have hmem : ∀ e ∈ l.zip weights, e.1 ∈ D.arcs := fun e he => (hl' _).1 (by
    rw [← hfst]; exact List.mem_map_of_mem he)
  have harc : ∀ i j, (∃ v, ((i, j), v) ∈ l.zip weights ∧ v ≠ 0) ↔ (i, j) ∈ D.arcs := by
    intro i j
    constructor
    · rintro ⟨v, hv, -⟩; exact hmem _ hv
    · intro h
      rw [← hl', ← hfst, List.mem_map] at h
      obtain ⟨⟨a, w⟩, h1, rfl⟩ := h
      exact ⟨w, h1, h0 w (List.of_mem_zip h1).2⟩
  have hk : ∀ e ∈ l.zip weights, e.1.1 < D.nodes.card ∧ e.1.2 < D.nodes.card := fun e he => by
    have h1 := hD.fst_mem _ _ (hmem e he)
    have h2 := hD.snd_mem _ _ (hmem e he)
    rw [hn, Finset.mem_range] at h1 h2
    exact ⟨h1, h2⟩
  have hac : Acyclic (fun i j => ∃ v, ((i, j), v) ∈ l.zip weights ∧ v ≠ 0) := by
    have : (fun i j => ∃ v, ((i, j), v) ∈ l.zip weights ∧ v ≠ 0) = D.E := by
      funext i j; exact propext (harc i j)
    rw [this]; exact hD.acyclic
  obtain ⟨G, h1, h2, h3, h4, h5, h6, h7, h8, h9, h10⟩ := C77_constructor_partial oa
    (names := (Fin.val : Fin D.nodes.card → ℕ)) Fin.val_injective
    (fun e he => ⟨⟨⟨_, (hk e he).1⟩, rfl⟩, ⟨_, (hk e he).2⟩, rfl⟩) (by rw [hfst]; exact hl) 0 1
  refine ⟨G, h1, ⟨h10 hac, fun a => by rw [h2]⟩, ?_, h7⟩
  ext ⟨i, j⟩
  rw [h9, harc]

example : ∃ (D : DAG ℕ) (G : Gauss D.nodes.card ℚ), randWeights Sample.order D [(0, 1)] [3] = (G, none) ∧
    G.dag.arcs = {(0, 1)} := by
  obtain ⟨D, h1, h2, h3, h4⟩ := new_ok Sample.order Sample.order ∅ ({(0, 1)} : Finset (ℕ × ℕ)) (acyclic_lt (by simp))
  obtain ⟨G, g1, -, g2, -⟩ := C82_rand_weights_partial (K := ℚ) Sample.order h2 (by rw [h4]; rfl) (l := [(0, 1)]) (by simp)
    (by simp [h3]) (weights := [3]) rfl (by simp)
  exact ⟨D, G, g1, g2.trans h3⟩

/-- C82 is violated: on the graph `1 → 2 → 3` of the documentation `rand_weights` raises a `KeyError`. -/
theorem C82_violated (o : SetOrder (Option ℕ) ℕ) (oa oa' : SetOrder Bool (ℕ × ℕ)) (w w' : K) :
    ∃ D, DAG.new o oa ∅ {(1, 2), (2, 3)} = some (D, none) ∧ D.Valid ∧
      (randWeights oa' D [(1, 2), (2, 3)] [w, w']).2 = some .key := by
  obtain ⟨D, h1, h2, h3, h4⟩ := new_ok o oa ∅ ({(1, 2), (2, 3)} : Finset (ℕ × ℕ)) (acyclic_lt (by simp; omega))
  have hc : D.nodes.card = 3 := by rw [h4]; rfl
  refine ⟨D, h1, h2, ?_⟩
  unfold randWeights
  generalize D.nodes.card = n at *
  subst hc
  rfl

end Props
