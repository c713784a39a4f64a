import Verif.Proof.RandGauss
import Verif.Props.Gauss

/-! # Random Gaussian models (properties C146 and C148) -/

namespace Props

open Model Spec

variable {K : Type} [Field K] [DecidableEq K]

/-- C146. `rand_normal_wishart` returns an object with the nodes and arcs of the graph, the drawn weights, biases and variances,
provided that no weight is zero. -/
theorem C146_rand_normal_wishart (on : SetOrder Unit ℕ) (op : SetOrder ℕ ℕ) (oa : SetOrder Bool (ℕ × ℕ)) {G : DAG ℕ} (hG : G.Valid)
    {weights : ℕ → List K} (hl : ∀ v, (weights v).length = (G.parents v).card + 1) (h0 : ∀ v, ∀ w ∈ (weights v).dropLast, w ≠ 0)
    (variance : ℕ → K) :
    ∃ H, randNormalWishart on op oa G weights variance = (H, none) ∧ H.Sound ∧ H.dag.nodes = G.nodes ∧ H.dag.arcs = G.arcs ∧
      (∀ a b, ∀ k < (G.parents (H.names b)).card, (op.ord (H.names b) (G.parents (H.names b)))[k]? = some (H.names a) →
        (weights (H.names b))[k]? = some (H.weight a b)) ∧
      (∀ a, (weights (H.names a)).getLast? = some (H.biases a)) ∧ ∀ a, H.variances a = variance (H.names a) := by
  have hnd := on.nodup () G.nodes
  have hlen : ∀ v, (op.ord v (G.parents v)).length = (G.parents v).card := fun v => by
    rw [← List.toFinset_card_of_nodup (op.nodup _ _)]
    congr 1
    ext u
    rw [List.mem_toFinset, op.mem_iff]
  have hk : ∀ e ∈ wishartArcs op G weights (on.ord () G.nodes), (∃ a, (on.ord () G.nodes).get a = e.1.1) ∧
      ∃ b, (on.ord () G.nodes).get b = e.1.2 := by
    rintro ⟨⟨p, v⟩, w⟩ he
    obtain ⟨h1, h2⟩ := mem_wishartArcs.1 he
    have hp := (op.mem_iff _ _ _).1 (List.of_mem_zip h2).1
    have := hG.fst_mem _ _ ((hG.parents_iff _ _).1 hp)
    rw [← on.mem_iff ()] at this
    exact ⟨List.mem_iff_get.1 this, List.mem_iff_get.1 h1⟩
  have harc : ∀ i j, (∃ v, ((i, j), v) ∈ wishartArcs op G weights (on.ord () G.nodes) ∧ v ≠ 0) ↔ (i, j) ∈ G.arcs := by
    intro i j
    constructor
    · rintro ⟨w, hw, -⟩
      exact (hG.parents_iff _ _).1 ((op.mem_iff _ _ _).1 (List.of_mem_zip (mem_wishartArcs.1 hw).2).1)
    · intro h
      have hi := (op.mem_iff j _ i).2 ((hG.parents_iff _ _).2 h)
      obtain ⟨k, hk, hki⟩ := List.mem_iff_getElem.1 hi
      have hk' : k < (weights j).dropLast.length := by
        rw [List.length_dropLast, hl, ← hlen j]; simpa using hk
      refine ⟨(weights j).dropLast[k], mem_wishartArcs.2 ⟨(on.mem_iff _ _ _).2 (hG.snd_mem _ _ h), ?_⟩, h0 _ _ (List.getElem_mem hk')⟩
      rw [List.mem_iff_getElem]
      refine ⟨k, by simp only [List.length_zip]; omega, ?_⟩
      rw [List.getElem_zip, hki]
  obtain ⟨H, h1, h2, h3, h4, h5, h6, h7, h8, h9, h10⟩ := C77_constructor_partial oa
    (names := (on.ord () G.nodes).get) (List.nodup_iff_injective_get.1 hnd) hk
    (wishartArcs_nodup hnd) (fun a => (weights ((on.ord () G.nodes).get a)).getLastD 0)
    fun a => variance ((on.ord () G.nodes).get a)
  have hac : Acyclic (fun i j => ∃ v, ((i, j), v) ∈ wishartArcs op G weights (on.ord () G.nodes) ∧ v ≠ 0) := by
    have : (fun i j => ∃ v, ((i, j), v) ∈ wishartArcs op G weights (on.ord () G.nodes) ∧ v ≠ 0) = G.E := by
      funext i j; exact propext (harc i j)
    rw [this]; exact hG.acyclic
  have hS := h10 hac
  refine ⟨H, h1, hS, ?_, ?_, ?_, ?_, ?_⟩
  · ext v
    rw [hS.listed.range, h2, ← on.mem_iff () G.nodes, List.mem_iff_get]
  · ext ⟨i, j⟩
    rw [h9, harc]
  · intro a b k hk hka
    have hb : H.names b ∈ on.ord () G.nodes := by rw [h2]; exact List.get_mem _ _
    have hk1 : k < (op.ord (H.names b) (G.parents (H.names b))).length := by rw [hlen]; exact hk
    have hk2 : k < (weights (H.names b)).dropLast.length := by rw [List.length_dropLast, hl]; simpa using hk
    have hk3 : k < (weights (H.names b)).length := by rw [hl]; omega
    have hw := h7 a b ((weights (H.names b))[k]) (by
      rw [← h2, mem_wishartArcs]
      refine ⟨hb, ?_⟩
      rw [List.mem_iff_getElem]
      refine ⟨k, by simp only [List.length_zip]; omega, ?_⟩
      rw [List.getElem?_eq_getElem hk1, Option.some.injEq] at hka
      rw [List.getElem_zip, hka, List.getElem_dropLast])
    rw [hw, List.getElem?_eq_getElem hk3]
  · intro a
    rw [h3, h2]
    cases hw : weights ((on.ord () G.nodes).get a) with
    | nil =>
      have := hl ((on.ord () G.nodes).get a)
      rw [hw] at this
      simp at this
    | cons x l => simp only [hw, List.getLast?_cons, List.getLastD_eq_getLast?, Option.getD_some]
  · intro a
    rw [h4, h2]

/-- The graph `3 → 5`, with weight 2. -/
example (on : SetOrder Unit ℕ) (op : SetOrder ℕ ℕ) (o : SetOrder (Option ℕ) ℕ) (oa : SetOrder Bool (ℕ × ℕ)) :
    ∃ G H, DAG.new o oa {3, 5} {(3, 5)} = some (G, none) ∧
      randNormalWishart (K := ℚ) on op oa G (fun v => if v = 5 then [2, 1] else [7]) (fun _ => 1) = (H, none) ∧ H.dag.arcs = {(3, 5)} := by
  obtain ⟨G, h1, h2, h3, h4⟩ := DAG.new_ok o oa {3, 5} {(3, 5)} (acyclic_lt (by simp))
  have hp : ∀ v, G.parents v = if v = 5 then {3} else ∅ := by
    intro v
    ext u
    rw [h2.parents_iff, h3]
    split <;> simp_all
  obtain ⟨H, g1, -, -, g2, -⟩ := C146_rand_normal_wishart (K := ℚ) on op oa h2 (weights := fun v => if v = 5 then [2, 1] else [7])
    (fun v => by rw [hp]; split <;> simp) (fun v w hw => by split at hw <;> simp_all) fun _ => 1
  exact ⟨G, H, h1, g1, g2.trans h3⟩

/-! ## C148 -/

variable {n : ℕ}

/-- C148 (partial: only with numbers instead of probabilities, for labels `0, …, n-1`, and if the set of labels is iterated in
ascending order). `alter_weights` returns an acyclic graph in which the given numbers of arcs are altered, removed and added; everything
else is as before. -/
theorem C148_alter_weights_partial {G : Gauss n K} (h : G.Plain) {on : SetOrder Unit ℕ}
    (ha : on.ord () (Finset.range n) = List.range n) (oe : SetOrder Unit (ℕ × ℕ)) (oa : SetOrder Bool (ℕ × ℕ))
    (o : SetOrder (Option ℕ) ℕ) (d : Draw) {na nd nr : ℕ} (h1 : na + nr ≤ G.dag.arcs.card)
    (h2 : nd + G.dag.arcs.card ≤ n.choose 2) (pa pd pr : Option K) {change : ℕ × ℕ → K → K} (hc : ∀ e w, change e w ≠ 0)
    {weights : List K} (hw : weights.length = nd) (hw0 : ∀ w ∈ weights, w ≠ 0) :
    ∃ H A R D, G.alterWeights on oe oa o d ⟨some na, pa⟩ ⟨some nd, pd⟩ ⟨some nr, pr⟩ change weights = some (.ok H) ∧ H.Plain ∧
      H.biases = G.biases ∧ H.variances = G.variances ∧ A ⊆ G.dag.arcs ∧ R ⊆ G.dag.arcs ∧ Disjoint A R ∧ Disjoint D G.dag.arcs ∧
      A.card = na ∧ R.card = nr ∧ D.card = nd ∧ H.dag.arcs = D ∪ (G.dag.arcs \ R) ∧
      ∀ i j : Fin n, ((i.val, j.val) ∈ A → H.weight i j = change (i, j) (G.weight i j)) ∧
        ((i.val, j.val) ∉ A → (i.val, j.val) ∉ R → (i.val, j.val) ∉ D → H.weight i j = G.weight i j) ∧
        ((i.val, j.val) ∈ D → H.weight i j ∈ weights) := by
  have hlen : ∀ s : Finset (ℕ × ℕ), (oe.ord () s).length = s.card := fun s => by
    rw [← List.toFinset_card_of_nodup (oe.nodup _ _)]
    congr 1
    ext u
    rw [List.mem_toFinset, oe.mem_iff]
  obtain ⟨t, t1, t2⟩ := h.listed.valid.sort o
  have htl : t.length = n := by
    rw [← List.toFinset_card_of_nodup t2.nodup, ← Finset.card_range n, ← h.nodes_eq]
    congr 1
    ext v
    rw [List.mem_toFinset, t2.mem_iff]
    rfl
  have hsub : G.dag.arcs ⊆ (DAG.pairs t).toFinset := fun e he => by
    rw [List.mem_toFinset, pairs_iff_sublist]
    exact t2.before _ _ he
  set alt := d.take (oe.ord () G.dag.arcs) na with halt
  set rem := d.take (oe.ord () (G.dag.arcs \ alt.toFinset)) (min nr (G.dag.arcs.card - na)) with hrem
  set add := d.take (oe.ord () ((DAG.pairs t).toFinset \ G.dag.arcs)) nd with hadd
  have hnr : min nr (G.dag.arcs.card - na) = nr := by omega
  have ha1 : alt.Nodup := d.nodup _ (oe.nodup _ _)
  have ha2 : ∀ e ∈ alt, e ∈ G.dag.arcs := fun e he => (oe.mem_iff _ _ _).1 (d.subset _ he)
  have ha3 : alt.length = na := d.length (by rw [hlen]; omega)
  have hr1 : rem.Nodup := d.nodup _ (oe.nodup _ _)
  have hr2 : ∀ e ∈ rem, e ∈ G.dag.arcs ∧ e ∉ alt := fun e he => by
    have := (oe.mem_iff _ _ _).1 (d.subset _ he)
    rwa [Finset.mem_sdiff, List.mem_toFinset] at this
  have hr3 : rem.length = nr := by
    rw [hrem, hnr]
    refine d.length ?_
    rw [hlen, Finset.card_sdiff_of_subset fun e he => ha2 e (List.mem_toFinset.1 he), List.toFinset_card_of_nodup ha1, ha3]
    omega
  have hd1 : add.Nodup := d.nodup _ (oe.nodup _ _)
  have hd2 : ∀ e ∈ add, e ∈ DAG.pairs t ∧ e ∉ G.dag.arcs := fun e he => by
    have := (oe.mem_iff _ _ _).1 (d.subset _ he)
    rwa [Finset.mem_sdiff, List.mem_toFinset] at this
  have hd3 : add.length = nd := by
    refine d.length ?_
    rw [hlen, Finset.card_sdiff_of_subset hsub, List.toFinset_card_of_nodup (Gauss.pairs_nodup t2.nodup), pairs_length, htl]
    omega
  have hac : Acyclic fun x y => (x, y) ∈ add.toFinset ∪ G.dag.arcs := by
    refine DAG.linearExtension_acyclic (V := {v | v ∈ t}) (l := t) ⟨t2.nodup, fun v => Iff.rfl, fun i j hij => ?_⟩
    rw [← pairs_iff_sublist]
    rcases Finset.mem_union.1 hij with h' | h'
    · exact (hd2 _ (List.mem_toFinset.1 h')).1
    · exact List.mem_toFinset.1 (hsub h')
  have hmem : ∀ v ∈ t, v < n := fun v hv => (h.nodes v).1 ((t2.mem_iff v).1 hv)
  obtain ⟨H, g1, g2, g3, g4, g5, g6, g7, g8⟩ := Gauss.alterCopy_spec h ha oe oa o ha1 ha2 hr1 (fun e he => (hr2 e he).1) hd1
    (fun e he => ⟨(hd2 e he).2, by
      have := (pairs_iff_sublist.1 (hd2 e he).1).subset
      exact ⟨hmem _ (this (by simp)), hmem _ (this (by simp))⟩⟩)
    (fun e he => (hr2 e he).2) hac hc (by rw [hw, hd3]) hw0
  refine ⟨H, alt.toFinset, rem.toFinset, add.toFinset, ?_, g2, g3, g4, fun e he => ha2 e (List.mem_toFinset.1 he),
    fun e he => (hr2 e (List.mem_toFinset.1 he)).1, ?_, ?_, ?_, ?_, ?_, g5, fun i j => ⟨fun hij => ?_, fun e1 e2 e3 => ?_, fun hij => ?_⟩⟩
  · unfold Gauss.alterWeights
    simp only [reduceCtorEq, false_and, if_false]
    rw [if_neg (by omega), if_neg (by omega), t1]
    exact g1
  · rw [Finset.disjoint_left]
    intro e he he'
    exact (hr2 e (List.mem_toFinset.1 he')).2 (List.mem_toFinset.1 he)
  · rw [Finset.disjoint_left]
    intro e he
    exact (hd2 e (List.mem_toFinset.1 he)).2
  · rw [List.toFinset_card_of_nodup ha1, ha3]
  · rw [List.toFinset_card_of_nodup hr1, hr3]
  · rw [List.toFinset_card_of_nodup hd1, hd3]
  · have := g6 _ (List.mem_toFinset.1 hij)
    rwa [H.entry_val, G.entry_val] at this
  · rw [List.mem_toFinset] at e1 e2 e3
    have := g7 _ e1 e2 e3
    rwa [H.entry_val, G.entry_val] at this
  · rw [List.mem_toFinset] at hij
    obtain ⟨k, hk, hke⟩ := List.mem_iff_getElem.1 hij
    have hk' : k < weights.length := by rw [hw, ← hd3]; exact hk
    have hz : ((i.val, j.val), weights[k]) ∈ add.zip weights := by
      rw [List.mem_iff_getElem]
      refine ⟨k, by simp only [List.length_zip]; omega, ?_⟩
      rw [List.getElem_zip, hke]
    have := g8 _ hz
    dsimp only at this
    rw [← H.entry_val, this]
    exact List.getElem_mem hk'

/-- `random.sample` could return the first members. -/
def Sample.first : Draw where
  take l k := l.take k
  nodup k h := h.sublist (List.take_sublist _ _)
  subset k := List.take_subset _ _
  length h := by rw [List.length_take]; omega

/-- The graph `0 → 1 → 2`: one arc is altered, the other removed, the missing one added. -/
example {on : SetOrder Unit ℕ} (ha : on.ord () (Finset.range 3) = List.range 3) (oe : SetOrder Unit (ℕ × ℕ))
    (oa : SetOrder Bool (ℕ × ℕ)) (o : SetOrder (Option ℕ) ℕ) :
    ∃ G H : Gauss 3 ℚ, Gauss.new oa Fin.val [((0, 1), 1), ((1, 2), 1)] 0 1 = (G, none) ∧
      G.alterWeights on oe oa o Sample.first ⟨some 1, none⟩ ⟨some 1, none⟩ ⟨some 1, none⟩ (fun _ _ => 5) [7] = some (.ok H) ∧
      H.dag.arcs.card = 2 := by
  obtain ⟨G, h1, h2, h3, h4, h5, h6, h7, h8, h9, h10⟩ := C77_constructor_partial (K := ℚ) oa (names := (Fin.val : Fin 3 → ℕ))
    Fin.val_injective (arcs := [((0, 1), 1), ((1, 2), 1)])
    (by simp only [List.mem_cons, List.not_mem_nil, or_false, forall_eq_or_imp, forall_eq]
        exact ⟨⟨⟨0, rfl⟩, ⟨1, rfl⟩⟩, ⟨1, rfl⟩, ⟨2, rfl⟩⟩) (by simp) 0 1
  have hP : G.Plain := ⟨h10 (acyclic_lt (by simp; omega)), fun a => by rw [h2]⟩
  have harcs : G.dag.arcs = {(0, 1), (1, 2)} := by
    ext ⟨i, j⟩
    rw [h9]
    simp only [List.mem_cons, List.not_mem_nil, or_false, Prod.mk.injEq, Finset.mem_insert, Finset.mem_singleton]
    constructor
    · rintro ⟨v, h | h, -⟩
      · exact .inl h.1
      · exact .inr h.1
    · rintro (h | h)
      · exact ⟨1, .inl ⟨h, rfl⟩, by simp⟩
      · exact ⟨1, .inr ⟨h, rfl⟩, by simp⟩
  have hcard : G.dag.arcs.card = 2 := by rw [harcs]; rfl
  obtain ⟨H, A, R, D, g1, -, -, -, -, g2, -, g3, -, g4, g5, g6, -⟩ := C148_alter_weights_partial hP ha oe oa o Sample.first (na := 1)
    (nd := 1) (nr := 1) (by omega) (by rw [hcard]; decide) none none none (change := fun _ _ => 5) (by simp) (weights := [7]) rfl
    (by simp)
  refine ⟨G, H, h1, g1, ?_⟩
  rw [g6, Finset.card_union_of_disjoint (g3.mono_right Finset.sdiff_subset), Finset.card_sdiff_of_subset g2, g4, g5, hcard]

/-- C148 is violated: with probabilities instead of numbers a `TypeError` is raised, for every graph. -/
theorem C148_violated (on : SetOrder Unit ℕ) (oe : SetOrder Unit (ℕ × ℕ)) (oa : SetOrder Bool (ℕ × ℕ)) (o : SetOrder (Option ℕ) ℕ)
    (d : Draw) (G : Gauss n K) (pa pd pr : K) (change : ℕ × ℕ → K → K) (weights : List K) :
    G.alterWeights on oe oa o d ⟨none, some pa⟩ ⟨none, some pd⟩ ⟨none, some pr⟩ change weights = some (.error .type) := by
  unfold Gauss.alterWeights
  simp

/-- C148. With numbers that do not fit a `ValueError` is raised: more arcs to alter and remove than there are, or more arcs to add than
pairs without an arc. -/
theorem C148_too_many (on : SetOrder Unit ℕ) (oe : SetOrder Unit (ℕ × ℕ)) (oa : SetOrder Bool (ℕ × ℕ)) (o : SetOrder (Option ℕ) ℕ)
    (d : Draw) (G : Gauss n K) {na nd nr : ℕ} (h : G.dag.arcs.card < na + nr ∨ n.choose 2 < nd + G.dag.arcs.card)
    (pa pd pr : Option K) (change : ℕ × ℕ → K → K) (weights : List K) :
    G.alterWeights on oe oa o d ⟨some na, pa⟩ ⟨some nd, pd⟩ ⟨some nr, pr⟩ change weights = some (.error .value) := by
  unfold Gauss.alterWeights
  simp only [reduceCtorEq, false_and, if_false]
  by_cases h1 : na + nr > G.dag.arcs.card
  · rw [if_pos h1]
  · rw [if_neg h1, if_pos (by omega)]

example (on : SetOrder Unit ℕ) (oe : SetOrder Unit (ℕ × ℕ)) (oa : SetOrder Bool (ℕ × ℕ)) (o : SetOrder (Option ℕ) ℕ) :
    ∃ G : Gauss 2 ℚ, Gauss.new oa Fin.val [((0, 1), 1)] 0 1 = (G, none) ∧
      G.alterWeights on oe oa o Sample.first ⟨some 1, none⟩ ⟨some 0, none⟩ ⟨some 1, none⟩ (fun _ w => w) [] = some (.error .value) := by
  obtain ⟨G, h1, -, -, -, -, -, -, -, h9, -⟩ := C77_constructor_partial (K := ℚ) oa (names := (Fin.val : Fin 2 → ℕ))
    Fin.val_injective (arcs := [((0, 1), 1)]) (by simp only [List.mem_singleton, forall_eq]; exact ⟨⟨0, rfl⟩, ⟨1, rfl⟩⟩) (by simp) 0 1
  refine ⟨G, h1, C148_too_many on oe oa o _ G (.inl ?_) _ _ _ _ _⟩
  have : G.dag.arcs ⊆ {(0, 1)} := by
    rintro ⟨i, j⟩ h
    rw [h9] at h
    obtain ⟨v, h, -⟩ := h
    simp only [List.mem_singleton, Prod.mk.injEq] at h
    simp [h.1]
  have := Finset.card_le_card this
  simp only [Finset.card_singleton] at this
  omega

end Props
