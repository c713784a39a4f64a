import Verif.Props.Metric
import Verif.Props.IMap
import Verif.Proof.Orders

/-! # Orders against a DAG and the Chickering distance (properties C231, C232) -/

namespace Props

open Model Model.DAG Spec
universe u
variable {α : Type u} [DecidableEq α]

/-- C231. For an order that lists the ends of all arcs and repeats nothing, `is_topological` is `True` exactly if every arc points forward
in the order, `permutation_score` is the number of arcs that point backward, and the score is 0 exactly if the answer is `True`. -/
theorem C231_orders {G : DAG α} (hG : G.Valid) (oa : SetOrder Unit (α × α)) {order : List α} (hnd : order.Nodup)
    (hm : ∀ i j, G.E i j → i ∈ order ∧ j ∈ order) :
    ∃ b n, isTopological G oa order = some b ∧ permutationScore G oa order = some n ∧
      (b = true ↔ ∀ i j, G.E i j → List.Sublist [i, j] order) ∧ n = {a : α × α | G.E a.1 a.2 ∧ List.Sublist [a.2, a.1] order}.ncard ∧
      (n = 0 ↔ b = true) := by
  have hL : ∀ a ∈ oa.ord () G.arcs, a.1 ∈ order ∧ a.2 ∈ order := fun a ha => hm _ _ ((oa.mem_iff _ _ _).1 ha)
  obtain ⟨b, h1, h2⟩ := isTopological_go hnd hL
  have h3 := score_fold hnd hL 0
  rw [Nat.zero_add] at h3
  have h2' : b = true ↔ ∀ i j, G.E i j → List.Sublist [i, j] order := by
    rw [h2]
    exact ⟨fun h i j hij => h (i, j) ((oa.mem_iff _ _ _).2 hij), fun h a ha => h _ _ ((oa.mem_iff _ _ _).1 ha)⟩
  have hn : ((oa.ord () G.arcs).filter fun a => decide (order.idxOf a.2 < order.idxOf a.1)).length =
      {a : α × α | G.E a.1 a.2 ∧ List.Sublist [a.2, a.1] order}.ncard := by
    rw [← List.toFinset_card_of_nodup ((oa.nodup _ _).filter _), ← Set.ncard_coe_finset]
    congr 1
    ext a
    simp only [Finset.mem_coe, List.mem_toFinset, List.mem_filter, oa.mem_iff, decide_eq_true_eq, Set.mem_ofPred_eq]
    constructor
    · rintro ⟨h, h'⟩; exact ⟨h, (sublist_iff_idxOf hnd (hm _ _ h).1).2 h'⟩
    · rintro ⟨h, h'⟩; exact ⟨h, (sublist_iff_idxOf hnd (hm _ _ h).1).1 h'⟩
  refine ⟨b, _, h1, h3, h2', hn, ?_⟩
  rw [h2', List.length_eq_zero_iff, List.filter_eq_nil_iff]
  constructor
  · intro h i j hij
    obtain ⟨hi, hj⟩ := hm i j hij
    have := h (i, j) ((oa.mem_iff _ _ _).2 hij)
    rw [decide_eq_true_eq, not_lt] at this
    refine (sublist_iff_idxOf hnd hj).2 (lt_of_le_of_ne this fun e => ?_)
    have e := (List.idxOf_inj hi).1 e
    exact hG.acyclic.irrefl (e ▸ hij)
  · intro h a ha
    have ha := (oa.mem_iff _ _ _).1 ha
    rw [decide_eq_true_eq, not_lt]
    exact ((sublist_iff_idxOf hnd (hm _ _ ha).2).1 (h _ _ ha)).le

/-- The result of `topological_sort` passes both checks. -/
theorem C231_topological_sort {G : DAG α} (hG : G.Valid) (o : SetOrder (Option α) α) (oa : SetOrder Unit (α × α)) :
    ∃ l, (topologicalSort G o).run = some (.ok l) ∧ isTopological G oa l = some true ∧ permutationScore G oa l = some 0 := by
  obtain ⟨l, h1, h2⟩ := topologicalSort_ok G o hG
  obtain ⟨b, n, k1, k2, k3, -, k5⟩ := C231_orders hG oa h2.nodup
    fun i j h => ⟨(h2.mem_iff i).2 (hG.fst_mem i j h), (h2.mem_iff j).2 (hG.snd_mem i j h)⟩
  have hb := k3.2 h2.before
  exact ⟨l, h1, by rw [k1, hb], by rw [k2, k5.2 hb]⟩

/-- `permutation_score` raises `KeyError` exactly if an end of an arc is missing from the order; `is_topological` then does not answer
`True`. -/
theorem C231_missing (G : DAG α) (oa : SetOrder Unit (α × α)) (order : List α) :
    (permutationScore G oa order = none ↔ ∃ i j, G.E i j ∧ (i ∉ order ∨ j ∉ order)) ∧
      ((∃ i j, G.E i j ∧ (i ∉ order ∨ j ∉ order)) → isTopological G oa order ≠ some true) := by
  have h : (∃ a ∈ oa.ord () G.arcs, a.1 ∉ order ∨ a.2 ∉ order) ↔ ∃ i j, G.E i j ∧ (i ∉ order ∨ j ∉ order) :=
    ⟨fun ⟨a, ha, h⟩ => ⟨a.1, a.2, (oa.mem_iff _ _ _).1 ha, h⟩, fun ⟨i, j, hij, h⟩ => ⟨(i, j), (oa.mem_iff _ _ _).2 hij, h⟩⟩
  exact ⟨(score_missing 0).trans h, fun k => isTopological_go_missing (h.2 k)⟩

/-- Iterate over the arcs in increasing (`false`) or decreasing (`true`) order of their targets. -/
def arcOrder (down : Bool) : SetOrder Unit (Fin 4 × Fin 4) where
  ord _ s := let l := (List.finRange 4).flatMap fun j => (List.finRange 4).filterMap fun i => if (i, j) ∈ s then some (i, j) else none
    if down then l.reverse else l
  nodup _ s := by
    have : ((List.finRange 4).flatMap fun j => (List.finRange 4).filterMap fun i =>
        if (i, j) ∈ s then some (i, j) else none).Nodup := by
      refine List.nodup_flatMap.2 ⟨fun j _ => List.Nodup.filterMap ?_ (List.nodup_finRange 4), ?_⟩
      · intro a b c h1 h2
        simp only [Option.mem_def, Option.ite_none_right_eq_some, Option.some.injEq] at h1 h2
        exact (Prod.ext_iff.1 (h1.2.trans h2.2.symm)).1
      · refine (List.nodup_finRange 4).imp fun {j k} hjk => ?_
        rw [Function.onFun, List.disjoint_left]
        intro a h1 h2
        simp only [List.mem_filterMap, Option.ite_none_right_eq_some, Option.some.injEq] at h1 h2
        obtain ⟨_, _, _, rfl⟩ := h1
        obtain ⟨_, _, _, h⟩ := h2
        exact hjk (Prod.ext_iff.1 h).2.symm
    cases down
    · exact this
    · exact List.nodup_reverse.2 this
  mem_iff _ s x := by cases down <;> simp [Prod.ext_iff]

/-- Whether an order that lacks a node gets `KeyError` or `False` depends on the iteration order of the set of arcs. -/
theorem C231_order_dependent : ∃ (G : DAG (Fin 4)) (oa oa' : SetOrder Unit (Fin 4 × Fin 4)), G.Valid ∧
    isTopological G oa [1, 0] = none ∧ isTopological G oa' [1, 0] = some false :=
  ⟨Sample.graph {(0, 1), (2, 3)}, arcOrder true, arcOrder false, Sample.graph_valid (by decide), by decide, by decide⟩

example : isTopological Sample.chain (SetOrder.any _ _) [0, 1, 2] = some true ∧
    permutationScore Sample.chain (SetOrder.any _ _) [2, 1, 0] = some 2 := by
  have hm : ∀ i j : Fin 3, Sample.chain.E i j → i ∈ [0, 1, 2] ∧ j ∈ [0, 1, 2] := by decide
  have hm' : ∀ i j : Fin 3, Sample.chain.E i j → i ∈ [2, 1, 0] ∧ j ∈ [2, 1, 0] := by decide
  obtain ⟨b, n, h1, -, h2, -⟩ := C231_orders Sample.chain_valid (SetOrder.any _ _) (by decide) hm
  obtain ⟨b', n', -, h1', -, h2', -⟩ := C231_orders Sample.chain_valid (SetOrder.any _ _) (by decide) hm'
  refine ⟨by rw [h1, h2.2 (by decide)], ?_⟩
  rw [h1', h2']
  have : {a : Fin 3 × Fin 3 | Sample.chain.E a.1 a.2 ∧ List.Sublist [a.2, a.1] [2, 1, 0]} = ↑({(0, 1), (1, 2)} : Finset (Fin 3 × Fin 3)) := by
    ext a
    revert a
    simp only [Set.mem_ofPred_eq, Finset.mem_coe]
    decide
  rw [this, Set.ncard_coe_finset]
  rfl

/-- C232. `chickering_distance` counts every pair of nodes whose adjacency differs twice and every reversed arc once; it is a metric on
arc sets, lies between `shd` and twice `shd`, and equals `shd` exactly if the skeletons are equal. -/
theorem C232_chickering_distance (G H K : DAG α) (hG : G.Valid) (hH : H.Valid) (hK : K.Valid) :
    G.chickeringDistance H = 2 * (pairsOf fun i j => ¬ (Adj G.E i j ↔ Adj H.E i j)).ncard +
        {a : α × α | G.E a.1 a.2 ∧ H.E a.2 a.1}.ncard ∧
      G.chickeringDistance H = H.chickeringDistance G ∧ (G.chickeringDistance H = 0 ↔ G.arcs = H.arcs) ∧
      G.chickeringDistance K ≤ G.chickeringDistance H + H.chickeringDistance K ∧
      G.shd H ≤ G.chickeringDistance H ∧ G.chickeringDistance H ≤ 2 * G.shd H ∧
      (G.chickeringDistance H = G.shd H ↔ ∀ i j, Adj G.E i j ↔ Adj H.E i j) := by
  obtain ⟨a1, a2, a3, a4, a5, a6, a7, a8, a9⟩ := C27_shd G H K hG hH hK
  have e1 := chickeringDistance_eq hG hH
  have e2 := chickeringDistance_eq hH hG
  have e3 := chickeringDistance_eq hG hK
  have e4 := chickeringDistance_eq hH hK
  refine ⟨?_, by omega, ?_, by omega, by omega, by omega, ?_⟩
  · rw [← a5, chickeringDistance, add_comm]
    congr 1
    rw [← Set.ncard_coe_finset]
    congr 1
    ext ⟨i, j⟩
    simp [E]
  · rw [← a3]; omega
  · rw [← a7]; omega

example : Sample.right.chickeringDistance Sample.left = Sample.right.shd Sample.left ∧ Sample.right.chickeringDistance Sample.left ≠ 0 := by
  obtain ⟨_, _, h, _, _, _, h'⟩ := C232_chickering_distance Sample.right Sample.left Sample.left Sample.right_valid Sample.left_valid
    Sample.left_valid
  refine ⟨h'.2 ?_, fun h0 => absurd (h.1 h0) (by decide)⟩
  unfold Adj; decide

end Props
