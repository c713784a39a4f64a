import Verif.Proof.AGKeys
import Verif.Spec.AGRemoved
import Verif.Props.Sample

/-! # `AncestralGraph.remove_node` (C253) -/

namespace Props

open Model

universe u
variable {α : Type u} [DecidableEq α]

private theorem removed {K : AKeyed α} (h : K.Reachable) (ig : Bool) (o : SetOrder (Fin 4) α) (v : α) :
    AG.Removed K.ag (K.removeNode ig o v).1.ag v := by
  obtain ⟨h1, h2, h3, h4, h5, -⟩ := AG.removeNode_spec h.spec.1.good ig (decide (v ∈ (AKeyed.loops o v K).1.keys)) o v
  have hb := congrArg Prod.fst (AKeyed.base_removeNode ig o K v)
  simp only [AKeyed.base] at hb
  unfold AG.Removed
  rw [hb]
  exact ⟨h1.1, h2, h3, h4, h5⟩

private theorem ord_none {κ β : Type*} (o : SetOrder κ β) (k : κ) : o.ord k ∅ = [] :=
  List.eq_nil_iff_forall_not_mem.2 fun x hx => Finset.notMem_empty x ((o.mem_iff k ∅ x).1 hx)

private theorem isolated_loops {K : AKeyed α} (o : SetOrder (Fin 4) α) {v : α} (h1 : K.ag.parents v = ∅) (h2 : K.ag.children v = ∅)
    (h3 : K.ag.spouses v = ∅) (h4 : K.ag.neighbors v = ∅) : (AKeyed.loops o v K).1.keys = K.keys := by
  simp [AKeyed.loops, h1, h2, h3, h4, ord_none, AKeyed.forEach, AKeyed.andThen]

private theorem isolated_iff {A : AG α} (h : A.Consistent) (v : α) :
    (A.parents v = ∅ ∧ A.children v = ∅ ∧ A.spouses v = ∅ ∧ A.neighbors v = ∅) ↔ ¬ (A.adjacent v).Nonempty := by
  simp only [Finset.eq_empty_iff_forall_notMem, Finset.Nonempty, not_exists, h.adjacent_iff, h.parents_iff, h.children_iff,
    h.spouses_iff, h.neighbors_iff, not_or]
  exact ⟨fun ⟨a, b, c, d⟩ x => ⟨a x, b x, c x, d x⟩, fun hx => ⟨fun x => (hx x).1, fun x => (hx x).2.1, fun x => (hx x).2.2.1,
    fun x => (hx x).2.2.2⟩⟩

/-- C253, what holds: in every state an `AncestralGraph` object can reach, whatever queries and calls came before, `remove_node(v)` removes
`v` with its edges and nothing else; it does not raise if `v` has an edge. A node without edges is removed without an exception if and only
if earlier calls have left `v` as a key of `_adjacent` or errors are ignored; anything that is not a node raises `KeyError`. -/
theorem C253_remove_node_partial (K : AKeyed α) (h : K.Reachable) (ig : Bool) (o : SetOrder (Fin 4) α) (v : α) :
    (v ∈ K.ag.nodes → AG.Removed K.ag (K.removeNode ig o v).1.ag v) ∧
    (v ∉ K.ag.nodes → (K.removeNode ig o v).1 = K ∧ (K.removeNode ig o v).2 = if ig then none else some .key) ∧
    (v ∈ K.ag.nodes → (K.ag.parents v ∪ K.ag.children v ∪ K.ag.spouses v ∪ K.ag.neighbors v).Nonempty →
      (K.removeNode ig o v).2 = none) ∧
    (v ∈ K.ag.nodes → K.ag.parents v ∪ K.ag.children v ∪ K.ag.spouses v ∪ K.ag.neighbors v = ∅ →
      (K.removeNode ig o v).2 = if v ∈ K.keys ∨ ig = true then none else some .key) := by
  have hc := h.spec.1.good.1
  refine ⟨fun _ => removed h ig o v, fun hv => ?_, fun hv hne => ?_, fun hv he => ?_⟩
  · rw [AKeyed.removeNode_eq, if_neg hv]
    cases ig <;> exact ⟨rfl, rfl⟩
  · have ha : (K.ag.adjacent v).Nonempty := by
      by_contra hcon
      obtain ⟨a, b, c, d⟩ := (isolated_iff hc v).2 hcon
      rw [a, b, c, d] at hne
      simp at hne
    rw [AKeyed.removeNode_exn h, if_pos (Or.inl ⟨hv, AKeyed.grows_loops o v K (h.spec.2 v ha)⟩)]
  · simp only [Finset.union_eq_empty] at he
    obtain ⟨⟨⟨a, b⟩, c⟩, d⟩ := he
    rw [AKeyed.removeNode_exn h, isolated_loops o a b c d]
    simp [hv]

/-- C253, new objects: on a graph just built by the constructor (or by `copy`), `remove_node(v)` of a node raises `KeyError` exactly if `v` has
no edges. -/
theorem C253_new_partial (on : SetOrder (Fin 3) (α × α)) (nodes : Finset α) (d b u : Finset (α × α)) (K : AKeyed α)
    (hne : ∀ e ∈ d ∪ b ∪ u, e.1 ≠ e.2) (hK : AKeyed.new on nodes d b u = (K, none)) (o : SetOrder (Fin 4) α) (v : α)
    (hv : v ∈ K.ag.nodes) :
    (K.removeNode false o v).2 = some .key ↔ K.ag.parents v ∪ K.ag.children v ∪ K.ag.spouses v ∪ K.ag.neighbors v = ∅ := by
  have hr : K.Reachable := .new on nodes d b u K hne hK
  obtain ⟨-, -, h3, h4⟩ := C253_remove_node_partial K hr false o v
  have ht := AKeyed.tight_new on nodes d b u
  rw [hK] at ht
  constructor
  · intro h
    by_contra hcon
    rw [h3 hv (Finset.nonempty_iff_ne_empty.2 hcon)] at h
    cases h
  · intro he
    have hk : v ∉ K.keys := by
      intro hk
      have h1 := (ht v).1 hk
      simp only [Finset.union_eq_empty] at he
      exact (isolated_iff hr.spec.1.good.1 v).1 ⟨he.1.1.1, he.1.1.2, he.1.2, he.2⟩ h1
    rw [h4 hv he]
    simp [hk]

private theorem ord_single {κ β : Type*} (o : SetOrder κ β) (k : κ) (a : β) : o.ord k {a} = [a] := by
  refine List.perm_singleton.1 ((List.perm_ext_iff_of_nodup (o.nodup k _) (List.nodup_singleton a)).2 fun x => ?_)
  rw [o.mem_iff]
  simp

/-- `AncestralGraph(nodes={0, 1, 2}, directed={(0, 1)})` -/
def agKeysSample : AKeyed (Fin 3) :=
  (AKeyed.addDirectedRaw ⟨AG.empty {0, 1, 2}, ∅⟩ 0 1).1

private theorem agKeysSample_new (on : SetOrder (Fin 3) (Fin 3 × Fin 3)) : AKeyed.new on {0, 1, 2} {(0, 1)} ∅ ∅ = (agKeysSample, none) := by
  simp [AKeyed.new, ord_single, ord_none, AKeyed.forEach, AKeyed.andThen, agKeysSample, AKeyed.addDirectedRaw, AG.addDirectedRaw, AG.empty]

private theorem agKeysSample_reachable : agKeysSample.Reachable := .new Sample.order _ _ _ _ _ (by decide) (agKeysSample_new _)

example : (0 : Fin 3) ∈ agKeysSample.ag.nodes ∧
    (agKeysSample.ag.parents 0 ∪ agKeysSample.ag.children 0 ∪ agKeysSample.ag.spouses 0 ∪ agKeysSample.ag.neighbors 0).Nonempty := by decide

/-- C253 violated: on `AncestralGraph(nodes={0, 1, 2}, directed={(0, 1)})`, `remove_node(2)` raises `KeyError` after it has removed the node;
after `remove_directed(0, 1)` node `0` is isolated too, but its removal does not raise. -/
theorem C253_violated (on : SetOrder (Fin 3) (Fin 3 × Fin 3)) (o : SetOrder (Fin 4) (Fin 3)) :
    ∃ K : AKeyed (Fin 3), AKeyed.new on {0, 1, 2} {(0, 1)} ∅ ∅ = (K, none) ∧ 2 ∈ K.ag.nodes ∧
      (K.removeNode false o 2).2 = some .key ∧ 2 ∉ (K.removeNode false o 2).1.ag.nodes ∧
      (K.removeDirected false 0 1).2 = none ∧ ((K.removeDirected false 0 1).1.removeNode false o 0).2 = none := by
  have hn := agKeysSample_new on
  have h2 : (2 : Fin 3) ∈ agKeysSample.ag.nodes := by decide
  have hr : (agKeysSample.removeDirected false 0 1).1.Reachable :=
    .call agKeysSample Sample.order Sample.order o (.removeDirected false 0 1) _ _ agKeysSample_reachable trivial rfl
  refine ⟨agKeysSample, hn, h2, (C253_new_partial on _ _ _ _ agKeysSample (by decide) hn o 2 h2).2 (by decide), ?_, by decide, ?_⟩
  · rw [((C253_remove_node_partial agKeysSample agKeysSample_reachable false o 2).1 h2).2.1]
    exact Finset.notMem_erase _ _
  · rw [(C253_remove_node_partial _ hr false o 0).2.2.2 (by decide) (by decide)]
    decide

end Props
