import Verif.Proof.DAGKeys
import Verif.Props.Mutators

/-! # C248: the dictionaries `parents`, `children` and `neighbors` and their keys -/

namespace Props

open Model Model.Keyed Spec Relation
universe u
variable {α : Type u} [DecidableEq α]

theorem ask_dag {o : SetOrder (α × Finset α) α} {vis : Finset α} {K K' : Keyed α} {q : Query α} (h : ask o vis K q = some K') :
    K'.dag = K.dag ∧ K.pk ⊆ K'.pk ∧ K.ck ⊆ K'.ck ∧ K.nk ⊆ K'.nk := by
  have t : ∀ (s t : Finset α) (v : α), s ⊆ insert v s ∪ t := fun s t v => (Finset.subset_insert _ _).trans Finset.subset_union_left
  cases q <;> simp only [ask, Option.some.injEq, Option.map_eq_some_iff] at h
  · subst h; exact ⟨rfl, Finset.subset_union_left, le_rfl, le_rfl⟩
  · subst h; exact ⟨rfl, le_rfl, Finset.subset_union_left, le_rfl⟩
  · subst h; exact ⟨rfl, le_rfl, le_rfl, Finset.subset_union_left⟩
  · subst h; exact ⟨rfl, t _ _ _, Finset.subset_insert _ _, le_rfl⟩
  · obtain ⟨a, -, rfl⟩ := h; exact ⟨rfl, t _ _ _, le_rfl, le_rfl⟩
  · obtain ⟨a, -, rfl⟩ := h; exact ⟨rfl, le_rfl, t _ _ _, le_rfl⟩
  · subst h; exact ⟨rfl, (Finset.subset_insert _ _).trans (Finset.subset_insert _ _), le_rfl, le_rfl⟩
  · subst h; exact ⟨rfl, le_rfl, Finset.subset_union_left, le_rfl⟩

theorem reachable_dag {okq : DAG α → Query α → Prop} {K : Keyed α} (hK : Keyed.Reachable NoTwoCycle okq K) :
    DAG.Reachable NoTwoCycle K.dag ∧ Fresh K := by
  induction hK with
  | new w vis nodes arcs K h =>
    have h0 : Fresh (⟨DAG.empty nodes, ∅, ∅, ∅⟩ : Keyed α) := ⟨fun _ _ => rfl, fun _ _ => rfl, fun _ _ => rfl⟩
    exact ⟨.new w nodes arcs K.dag ((sim_addArcsFrom true w.top w.arcs vis ⟨DAG.empty nodes, ∅, ∅, ∅⟩ arcs).some h), h0.addArcsFrom h⟩
  | call K w vis op K' e _ hok hex ih =>
    exact ⟨.call K.dag w op K'.dag e ih.1 hok ((sim_exec w vis K op).some hex), ih.2.exec hex⟩
  | query K o vis q K' _ _ hq ih =>
    obtain ⟨h1, h2, h3, h4⟩ := ask_dag hq
    refine ⟨h1 ▸ ih.1, ?_⟩
    refine ⟨fun v hv => ?_, fun v hv => ?_, fun v hv => ?_⟩ <;> rw [h1]
    · exact ih.2.p v fun h => hv (h2 h)
    · exact ih.2.c v fun h => hv (h3 h)
    · exact ih.2.n v fun h => hv (h4 h)

theorem view_of_fresh {d : α → Finset α} {keys nodes : Finset α} (h : ∀ v ∉ keys, d v = ∅) (v : α) :
    view d keys nodes v = if v ∈ keys ∪ nodes then some (d v) else none := by
  unfold view
  by_cases h1 : v ∈ keys
  · simp [h1]
  · by_cases h2 : v ∈ nodes <;> simp [h1, h2, h v h1]

/-- C248, what holds for all queries. After the constructor, any mutator calls that never put a 2-cycle or self loop into the graph and any
queries, every node is a key of the three dictionaries, the sets shown are those given by the arcs (so a key that is no node has the empty
set), and a query changes neither the nodes nor the arcs nor what the dictionaries say about a node. -/
theorem C248_values (okq : DAG α → Query α → Prop) (K : Keyed α) (hK : Keyed.Reachable NoTwoCycle okq K) :
    (∀ v ∈ K.dag.nodes, (K.parents v).isSome ∧ (K.children v).isSome ∧ (K.neighbors v).isSome) ∧
    (∀ v s, K.parents v = some s → ∀ u, u ∈ s ↔ (u, v) ∈ K.dag.arcs) ∧
    (∀ v s, K.children v = some s → ∀ u, u ∈ s ↔ (v, u) ∈ K.dag.arcs) ∧
    (∀ v s, K.neighbors v = some s → ∀ u, u ∈ s ↔ (u, v) ∈ K.dag.arcs ∨ (v, u) ∈ K.dag.arcs) ∧
    (∀ o vis q K', ask o vis K q = some K' → K'.dag.nodes = K.dag.nodes ∧ K'.dag.arcs = K.dag.arcs ∧
      ∀ v ∈ K.dag.nodes, K'.parents v = K.parents v ∧ K'.children v = K.children v ∧ K'.neighbors v = K.neighbors v) := by
  obtain ⟨hr, hf⟩ := reachable_dag hK
  have hc := C04_views_partial K.dag hr
  have ep : K.parents = fun v => if v ∈ K.pk ∪ K.dag.nodes then some (K.dag.parents v) else none := funext (view_of_fresh hf.p)
  have ec : K.children = fun v => if v ∈ K.ck ∪ K.dag.nodes then some (K.dag.children v) else none := funext (view_of_fresh hf.c)
  have en : K.neighbors = fun v => if v ∈ K.nk ∪ K.dag.nodes then some (K.dag.neighbors v) else none := funext (view_of_fresh hf.n)
  refine ⟨fun v hv => ?_, fun v s h u => ?_, fun v s h u => ?_, fun v s h u => ?_, fun o vis q K' h => ?_⟩
  · rw [ep, ec, en]; simp [hv]
  · rw [ep] at h; dsimp only at h; split_ifs at h; cases h; exact hc.parents_iff u v
  · rw [ec] at h; dsimp only at h; split_ifs at h; cases h; exact hc.children_iff v u
  · rw [en] at h; dsimp only at h; split_ifs at h; cases h; exact hc.neighbors_iff u v
  · obtain ⟨h1, h2, h3, h4⟩ := ask_dag h
    have hp' : ∀ v ∉ K'.pk, K'.dag.parents v = ∅ := fun v hv => by rw [h1]; exact hf.p v fun h => hv (h2 h)
    have hc' : ∀ v ∉ K'.ck, K'.dag.children v = ∅ := fun v hv => by rw [h1]; exact hf.c v fun h => hv (h3 h)
    have hn' : ∀ v ∉ K'.nk, K'.dag.neighbors v = ∅ := fun v hv => by rw [h1]; exact hf.n v fun h => hv (h4 h)
    refine ⟨by rw [h1], by rw [h1], fun v hv => ?_⟩
    rw [ep, ec, en]
    have e1 := view_of_fresh (nodes := K'.dag.nodes) hp' v
    have e2 := view_of_fresh (nodes := K'.dag.nodes) hc' v
    have e3 := view_of_fresh (nodes := K'.dag.nodes) hn' v
    unfold Keyed.parents Keyed.children Keyed.neighbors
    rw [e1, e2, e3, h1]
    simp [hv]

/-- C248, part: if moreover all queries are about nodes of the graph, the keys are exactly the nodes. Missing from C248: queries about
other objects (`C248_violated`) and histories that request an arc opposite to a present one or a self loop (`C248_violated_removal`). -/
theorem C248_keys_partial (K : Keyed α) (hK : Keyed.Reachable NoTwoCycle (fun G q => q.about ⊆ G.nodes) K) (v : α) :
    ((K.parents v).isSome ↔ v ∈ K.dag.nodes) ∧ ((K.children v).isSome ↔ v ∈ K.dag.nodes) ∧
      ((K.neighbors v).isSome ↔ v ∈ K.dag.nodes) := by
  have hb : Bound K := by
    induction hK with
    | new w vis nodes arcs K h =>
      refine Bound.addArcsFrom (K := ⟨DAG.empty nodes, ∅, ∅, ∅⟩) ⟨?_, ?_, ?_⟩ ?_ h
      · exact Finset.empty_subset _
      · exact Finset.empty_subset _
      · exact Finset.empty_subset _
      · intro i j hij; exact absurd hij (by simp [DAG.empty])
    | call K w vis op K' e hK hok hex ih =>
      obtain ⟨hc, ha⟩ := reachable_consistent_asym (reachable_dag hK).1
      exact ih.exec hc ha hex
    | query K o vis q K' hK hok hq ih =>
      have hc := C04_views_partial K.dag (reachable_dag hK).1
      have hend : ∀ a b, Path K.dag.E a b → a ∈ K.dag.nodes ∧ b ∈ K.dag.nodes := by
        intro a b hab
        induction hab with
        | single h => exact ⟨hc.fst_mem _ _ h, hc.snd_mem _ _ h⟩
        | tail _ h ih => exact ⟨ih.1, hc.snd_mem _ _ h⟩
      have ins : ∀ (s : Finset α) (w : α), w ∈ K.dag.nodes → s ⊆ K.dag.nodes → insert w s ⊆ K.dag.nodes :=
        fun s w hw hs => Finset.insert_subset hw hs
      cases q <;> simp only [ask, Option.some.injEq, Option.map_eq_some_iff, Query.about, Finset.singleton_subset_iff,
        Finset.insert_subset_iff] at hq hok
      · subst hq; exact ⟨Finset.union_subset ih.p hok, ih.c, ih.n⟩
      · subst hq; exact ⟨ih.p, Finset.union_subset ih.c hok, ih.n⟩
      · subst hq; exact ⟨ih.p, ih.c, Finset.union_subset ih.n hok⟩
      · subst hq
        refine ⟨Finset.union_subset (ins _ _ hok ih.p) fun c hcv => ?_, ins _ _ hok ih.c, ih.n⟩
        exact hc.snd_mem _ _ ((hc.children_iff _ _).1 hcv)
      · obtain ⟨a, ha, rfl⟩ := hq
        obtain ⟨s, hs, hs'⟩ := DAG.ancestorsOf_spec hc o _
        rw [hs] at ha; cases ha
        exact ⟨Finset.union_subset (ins _ _ hok ih.p) fun x hx => (hend _ _ ((hs' x).1 hx)).1, ih.c, ih.n⟩
      · obtain ⟨a, ha, rfl⟩ := hq
        obtain ⟨s, hs, hs'⟩ := DAG.descendantsOf_spec hc o _
        rw [hs] at ha; cases ha
        exact ⟨ih.p, Finset.union_subset (ins _ _ hok ih.c) fun x hx => (hend _ _ ((hs' x).1 hx)).2, ih.n⟩
      · subst hq; exact ⟨ins _ _ hok.2 (ins _ _ hok.1 ih.p), ih.c, ih.n⟩
      · subst hq; exact ih.touchSort vis
  have hf := (reachable_dag hK).2
  have key : ∀ (d : α → Finset α) (keys : Finset α), (∀ v ∉ keys, d v = ∅) → keys ⊆ K.dag.nodes →
      ((view d keys K.dag.nodes v).isSome ↔ v ∈ K.dag.nodes) := by
    intro d keys h hk
    rw [view_of_fresh h, Finset.union_eq_right.2 hk]
    by_cases hv : v ∈ K.dag.nodes <;> simp [hv]
  exact ⟨key _ _ hf.p hb.p, key _ _ hf.c hb.c, key _ _ hf.n hb.n⟩

/-- A history that meets the hypotheses: `DAG(nodes={0})`, then `add_arc(0, 1)` and `parents_of(1)`. -/
example : ∃ K : Keyed ℕ, Keyed.Reachable NoTwoCycle (fun G q => q.about ⊆ G.nodes) K ∧ K.parents 1 = some {0} ∧ K.parents 2 = none := by
  let w : DAG.Orders ℕ := ⟨Sample.order, Sample.order, Sample.order⟩
  let K0 : Keyed ℕ := ⟨DAG.empty {0}, ∅, ∅, ∅⟩
  have h0 : Keyed.Reachable NoTwoCycle (fun G q => q.about ⊆ G.nodes) K0 := .new w ∅ {0} ∅ K0 rfl
  let K1 : Keyed ℕ := { touchArc K0 0 1 with dag := DAG.addArcUnchecked K0.dag 0 1 }
  have h1 : Keyed.Reachable NoTwoCycle (fun G q => q.about ⊆ G.nodes) K1 :=
    .call K0 w ∅ (.addArc false 0 1) K1 none h0 (show 0 ≠ 1 ∧ (1, 0) ∉ (∅ : Finset (ℕ × ℕ)) by decide) rfl
  refine ⟨_, .query K1 Sample.order ∅ (.parentsOf {1}) _ h1 (by decide) rfl, by decide, by decide⟩

/-- C248 is violated: `DAG(nodes={0})` does not show the key 1, but after `parents_of(1)`, which raises nothing, it does, although 1 is no
node. -/
theorem C248_violated : ∃ K K' : Keyed ℕ, Keyed.Reachable (fun _ _ => True) (fun _ _ => True) K ∧
    ask Sample.order ∅ K (.parentsOf {1}) = some K' ∧ K.parents 1 = none ∧ K'.parents 1 = some ∅ ∧ 1 ∉ K'.dag.nodes := by
  let w : DAG.Orders ℕ := ⟨Sample.order, Sample.order, Sample.order⟩
  let K0 : Keyed ℕ := ⟨DAG.empty {0}, ∅, ∅, ∅⟩
  exact ⟨K0, _, .new w ∅ {0} ∅ K0 rfl, rfl, by decide, by decide, by decide⟩

theorem removeNode_raise {K : Keyed α} {v c : α} (hn : v ∈ K.dag.nodes) (hp : K.dag.parents v = ∅) (hch : K.dag.children v = {c}) {x : Exn α}
    (hx : (andThen (delParent c v { K with dag := { K.dag with nodes := K.dag.nodes.erase v }, pk := insert v K.pk, ck := insert v K.ck })
      (delNbr c v)).2 = some x) :
    (removeNode false Sample.order K v).1 = (andThen (delParent c v
      { K with dag := { K.dag with nodes := K.dag.nodes.erase v }, pk := insert v K.pk, ck := insert v K.ck }) (delNbr c v)).1 := by
  have e1 : (Sample.order : SetOrder Bool α).ord false ∅ = [] := Finset.toList_empty
  have e2 : (Sample.order : SetOrder Bool α).ord true {c} = [c] := Finset.toList_singleton c
  unfold removeNode
  simp only [if_pos hn, hp, e1, Keyed.forEach, Keyed.andThen, hch, e2, if_false, Bool.false_eq_true]
  generalize delParent c v _ = r at hx ⊢
  obtain ⟨K1, e⟩ := r
  cases e with
  | some e => rfl
  | none =>
    simp only [Keyed.andThen] at hx ⊢
    generalize delNbr c v K1 = r at hx ⊢
    obtain ⟨K2, e⟩ := r
    cases e with
    | some e => rfl
    | none => exact absurd hx (by simp)

/-- C248 is also violated without queries: `DAG()`, `add_arc(1, 2, check_acyclic=False)`, then the rejected `add_arc(2, 1)` and
`remove_node(1)`. The last call raises `KeyError` halfway: 1 is no node any more, but `children` still shows it with the child 2, and the
arc `(1, 2)` is still there. -/
theorem C248_violated_removal : ∃ K : Keyed ℕ, Keyed.Reachable (fun _ _ => True) (fun _ _ => False) K ∧
    1 ∉ K.dag.nodes ∧ K.children 1 = some {2} ∧ (1, 2) ∈ K.dag.arcs := by
  let w : DAG.Orders ℕ := ⟨Sample.order, Sample.order, Sample.order⟩
  let K0 : Keyed ℕ := ⟨DAG.empty ∅, ∅, ∅, ∅⟩
  have h0 : Keyed.Reachable (fun _ _ => True) (fun _ _ => False) K0 := .new w ∅ ∅ ∅ K0 rfl
  let K1 : Keyed ℕ := { touchArc K0 1 2 with dag := DAG.addArcUnchecked K0.dag 1 2 }
  have h1 : Keyed.Reachable (fun _ _ => True) (fun _ _ => False) K1 :=
    .call K0 w ∅ (.addArc false 1 2) K1 none h0 trivial rfl
  let K2 : Keyed ℕ := { touchArc K1 2 1 with dag := DAG.addArcUnchecked K1.dag 2 1 }
  have hc2 : K2.dag.Consistent := DAG.addArcUnchecked_consistent (DAG.addArcUnchecked_consistent
    ⟨by simp [K0, DAG.empty], by simp [K0, DAG.empty], by simp [K0, DAG.empty], by simp [K0, DAG.empty], by simp [K0, DAG.empty]⟩ 1 2) 2 1
  have hcyc : ¬ Acyclic K2.dag.E := by
    intro hac
    have e1 : K2.dag.E 1 2 := by decide
    have e2 : K2.dag.E 2 1 := by decide
    exact hac 1 ((TransGen.single e1).tail e2)
  obtain ⟨l, hl, -⟩ := DAG.topologicalSort_error K2.dag w.top hc2 hcyc
  let K3 : Keyed ℕ := (removeArc false (touchSort ∅ K2) 2 1).1
  have h3 : Keyed.Reachable (fun _ _ => True) (fun _ _ => False) K3 := by
    refine .call K1 w ∅ (.addArc true 2 1) K3 (some (.cycle l)) h1 trivial ?_
    show addArc true w.top ∅ K1 2 1 = _
    unfold addArc
    simp only [if_true]
    rw [show (DAG.topologicalSort (DAG.addArcUnchecked K1.dag 2 1) w.top).run = _ from hl]
    rfl
  refine ⟨(removeNode false w.nbrs K3 1).1, .call K3 w ∅ (.removeNode false 1) _ _ h3 trivial rfl, ?_⟩
  have hp : K3.dag.parents 1 = ∅ := by decide
  have hch : K3.dag.children 1 = {2} := by decide
  have hn : 1 ∈ K3.dag.nodes := by decide
  have hraise : (andThen (delParent 2 1
      { K3 with dag := { K3.dag with nodes := K3.dag.nodes.erase 1 }, pk := insert 1 K3.pk, ck := insert 1 K3.ck })
      (delNbr 2 1)).2 = some .key := by decide
  rw [removeNode_raise hn hp hch hraise]
  exact ⟨by decide, by decide, by decide⟩

end Props
