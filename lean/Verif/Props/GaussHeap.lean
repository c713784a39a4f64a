import Verif.Proof.GaussHeap
import Verif.Proof.GaussSet
import Verif.Proof.Queries
import Verif.Props.Sample

/-! # C250, C251: `GaussDAG` objects and their node lists; `to_dag` -/

namespace Props

open Model Model.Gauss Spec

variable {K : Type} [Field K] [DecidableEq K]

/-! ## C250 -/

/-- C250 as far as it holds. If the caller gives every node list to at most one constructor and leaves it alone afterwards, then after any
sequence of constructions and of calls of `add_node`, `remove_node` and `to_dag` every `GaussDAG` is in the state it would be in as a value
of its own, and every call returns or raises the same. Missing from C250: lists used for several graphs or used by the caller afterwards,
for which the statement is false (`C250_violated`). -/
theorem C250_partial (l : List (GOrders × GAct K)) (hl : HandsOff 0 ∅ l) :
    (Mem.run l ⟨fun _ => [], 0, []⟩).1.objs.map (Mem.run l ⟨fun _ => [], 0, []⟩).1.view = (Vals.run l ⟨fun _ => [], 0, []⟩).1.objs ∧
      (Mem.run l ⟨fun _ => [], 0, []⟩).2 = (Vals.run l ⟨fun _ => [], 0, []⟩).2 :=
  run_shows l ⟨rfl, fun _ _ => rfl, rfl, by simp, by simp, by simp⟩ hl

/-- Two graphs with lists of their own. -/
example (w : GOrders) : HandsOff 0 ∅
    [(w, .list [0, 1]), (w, .list [0, 1]), (w, .new 0 [] 0 1), (w, .new 1 [((0, 1), (1 : ℚ))] 0 1), (w, .addNode 0 5), (w, .toDag 1)] := by
  simp [HandsOff]

/-- C250 fails for a shared node list. Two graphs are made from the caller's list `[0, 1]`, and a node 5 is added to the first. The caller's
list then is `[0, 1, 5]`, and `to_dag()` of the second graph has the node 5; as values they would be unchanged. -/
theorem C250_violated (w : GOrders) :
    (Mem.run [(w, .list [0, 1]), (w, .new 0 [] 0 1), (w, .new 0 [] 0 1), (w, .addNode 0 5), (w, .look 0), (w, .toDag 1)]
      (⟨fun _ => [], 0, []⟩ : Mem ℚ)).2 =
      [.list [0, 1], .done, .done, .done, .list [0, 1, 5], .dag (some (DAG.empty {0, 1, 5}, none))] ∧
    (Vals.run [(w, .list [0, 1]), (w, .new 0 [] 0 1), (w, .new 0 [] 0 1), (w, .addNode 0 5), (w, .look 0), (w, .toDag 1)]
      (⟨fun _ => [], 0, []⟩ : Vals ℚ)).2 =
      [.list [0, 1], .done, .done, .done, .list [0, 1], .dag (some (DAG.empty {0, 1}, none))] := by
  constructor
  · simp [Mem.run, Mem.exec, Raw.new, Gauss.new, setArcWeights, putWeights, toRaw, Mem.store, Mem.view, Raw.addNode, Raw.toDag, DAG.new,
      DAG.addArcsFrom, DAG.empty]
  · simp [Vals.run, Vals.exec, Raw.new, Gauss.new, setArcWeights, putWeights, toRaw, Raw.toDag, DAG.new, DAG.addArcsFrom, DAG.empty,
      Raw.addNode]
    rfl

/-! ## C251 -/

/-- C251. For a `GaussDAG` made from distinct nodes and a dictionary of weights between them, `to_dag()` returns a valid `DAG` with these nodes
and exactly the arcs of nonzero weight, if these form no cycle. Otherwise, as the constructor of `GaussDAG` does not look for cycles,
it is `to_dag()` that raises. -/
theorem C251_to_dag {n : ℕ} (oa : SetOrder Bool (ℕ × ℕ)) {names : Fin n → ℕ} (hi : Function.Injective names) {arcs : List ((ℕ × ℕ) × K)}
    (hk : ∀ e ∈ arcs, (∃ a, names a = e.1.1) ∧ ∃ b, names b = e.1.2) (hn : (arcs.map Prod.fst).Nodup) (biases variances : Fin n → K) :
    ∃ G : Gauss n K, Gauss.new oa names arcs biases variances = (G, none) ∧
      ∀ (o : SetOrder (Option ℕ) ℕ) (oa' : SetOrder Bool (ℕ × ℕ)),
        (Acyclic (fun i j => ∃ w ≠ 0, ((i, j), w) ∈ arcs) → ∃ D, G.toRaw.toDag o oa' = some (D, none) ∧ D.Valid ∧
          (∀ v, v ∈ D.nodes ↔ ∃ a, names a = v) ∧ ∀ i j, (i, j) ∈ D.arcs ↔ ∃ w ≠ 0, ((i, j), w) ∈ arcs) ∧
        (¬ Acyclic (fun i j => ∃ w ≠ 0, ((i, j), w) ∈ arcs) → ∃ D e, G.toRaw.toDag o oa' = some (D, some e)) := by
  obtain ⟨G, h1, h2, h3, -, -, -, -, h8, h9⟩ := Gauss.new_spec oa hi hk hn biases variances
  refine ⟨G, h1, fun o oa' => ?_⟩
  have harcs : ∀ i j, (i, j) ∈ G.dag.arcs ↔ ∃ w ≠ 0, ((i, j), w) ∈ arcs := by
    intro i j
    constructor
    · intro hij
      obtain ⟨a, ha⟩ := (h2.range i).1 (h2.views.fst_mem _ _ hij)
      obtain ⟨b, hb⟩ := (h2.range j).1 (h2.views.snd_mem _ _ hij)
      subst ha; subst hb
      have hw := (h2.arcs_iff a b).1 hij
      by_contra hcon
      push Not at hcon
      apply hw
      by_cases hex : ∃ v, ((names a, names b), v) ∈ arcs
      · obtain ⟨v, hv⟩ := hex
        rw [h8 a b v hv]
        by_contra hv0
        exact hcon v hv0 (h3 ▸ hv)
      · exact h9 a b fun v hv => hex ⟨v, hv⟩
    · rintro ⟨w, hw, hm⟩
      obtain ⟨⟨a, ha⟩, b, hb⟩ := hk _ hm
      dsimp only at ha hb
      subst ha; subst hb
      have := (h2.arcs_iff a b).2 (by rw [h8 a b w hm]; exact hw)
      rwa [h3] at this
  have hE : (fun a b => (a, b) ∈ G.dag.arcs) = fun i j => ∃ w ≠ 0, ((i, j), w) ∈ arcs := by
    funext i j; exact propext (harcs i j)
  constructor
  · intro hac
    rw [← hE] at hac
    obtain ⟨D, d1, d2, d3, d4⟩ := DAG.new_ok o oa' G.toRaw.names.toFinset G.dag.arcs hac
    refine ⟨D, d1, d2, fun v => ?_, fun i j => by rw [d3]; exact harcs i j⟩
    have hr := h2.range
    rw [h3] at hr
    rw [d4]
    simp only [toRaw, Finset.mem_union, List.mem_toFinset, List.mem_ofFn, Finset.mem_image, Prod.exists, exists_and_right, exists_eq_right, h3]
    constructor
    · rintro ((h | ⟨b, hb⟩) | ⟨a, ha⟩)
      · simpa [Set.mem_range] using h
      · exact (hr v).1 (h2.views.fst_mem _ _ hb)
      · exact (hr v).1 (h2.views.snd_mem _ _ ha)
    · intro h
      exact .inl (.inl (by simpa [Set.mem_range] using h))
  · intro hac
    rw [← hE] at hac
    exact DAG.new_error o oa' G.toRaw.names.toFinset G.dag.arcs hac

/-- A path `7 → 3 → 5` and an explicit zero. -/
example : Function.Injective ![7, 3, 5] ∧
    (∀ e ∈ ([((7, 3), 2), ((3, 5), 1), ((5, 7), 0)] : List ((ℕ × ℕ) × ℚ)), (∃ a, ![7, 3, 5] a = e.1.1) ∧ ∃ b, ![7, 3, 5] b = e.1.2) ∧
    (([((7, 3), 2), ((3, 5), 1), ((5, 7), 0)] : List ((ℕ × ℕ) × ℚ)).map Prod.fst).Nodup := by
  refine ⟨by decide, ?_, by decide⟩
  intro e he
  simp only [List.mem_cons, List.not_mem_nil, or_false] at he
  rcases he with rfl | rfl | rfl
  · exact ⟨⟨0, rfl⟩, 1, rfl⟩
  · exact ⟨⟨1, rfl⟩, 2, rfl⟩
  · exact ⟨⟨2, rfl⟩, 0, rfl⟩

omit [DecidableEq K] in
/-- C251. After `add_node`, `to_dag()` has the new node, although `nodes` does not (C189). -/
theorem C251_added (o : SetOrder (Option ℕ) ℕ) (oa : SetOrder Bool (ℕ × ℕ)) (G : Raw K) (v : ℕ) (h : Acyclic fun a b => (a, b) ∈ G.dag.arcs) :
    ∃ D, (G.addNode v).toDag o oa = some (D, none) ∧ v ∈ D.nodes ∧ D.arcs = G.dag.arcs ∧ (G.addNode v).dag.nodes = G.dag.nodes := by
  obtain ⟨D, d1, -, d3, d4⟩ := DAG.new_ok o oa (G.addNode v).names.toFinset G.dag.arcs h
  exact ⟨D, d1, by rw [d4]; simp [Raw.addNode], d3, rfl⟩

end Props
