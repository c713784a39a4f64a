import Verif.Proof.Cyclic
import Verif.Props.AGMarks
import Verif.Props.MSep
import Verif.Props.AGQueries
import Verif.Props.Maximal

/-! # C196 to C204: the class of `cyclic_graph.py` -/

namespace Props

open Model Relation Spec

universe u
variable {α : Type u} [DecidableEq α]

/-! ## C196 -/

/-- C196. After any constructor call that returns and any sequence of queries, `add_*` calls on different nodes and `remove_*`
calls, whether they raise or not and for all iteration orders: `parents_of`, `children_of`, `spouses_of`, `neighbors_of` and the
adjacency lists describe exactly the three edge sets, all edges join two different nodes of the graph, no two nodes are joined by
two edges, and a node with an undirected edge has no parent and no spouse. -/
theorem C196_views (C : CyclicG α) (h : CyclicG.Reachable C) : C.base.Consistent ∧ C.base.Simple := h.base.good

/-- C196. No mutator call runs forever, also if the graph has directed cycles. -/
theorem C196_total (C : CyclicG α) (h : CyclicG.Reachable C) (w : AG.Orders α) (op : CyclicG.Op α) (hop : op.Distinct) :
    ∃ C' e, op.exec w C = some (C', e) ∧ CyclicG.Reachable C' := by
  suffices H : ∃ r, op.exec w C = some r by
    obtain ⟨⟨C', e⟩, hr⟩ := H
    exact ⟨C', e, hr, .call C w op C' e h hop hr⟩
  cases op with
  | addDirected i j =>
    obtain ⟨B, e, h1, -⟩ := AG.addDirected_spec h.base.good w.children w.spouses hop
    exact ⟨_, by change C.addDirected _ _ i j = _; unfold CyclicG.addDirected; rw [h1]; rfl⟩
  | _ => exact ⟨_, rfl⟩

/-- C196. The constructor accepts directed cycles: it returns for every set of arcs between different nodes of the graph which does
not contain both arcs of a pair, and the object has exactly these edges. -/
theorem C196_cycles_accepted (o : SetOrder (Fin 3) (α × α)) (nodes : Finset α) (d : Finset (α × α))
    (h1 : ∀ i j, (i, j) ∈ d → i ≠ j ∧ (j, i) ∉ d ∧ i ∈ nodes ∧ j ∈ nodes) :
    ∃ C, CyclicG.new o nodes d ∅ ∅ = (C, none) ∧ CyclicG.Built C ∧ C.base.nodes = nodes ∧ C.base.directed = d ∧
      C.base.bidirected = ∅ ∧ C.base.undirected = ∅ := by
  let T : AG α :=
    { nodes := nodes, directed := d, bidirected := ∅, undirected := ∅, neighbors := fun _ => ∅, spouses := fun _ => ∅
      parents := fun j => nodes.filter fun i => (i, j) ∈ d
      children := fun i => nodes.filter fun j => (i, j) ∈ d
      adjacent := fun j => nodes.filter fun i => (i, j) ∈ d ∨ (j, i) ∈ d }
  have hT : T.Good := by
    refine ⟨⟨?_, ?_, by simp [T], by simp [T], ?_, fun i hi => (h1 i i hi).1 rfl, by simp [T], by simp [T],
      fun i j hij => (h1 i j hij).2.2, by simp [T], by simp [T]⟩,
      ⟨fun i j hij => (h1 i j hij).2.1, by simp [T], by simp [T], by simp [T], by simp [T]⟩⟩
    · intro i j
      simp only [T, Finset.mem_filter, and_iff_right_iff_imp]
      exact fun h => (h1 i j h).2.2.1
    · intro i j
      simp only [T, Finset.mem_filter, and_iff_right_iff_imp]
      exact fun h => (h1 i j h).2.2.2
    · intro i j
      simp only [T, Finset.mem_filter, Finset.notMem_empty, or_false, and_iff_right_iff_imp]
      rintro (h | h)
      · exact (h1 i j h).2.2.1
      · exact (h1 j i h).2.2.2
  have hn : AG.new o nodes d ∅ ∅ = (T, none) := AG.new_ok hT o ∅ ∅ rfl rfl
  have hb := CyclicG.new_base o nodes d ∅ ∅
  rw [hn] at hb
  have hb1 : (CyclicG.new o nodes d ∅ ∅).1.base = T := congrArg Prod.fst hb
  have hb2 : (CyclicG.new o nodes d ∅ ∅).2 = none := congrArg Prod.snd hb
  refine ⟨_, Prod.ext rfl hb2, .new o nodes d ∅ ∅ _ ?_ (Prod.ext rfl hb2), by rw [hb1], by rw [hb1], by rw [hb1], by rw [hb1]⟩
  rintro ⟨i, j⟩ he
  exact (h1 i j (by simpa using he)).1

namespace Sample

theorem cyc_arcs : ∀ i j : Fin 3, (i, j) ∈ ({(0, 1), (1, 2), (2, 0)} : Finset (Fin 3 × Fin 3)) →
    i ≠ j ∧ (j, i) ∉ ({(0, 1), (1, 2), (2, 0)} : Finset (Fin 3 × Fin 3)) ∧ i ∈ (Finset.univ : Finset (Fin 3)) ∧
      j ∈ (Finset.univ : Finset (Fin 3)) := by decide

end Sample

/-- The directed cycle `0 → 1 → 2 → 0`. -/
example (o : SetOrder (Fin 3) (Fin 3 × Fin 3)) :
    ∃ C, CyclicG.new o Finset.univ {(0, 1), (1, 2), (2, 0)} ∅ ∅ = (C, none) ∧ ¬ Acyclic C.base.mixed.dir := by
  obtain ⟨C, h1, -, -, h2, -⟩ := C196_cycles_accepted o Finset.univ {(0, 1), (1, 2), (2, 0)} Sample.cyc_arcs
  refine ⟨C, h1, fun h => h 0 ?_⟩
  have e : ∀ i j : Fin 3, (i, j) ∈ ({(0, 1), (1, 2), (2, 0)} : Finset (Fin 3 × Fin 3)) → C.base.mixed.dir i j := by
    intro i j hij; change _ ∈ C.base.directed; rw [h2]; exact hij
  exact .tail (.tail (.single (e 0 1 (by decide))) (e 1 2 (by decide))) (e 2 0 (by decide))

/-! ## C197 -/

/-- C197 is violated: on the directed cycle `0 → 1 → 2 → 0`, which the constructor accepts, `add_directed(0, 1)` raises `CycleError`
and removes the edge `0 → 1`, which was there before. For all orders. -/
theorem C197_violated (o : SetOrder (Fin 3) (Fin 3 × Fin 3)) (oc os : SetOrder (Option (Fin 3)) (Fin 3)) :
    ∃ C, CyclicG.new o Finset.univ {(0, 1), (1, 2), (2, 0)} ∅ ∅ = (C, none) ∧
      ∃ C' l, C.addDirected oc os 0 1 = some (C', some (.cycle l)) ∧ (0, 1) ∈ C.base.directed ∧ (0, 1) ∉ C'.base.directed := by
  obtain ⟨C, h1, hC, -, h2, h3, -⟩ := C196_cycles_accepted o Finset.univ {(0, 1), (1, 2), (2, 0)} Sample.cyc_arcs
  have hm : (0, 1) ∈ C.base.directed := by rw [h2]; decide
  obtain ⟨B, e, k1, k2, k3, k4, k5⟩ := AG.addDirected_spec hC.reachable.base.good oc os (i := 0) (j := 1) (by decide)
  refine ⟨C, h1, ?_⟩
  rcases k5 with ⟨rfl, k6, k7⟩ | ⟨k6, k7, k8⟩ | ⟨l, rfl, k6, -⟩ | ⟨a, b, -, -, k6, -⟩
  · exfalso
    rw [Finset.insert_eq_of_mem hm, h2] at k6
    have e : ∀ i j : Fin 3, (i, j) ∈ ({(0, 1), (1, 2), (2, 0)} : Finset (Fin 3 × Fin 3)) → (i, j) ∈ B.directed := by
      intro i j hij; rw [k6]; exact hij
    exact k7 0 (.tail (.tail (.single (e 0 1 (by decide))) (e 1 2 (by decide))) (e 2 0 (by decide)))
  · exfalso
    have : (C.base.addDirectedRaw 0 1).2 = none := by unfold AG.addDirectedRaw; rw [if_pos hm]
    rw [this] at k8
    rw [← k8] at k6
    simp at k6
  · refine ⟨⟨B, _⟩, l, by unfold CyclicG.addDirected; rw [k1]; rfl, hm, ?_⟩
    rw [k6]; simp
  · rw [h3] at k6; simp at k6

/-- What holds of C197 (the whole property: a call of `add_directed` that raises leaves the edges of the graph as they were): it
does so if the edge was not there before and the exception is not `SpouseError`; when it returns, the graph has exactly the new
edge in addition and no directed cycle. -/
theorem C197_add_directed_partial (C : CyclicG α) (h : CyclicG.Reachable C) (oc os : SetOrder (Option α) α) (i j : α) (hij : i ≠ j) :
    ∃ C' e, C.addDirected oc os i j = some (C', e) ∧
      (e = none → C'.base.directed = insert (i, j) C.base.directed ∧ C'.base.bidirected = C.base.bidirected ∧
        C'.base.undirected = C.base.undirected ∧ Acyclic C'.base.mixed.dir) ∧
      ((i, j) ∉ C.base.directed → ∀ x, e = some x → (∀ a b, x ≠ .spouse a b) → C'.base.mixed = C.base.mixed) := by
  obtain ⟨B, e, k1, k2, k3, k4, k5⟩ := AG.addDirected_spec h.base.good oc os hij
  refine ⟨⟨B, _⟩, e, by unfold CyclicG.addDirected; rw [k1]; rfl, ?_, ?_⟩
  · rintro rfl
    rcases k5 with ⟨-, k6, k7⟩ | ⟨k, -⟩ | ⟨l, k, -⟩ | ⟨a, b, k, -⟩
    · exact ⟨k6, k3, k4, k7⟩
    all_goals simp at k
  · rintro hn x rfl hx
    rcases k5 with ⟨k, -⟩ | ⟨-, rfl, -⟩ | ⟨l, -, k6, -⟩ | ⟨a, b, k, -⟩
    · simp at k
    · rfl
    · rw [Finset.erase_eq_of_notMem hn] at k6
      change B.mixed = _
      unfold AG.mixed; rw [k6, k3, k4]
    · exact absurd (Option.some_inj.1 k) (hx a b)

/-! ## C198 -/

/-- C198. `msep(A, B, C)` and `msep_from_given(A, C)` terminate for all orders, and are right for all graphs the class can hold,
with directed cycles too: the first returns `True` exactly if no m-connecting path joins `A` and `B` given `C`; the second returns
the nodes outside `A` and `C` which are m-separated from `A` given `C`. -/
theorem C198_msep (G : CyclicG α) (h : CyclicG.Reachable G) (o : SepOracle α) (A B C : Finset α) (hAC : Disjoint A C) :
    (∃ r, G.base.msep o A B C = some r ∧ (r = true ↔ G.base.mixed.MSep {a | a ∈ A} {b | b ∈ B} {c | c ∈ C})) ∧
    ∃ s, G.base.msepFromGiven o A C = some s ∧
      ∀ x, x ∈ s ↔ x ∈ G.base.nodes ∧ x ∉ A ∧ x ∉ C ∧ G.base.mixed.MSep {a | a ∈ A} {x} {c | c ∈ C} := by
  refine ⟨C37_msep _ h.base o A B C hAC, ?_⟩
  obtain ⟨s, h1, h2⟩ := C39_msep_from_given _ h.base o o A C hAC
  refine ⟨s, h1, fun x => (h2 x).trans ?_⟩
  obtain ⟨r, k1, k2⟩ := C37_msep _ h.base o A {x} C hAC
  rw [k1, Option.some_inj, k2]
  simp

/-- On the directed cycle `0 → 1 → 2 → 0`. -/
example : ∃ G : CyclicG (Fin 3), CyclicG.Reachable G ∧ ¬ Acyclic G.base.mixed.dir := by
  obtain ⟨C, h1, hC, -, h2, -⟩ := C196_cycles_accepted _root_.Sample.order Finset.univ {(0, 1), (1, 2), (2, 0)} Sample.cyc_arcs
  refine ⟨C, hC.reachable, fun h => h 0 ?_⟩
  have e : ∀ i j : Fin 3, (i, j) ∈ ({(0, 1), (1, 2), (2, 0)} : Finset (Fin 3 × Fin 3)) → C.base.mixed.dir i j := by
    intro i j hij; change _ ∈ C.base.directed; rw [h2]; exact hij
  exact .tail (.tail (.single (e 0 1 (by decide))) (e 1 2 (by decide))) (e 2 0 (by decide))

/-! ## C199 -/

namespace Sample

/-- The sets are iterated in increasing order, or in decreasing order if `r`. -/
def fin3Order (r : Bool) {κ : Type} : SetOrder κ (Fin 3) where
  ord _ s := (if r then [2, 1, 0] else [0, 1, 2]).filter (· ∈ s)
  nodup _ s := by cases r <;> exact (by decide : List.Nodup _).filter _
  mem_iff _ s x := by
    have : ∀ x : Fin 3, x ∈ ([2, 1, 0] : List (Fin 3)) ∧ x ∈ ([0, 1, 2] : List (Fin 3)) := by decide
    cases r <;> simp [List.mem_filter, this x]

/-- The sample objects are what the constructor builds. -/
theorem built_mixed {n : ℕ} {d : Finset (Fin n × Fin n)} {b u : Finset (Finset (Fin n))}
    (h : (_root_.Sample.mixed d b u).Good) (o : SetOrder (Fin 3) (Fin n × Fin n)) (b' u' : Finset (Fin n × Fin n))
    (hb : b'.image (fun e => ({e.1, e.2} : Finset (Fin n))) = b) (hu : u'.image (fun e => ({e.1, e.2} : Finset (Fin n))) = u) :
    ∃ C, CyclicG.new o Finset.univ d b' u' = (C, none) ∧ CyclicG.Built C ∧ C.base = _root_.Sample.mixed d b u := by
  have hn : AG.new o Finset.univ d b' u' = (_root_.Sample.mixed d b u, none) := AG.new_ok h o b' u' hb hu
  have hb' := CyclicG.new_base o Finset.univ d b' u'
  rw [hn] at hb'
  have hb1 : (CyclicG.new o Finset.univ d b' u').1.base = _ := congrArg Prod.fst hb'
  have hb2 : (CyclicG.new o Finset.univ d b' u').2 = none := congrArg Prod.snd hb'
  refine ⟨_, Prod.ext rfl hb2, .new o _ d b' u' _ ?_ (Prod.ext rfl hb2), hb1⟩
  intro e he
  simp only [Finset.mem_union] at he
  rcases he with (he | he) | he
  · intro hc
    have : (e.1, e.2) ∈ d := he
    rw [hc] at this
    exact h.1.dir_ne _ this
  · exact h.1.bi_ne (i := e.1) (j := e.2) (by
      change _ ∈ b; rw [← hb]; exact Finset.mem_image.2 ⟨e, he, rfl⟩)
  · exact h.1.un_ne (i := e.1) (j := e.2) (by
      change _ ∈ u; rw [← hu]; exact Finset.mem_image.2 ⟨e, he, rfl⟩)

theorem vee_good : (_root_.Sample.mixed (n := 3) {(0, 2), (1, 2)} ∅ ∅).Good :=
  _root_.Sample.mixed_good (by decide) (by decide) (by decide) (by decide) (by decide)

theorem vee (o : SetOrder (Fin 3) (Fin 3 × Fin 3)) : ∃ C, CyclicG.new o Finset.univ {(0, 2), (1, 2)} ∅ ∅ = (C, none) ∧
    CyclicG.Built C ∧ C.base = _root_.Sample.mixed {(0, 2), (1, 2)} ∅ ∅ :=
  built_mixed vee_good o ∅ ∅ rfl rfl

end Sample

/-- C199 is violated: in `0 → 2 ← 1`, if the set of the parents of `2` is iterated in the order `1, 0`, then `vstructures()` is
`{(0, 2, 0)}`. -/
theorem C199_violated (o : SetOrder (Fin 3) (Fin 3 × Fin 3)) (srt : Unpack (Fin 3)) (hs : srt.fn {0, 1} = (0, 1)) :
    ∃ C, CyclicG.new o Finset.univ {(0, 2), (1, 2)} ∅ ∅ = (C, none) ∧ C.base.mixed.VStruct 0 2 1 ∧
      C.vstructures (Sample.fin3Order true) srt = {(0, 2, 0)} := by
  obtain ⟨C, h1, h2, h3⟩ := Sample.vee o
  have hg := h2.reachable.base.good
  refine ⟨C, h1, by rw [h3]; decide, ?_⟩
  ext ⟨a, v, c⟩
  rw [CyclicG.mem_vstructures hg, h3]
  have key : ∀ v p c : Fin 3, (p, c) ∈ DAG.pairs ((Sample.fin3Order true (κ := Fin 3)).ord v
      ((_root_.Sample.mixed (n := 3) {(0, 2), (1, 2)} ∅ ∅).parents v ∪
        (_root_.Sample.mixed (n := 3) {(0, 2), (1, 2)} ∅ ∅).spouses v)) ∧
      (_root_.Sample.mixed (n := 3) {(0, 2), (1, 2)} ∅ ∅).mixed.VStruct p v c ↔ p = 1 ∧ v = 2 ∧ c = 0 := by decide
  simp only [Finset.mem_singleton, Prod.mk.injEq]
  constructor
  · rintro ⟨p, k1, k2, k3⟩
    obtain ⟨rfl, rfl, rfl⟩ := (key v p c).1 ⟨k1, k2⟩
    rw [Finset.pair_comm, hs] at k3
    exact ⟨k3.symm, rfl, rfl⟩
  · rintro ⟨rfl, rfl, rfl⟩
    obtain ⟨k1, k2⟩ := (key 2 1 0).2 ⟨rfl, rfl, rfl⟩
    exact ⟨1, k1, k2, by rw [Finset.pair_comm, hs]⟩

/-- What holds of C199 (the whole property: the triples returned by `vstructures()` are the unshielded colliders, each once, with
the two outer nodes sorted). For all orders: a returned triple with different outer nodes is an unshielded collider with the outer
nodes sorted; of an unshielded collider with sorted outer nodes `a`, `c` one finds `(a, v, c)` or `(a, v, a)`; a triple `(a, v, a)`
comes from some unshielded collider. If the sets of parents and spouses are iterated in sorted order, the whole property
holds. -/
theorem C199_vstructures_partial (C : CyclicG α) (h : CyclicG.Reachable C) (o : SetOrder α α) (srt : Unpack α) :
    (∀ a v c, (a, v, c) ∈ C.vstructures o srt → a ≠ c → C.base.mixed.VStruct a v c ∧ srt.fn {a, c} = (a, c)) ∧
    (∀ a v c, C.base.mixed.VStruct a v c → srt.fn {a, c} = (a, c) →
      (a, v, c) ∈ C.vstructures o srt ∨ (a, v, a) ∈ C.vstructures o srt) ∧
    (∀ a v, (a, v, a) ∈ C.vstructures o srt → ∃ c, C.base.mixed.VStruct a v c ∧ srt.fn {a, c} = (a, c)) ∧
    (C.Increasing o srt → ∀ a v c, (a, v, c) ∈ C.vstructures o srt ↔ C.base.mixed.VStruct a v c ∧ srt.fn {a, c} = (a, c)) := by
  have hg := h.base.good
  refine ⟨?_, ?_, ?_, ?_⟩
  · intro a v c hm hne
    obtain ⟨p, k1, k2, k3⟩ := (CyclicG.mem_vstructures hg o srt a v c).1 hm
    rcases srt.spec p c k2.1 with e | e
    · rw [e] at k3
      obtain rfl : p = a := k3
      exact ⟨k2, e⟩
    · rw [e] at k3
      exact absurd k3.symm hne
  · intro a v c hv hs
    have hmem : ∀ x, C.base.mixed.Into x v → x ∈ o.ord v (C.base.parents v ∪ C.base.spouses v) := fun x hx =>
      (o.mem_iff _ _ _).2 ((AG.into_iff hg.1).2 hx)
    rcases (mem_pairs (o.nodup v (C.base.parents v ∪ C.base.spouses v))).2 ⟨hmem a hv.2.1.1, hmem c hv.2.1.2, hv.1⟩ with k | k
    · exact Or.inl ((CyclicG.mem_vstructures hg o srt a v c).2 ⟨a, k, hv, by rw [hs]⟩)
    · exact Or.inr ((CyclicG.mem_vstructures hg o srt a v a).2 ⟨c, k, AG.vstruct_symm hg.proper hv, by rw [Finset.pair_comm, hs]⟩)
  · intro a v hm
    obtain ⟨p, k1, k2, k3⟩ := (CyclicG.mem_vstructures hg o srt a v a).1 hm
    refine ⟨p, AG.vstruct_symm hg.proper k2, ?_⟩
    rcases srt.spec p a k2.1 with e | e
    · rw [e] at k3
      exact absurd k3 k2.1
    · rw [Finset.pair_comm]; exact e
  · intro hi a v c
    rw [CyclicG.vstructures_eq hi, AG.mem_vstructures hg]

/-- With the order `0, 1` of the parents. -/
example (o : SetOrder (Fin 3) (Fin 3 × Fin 3)) (srt : Unpack (Fin 3)) (hs : srt.fn {0, 1} = (0, 1)) :
    ∃ C, CyclicG.new o Finset.univ {(0, 2), (1, 2)} ∅ ∅ = (C, none) ∧ CyclicG.Reachable C ∧
      C.Increasing (Sample.fin3Order false) srt ∧ (0, 2, 1) ∈ C.vstructures (Sample.fin3Order false) srt := by
  obtain ⟨C, h1, h2, h3⟩ := Sample.vee o
  have hi : C.Increasing (Sample.fin3Order false) srt := by
    have key : ∀ v : Fin 3, ∀ p ∈ DAG.pairs ((Sample.fin3Order false (κ := Fin 3)).ord v
        ((_root_.Sample.mixed (n := 3) {(0, 2), (1, 2)} ∅ ∅).parents v ∪
          (_root_.Sample.mixed (n := 3) {(0, 2), (1, 2)} ∅ ∅).spouses v)), p = (0, 1) := by decide
    intro v p hp
    rw [h3] at hp
    rw [key v p hp]
    exact hs
  exact ⟨C, h1, h2.reachable, hi, ((C199_vstructures_partial C h2.reachable _ srt).2.2.2 hi 0 2 1).2 ⟨by rw [h3]; decide, hs⟩⟩

/-! ## C200 -/

namespace Sample

/-- Adding an edge to a sample graph. -/
theorem addDirected_mixed {n : ℕ} {d d' : Finset (Fin n × Fin n)} {b : Finset (Finset (Fin n))} {i j : Fin n}
    (hd : d' = insert (i, j) d) (hnew : (i, j) ∉ d) (g : (_root_.Sample.mixed d b ∅).Good) (g' : (_root_.Sample.mixed d' b ∅).Good)
    (ha : (_root_.Sample.mixed d' b ∅).mixed.Ancestral) (w : AG.Orders (Fin n)) (keys : List (Fin n)) :
    (CyclicG.Op.addDirected i j).exec w ⟨_root_.Sample.mixed d b ∅, keys⟩ =
      some (⟨_root_.Sample.mixed d' b ∅, CyclicG.touch keys j⟩, none) := by
  have hij : i ≠ j := fun e => g'.1.dir_ne i (by change _ ∈ d'; rw [hd, ← e]; simp)
  have hraw : (AG.addDirectedRaw (_root_.Sample.mixed d b ∅) i j).2 = none :=
    AG.addDirectedRaw_ok g g' ⟨by change d ⊆ d'; rw [hd]; simp, subset_rfl, subset_rfl⟩ (by change _ ∈ d'; rw [hd]; simp)
  obtain ⟨r1, r2, -⟩ := AG.addDirectedRaw_spec g hij
  obtain ⟨r3, r4, r5, r6⟩ := r2 hraw
  have heq : (AG.addDirectedRaw (_root_.Sample.mixed d b ∅) i j).1 = _root_.Sample.mixed d' b ∅ := by
    refine AG.Consistent.ext r1.1 g'.1 ?_ (r3.trans hd.symm) r5 r6
    rw [r4]
    exact Finset.eq_univ_of_forall fun x => by simp [_root_.Sample.mixed]
  have hadd : AG.addDirected w.children w.spouses (_root_.Sample.mixed d b ∅) i j = some (_root_.Sample.mixed d' b ∅, none) := by
    obtain ⟨B, e, k1, k2, k3, k4, k5⟩ := AG.addDirected_spec g w.children w.spouses hij
    have hB : e = none → B = (AG.addDirectedRaw (_root_.Sample.mixed d b ∅) i j).1 := by
      rintro rfl
      unfold AG.addDirected at k1
      generalize AG.addDirectedRaw (_root_.Sample.mixed d b ∅) i j = r at k1 hraw
      obtain ⟨A1, e1⟩ := r
      cases hraw
      dsimp only at k1
      split at k1
      · simp at k1
      · simp only [Option.some.injEq, Prod.mk.injEq, and_true] at k1; exact k1.symm
      · unfold AG.Step.andThen at k1; split at k1 <;> simp at k1
      · simp at k1
    have hdir : ∀ x y, (x, y) ∈ insert (i, j) d → (_root_.Sample.mixed d' b ∅).mixed.dir x y := by
      intro x y h; change _ ∈ d'; rw [hd]; exact h
    rcases k5 with ⟨rfl, -, -⟩ | ⟨k6, -, k7⟩ | ⟨l, -, -, k6⟩ | ⟨a, c, -, k6, k7, k8⟩
    · rw [k1, hB rfl, heq]
    · rw [hraw] at k7; rw [← k7] at k6; simp at k6
    · exfalso
      obtain ⟨v, hv⟩ := DAG.isClosingWalk_cycle k6
      exact ha.acyclic v (path_mono (fun a b h => hdir a b h) hv)
    · exfalso
      rw [k6] at k8
      exact ha.almost c a k7 (path_mono (fun a b h => hdir a b h) k8)
  change CyclicG.addDirected _ _ _ i j = _
  unfold CyclicG.addDirected CyclicG.addDirectedRaw
  rw [hadd]
  simp only [Option.map_some, hraw, and_true]
  rw [if_pos (show (i, j) ∉ (_root_.Sample.mixed d b ∅).directed from hnew)]

/-- An object with bidirected edges only has read no parents. -/
theorem new_bi_keys (o : SetOrder (Fin 3) (α × α)) (nodes : Finset α) (b : Finset (α × α))
    (h : (CyclicG.new o nodes ∅ b ∅).2 = none) : (CyclicG.new o nodes ∅ b ∅).1.keys = [] := by
  have hnil : ∀ k, o.ord k ∅ = [] := fun k => List.eq_nil_iff_forall_not_mem.2 fun x hx => by
    rw [o.mem_iff] at hx; simp at hx
  unfold CyclicG.new at h ⊢
  rw [hnil, hnil] at h ⊢
  obtain ⟨h1, e⟩ := CyclicG.andThen_none h
  rw [e]
  obtain ⟨-, e'⟩ := CyclicG.andThen_none h1
  rw [e'] at h1
  rw [e']
  exact CyclicG.forEach_inv (I := fun C => C.keys = []) (body := fun C (x : α × α) => C.addBidirectedRaw x.1 x.2) _ _
    (fun _ _ _ h _ => h) rfl h1

/-- The constructor with bidirected edges, then `parents_of(0)`. -/
theorem start {n : ℕ} {b : Finset (Finset (Fin (n + 1)))} (g : (_root_.Sample.mixed ∅ b ∅).Good)
    (b' : Finset (Fin (n + 1) × Fin (n + 1))) (hb : b'.image (fun e => ({e.1, e.2} : Finset (Fin (n + 1)))) = b) :
    CyclicG.Reachable (⟨_root_.Sample.mixed ∅ b ∅, [0]⟩ : CyclicG (Fin (n + 1))) := by
  obtain ⟨C, h1, h2, h3⟩ := built_mixed g _root_.Sample.order b' ∅ hb rfl
  have hk := new_bi_keys _root_.Sample.order Finset.univ b' (by rw [h1])
  rw [h1] at hk
  have : (⟨_root_.Sample.mixed ∅ b ∅, [0]⟩ : CyclicG (Fin (n + 1))) = C.read [0] := by
    obtain ⟨base, keys⟩ := C
    obtain rfl : base = _ := h3
    obtain rfl : keys = [] := hk
    rfl
  rw [this]
  exact (h2.read C [0]).reachable

/-- `0 → 1 ↔ 2 ↔ 3`, `1 → 3`, the parents of `0` having been asked for first. -/
def keyCol : CyclicG (Fin 4) := ⟨discCol, [0, 1, 3]⟩

/-- The same with `2 → 3`. -/
def keyNon : CyclicG (Fin 4) := ⟨discNon, [0, 1, 3]⟩

noncomputable def anyOrders : AG.Orders (Fin 4) := ⟨_root_.Sample.order, _root_.Sample.order, _root_.Sample.order, true⟩

theorem keyCol_reachable : CyclicG.Reachable keyCol := by
  have g0 : (_root_.Sample.mixed (n := 4) ∅ {{1, 2}, {2, 3}} ∅).Good :=
    _root_.Sample.mixed_good (by decide) (by decide) (by decide) (by decide) (by decide)
  have g1 : (_root_.Sample.mixed (n := 4) {(0, 1)} {{1, 2}, {2, 3}} ∅).Good :=
    _root_.Sample.mixed_good (by decide) (by decide) (by decide) (by decide) (by decide)
  have a1 : (_root_.Sample.mixed (n := 4) {(0, 1)} {{1, 2}, {2, 3}} ∅).mixed.Ancestral :=
    _root_.Sample.mixed_ancestral {(0, 1)} (by decide) (by decide) (by decide) (by decide)
  have r0 := start g0 {(1, 2), (2, 3)} (by decide)
  have r1 := CyclicG.Reachable.call _ anyOrders (.addDirected 0 1) _ _ r0 (by decide : (0 : Fin 4) ≠ 1)
    (addDirected_mixed (by decide) (by decide) g0 g1 a1 anyOrders [0])
  exact CyclicG.Reachable.call _ anyOrders (.addDirected 1 3) _ _ r1 (by decide : (1 : Fin 4) ≠ 3)
    (addDirected_mixed (by decide) (by decide) g1 discCol_good discCol_ancestral anyOrders [0, 1])

theorem keyNon_reachable : CyclicG.Reachable keyNon := by
  have g0 : (_root_.Sample.mixed (n := 4) ∅ {{1, 2}} ∅).Good :=
    _root_.Sample.mixed_good (by decide) (by decide) (by decide) (by decide) (by decide)
  have g1 : (_root_.Sample.mixed (n := 4) {(0, 1)} {{1, 2}} ∅).Good :=
    _root_.Sample.mixed_good (by decide) (by decide) (by decide) (by decide) (by decide)
  have g2 : (_root_.Sample.mixed (n := 4) {(0, 1), (1, 3)} {{1, 2}} ∅).Good :=
    _root_.Sample.mixed_good (by decide) (by decide) (by decide) (by decide) (by decide)
  have a1 : (_root_.Sample.mixed (n := 4) {(0, 1)} {{1, 2}} ∅).mixed.Ancestral :=
    _root_.Sample.mixed_ancestral {(0, 1)} (by decide) (by decide) (by decide) (by decide)
  have a2 : (_root_.Sample.mixed (n := 4) {(0, 1), (1, 3)} {{1, 2}} ∅).mixed.Ancestral :=
    _root_.Sample.mixed_ancestral {(0, 1), (1, 3), (0, 3)} (by decide) (by decide) (by decide) (by decide)
  have r0 := start g0 {(1, 2)} (by decide)
  have r1 := CyclicG.Reachable.call _ anyOrders (.addDirected 0 1) _ _ r0 (by decide : (0 : Fin 4) ≠ 1)
    (addDirected_mixed (by decide) (by decide) g0 g1 a1 anyOrders [0])
  have r2 := CyclicG.Reachable.call _ anyOrders (.addDirected 1 3) _ _ r1 (by decide : (1 : Fin 4) ≠ 3)
    (addDirected_mixed (by decide) (by decide) g1 g2 a2 anyOrders [0, 1])
  exact CyclicG.Reachable.call _ anyOrders (.addDirected 2 3) _ _ r2 (by decide : (2 : Fin 4) ≠ 3)
    (addDirected_mixed (by decide) (by decide) g2 discNon_good discNon_ancestral anyOrders [0, 1, 3])

theorem foldl_touch_prefix (l : List α) : ∀ keys : List α, ∃ post, l.foldl CyclicG.touch keys = keys ++ post := by
  induction l with
  | nil => intro keys; exact ⟨[], by simp⟩
  | cons v l ih =>
    intro keys
    obtain ⟨p1, h1⟩ := ih (CyclicG.touch keys v)
    rw [List.foldl_cons, h1]
    unfold CyclicG.touch
    split_ifs
    · exact ⟨p1, rfl⟩
    · exact ⟨v :: p1, by simp⟩

/-- If the first key has no parents, no path is found. -/
theorem no_paths (C : CyclicG α) {v : α} {rest : List α} (hk : C.keys = v :: rest) (hv : C.base.parents v = ∅) (o : DiscOracle α) :
    C.discriminatingPaths o = pure [] := by
  unfold CyclicG.discriminatingPaths CyclicG.targets CyclicG.read
  obtain ⟨post, hp⟩ := foldl_touch_prefix (o.targets.ord () C.base.nodes) C.keys
  dsimp only
  rw [hp, hk, List.cons_append, List.takeWhile_cons_of_neg (by simp [hv])]
  rfl

end Sample

/-- C200 is violated: in the graph `0 → 1 ↔ 2 ↔ 3`, `1 → 3`, if it is built by `AncestralGraph(nodes, bidirected=…)`, then
`parents_of(0)`, then `add_directed(0, 1)`, `add_directed(1, 3)`, the dictionary returned by `discriminating_paths()` is empty,
for all iteration orders, although `0, 1, 2, 3` is a discriminating path. -/
theorem C200_violated : ∃ C : CyclicG (Fin 4), CyclicG.Reachable C ∧ C.base.mixed.Ancestral ∧
    C.base.mixed.Discriminating 0 [1] 2 3 ∧ ∀ o, C.discriminatingPaths o = pure [] :=
  ⟨Sample.keyCol, Sample.keyCol_reachable, Sample.discCol_ancestral, Sample.discCol_disc,
    fun o => Sample.no_paths _ rfl (by decide) o⟩

/-- What holds of C200 (the whole property: on every ancestral graph `discriminating_paths()` returns exactly the discriminating
paths, labelled `'c'` exactly if the node before the last is a collider): the call always terminates without raising; it finds
exactly the discriminating paths whose last node `c` is such that no key of `_parents` before `c` has an empty set of parents, where
the keys are those present before in their order of insertion and then the other nodes; and the labels are right. -/
theorem C200_discriminating_paths_partial (C : CyclicG α) (h : CyclicG.Reachable C) (ha : C.base.mixed.Ancestral) (o : DiscOracle α) :
    ∃ d, C.discriminatingPaths o = pure d ∧
      (∀ l, d.lookup l ≠ none ↔ ∃ x qs q b c, l = x :: (qs ++ [q, b, c]) ∧
        C.base.mixed.Discriminating x (qs ++ [q]) b c ∧ ∃ pre post,
          (C.read (o.targets.ord () C.base.nodes)).keys = pre ++ c :: post ∧ ∀ k ∈ pre, ∃ p, C.base.mixed.dir p k) ∧
      ∀ x qs q b c, C.base.mixed.Discriminating x (qs ++ [q]) b c → d.lookup (x :: (qs ++ [q, b, c])) ≠ none →
        (d.lookup (x :: (qs ++ [q, b, c])) = some true ↔ C.base.mixed.Collider q b c) := by
  have hg := h.base.good
  have hpar : ∀ k, C.base.parents k ≠ ∅ ↔ ∃ p, C.base.mixed.dir p k := fun k => by
    rw [← Finset.nonempty_iff_ne_empty]
    exact exists_congr fun p => hg.1.parents_iff p k
  have hmem : ∀ {x : α} {qs : List α} {b c : α}, C.base.mixed.Discriminating x qs b c → c ∈ C.base.nodes := fun hd => by
    obtain ⟨q, hq⟩ := List.exists_mem_of_ne_nil _ hd.nonempty
    exact (hg.1.dir_mem _ _ (hd.parent q hq)).2
  have htar : ∀ {x : α} {qs : List α} {b c : α}, C.base.mixed.Discriminating x qs b c → (c ∈ C.targets o.targets ↔
      ∃ pre post, (C.read (o.targets.ord () C.base.nodes)).keys = pre ++ c :: post ∧ ∀ k ∈ pre, ∃ p, C.base.mixed.dir p k) := by
    intro x qs b c hd
    rw [CyclicG.mem_targets o.targets c (hmem hd) (CyclicG.disc_parents hg hd)]
    simp only [hpar]
  obtain ⟨d, h1, h2, h3⟩ := CyclicG.discriminatingPaths_spec hg ha o
  refine ⟨d, h1, fun l => (h2 l).trans ?_, ?_⟩
  · constructor
    · rintro ⟨x, qs, q, b, c, e, hd, hc⟩; exact ⟨x, qs, q, b, c, e, hd, (htar hd).1 hc⟩
    · rintro ⟨x, qs, q, b, c, e, hd, hc⟩; exact ⟨x, qs, q, b, c, e, hd, (htar hd).2 hc⟩
  · intro x qs q b c hd hl
    obtain ⟨x', qs', q', b', c', e, hd', hc⟩ := (h2 _).1 hl
    have : c = c' := by
      have := congrArg List.getLast? e
      rw [show x :: (qs ++ [q, b, c]) = (x :: (qs ++ [q, b])) ++ [c] by simp,
        show x' :: (qs' ++ [q', b', c']) = (x' :: (qs' ++ [q', b'])) ++ [c'] by simp, List.getLast?_append, List.getLast?_append] at this
      simpa using this
    subst this
    exact h3 x qs q b c hd hc

/-- C200, the case in which nothing but queries has been called since the constructor: then all discriminating paths are found. -/
theorem C200_built_partial (C : CyclicG α) (h : CyclicG.Built C) (ha : C.base.mixed.Ancestral) (o : DiscOracle α) :
    ∃ d, C.discriminatingPaths o = pure d ∧
      (∀ l, d.lookup l ≠ none ↔
        ∃ x qs q b c, l = x :: (qs ++ [q, b, c]) ∧ C.base.mixed.Discriminating x (qs ++ [q]) b c) ∧
      ∀ x qs q b c, C.base.mixed.Discriminating x (qs ++ [q]) b c →
        (d.lookup (x :: (qs ++ [q, b, c])) = some true ↔ C.base.mixed.Collider q b c) :=
  h.discriminatingPaths ha o

/-- The same graph built by one constructor call. -/
example (o : SetOrder (Fin 3) (Fin 4 × Fin 4)) (w : DiscOracle (Fin 4)) :
    ∃ C, CyclicG.new o Finset.univ {(0, 1), (1, 3)} {(1, 2), (2, 3)} ∅ = (C, none) ∧
      ∃ d, C.discriminatingPaths w = pure d ∧ d.lookup [0, 1, 2, 3] = some true := by
  obtain ⟨C, h1, h2, h3⟩ := Sample.built_mixed Sample.discCol_good o {(1, 2), (2, 3)} ∅ (by decide) rfl
  have h3 : C.base = Sample.discCol := h3
  obtain ⟨d, k1, -, k2⟩ := C200_built_partial C h2 (by rw [h3]; exact Sample.discCol_ancestral) w
  exact ⟨C, h1, d, k1, (k2 0 [] 1 2 3 (by rw [h3]; exact Sample.discCol_disc)).2 (by rw [h3]; exact Sample.discCol_collider)⟩

/-! ## C201 -/

/-- C201 is violated: two equal objects `0 → 2 ← 1` are reported not equivalent if the sets of the parents of `2` are iterated in
different orders. -/
theorem C201_violated (o : SetOrder (Fin 3) (Fin 3 × Fin 3)) (srt : Unpack (Fin 3)) (hs : srt.fn {0, 1} = (0, 1))
    (o1 o2 : DiscOracle (Fin 3)) (h1 : o1.vstruct = Sample.fin3Order true) (h2 : o2.vstruct = Sample.fin3Order false) :
    ∃ C, CyclicG.new o Finset.univ {(0, 2), (1, 2)} ∅ ∅ = (C, none) ∧ C.base.mixed.Ancestral ∧ C.base.beq C.base = true ∧
      C.markovEquivalent o1 o2 srt C = pure ⟨false⟩ := by
  obtain ⟨C, k1, k2, k3⟩ := C199_violated o srt hs
  obtain ⟨C', g1, g2, g3⟩ := Sample.vee o
  obtain rfl : C = C' := by rw [k1] at g1; exact (Prod.mk.inj g1).1
  have ha : C.base.mixed.Ancestral := by
    rw [g3]
    exact _root_.Sample.mixed_ancestral {(0, 2), (1, 2)} (by decide) (by decide) (by decide) (by decide)
  refine ⟨C, k1, ha, by simp [AG.beq], ?_⟩
  obtain ⟨d, d1, -⟩ := g2.discriminatingPaths ha o1
  obtain ⟨e, e1, -⟩ := g2.discriminatingPaths ha o2
  have hne : C.vstructures o1.vstruct srt ≠ C.vstructures o2.vstruct srt := by
    rw [h1, h2, k3]
    intro he
    have hi : C.Increasing (Sample.fin3Order false) srt := by
      have key : ∀ v : Fin 3, ∀ p ∈ DAG.pairs ((Sample.fin3Order false (κ := Fin 3)).ord v
          ((_root_.Sample.mixed (n := 3) {(0, 2), (1, 2)} ∅ ∅).parents v ∪
            (_root_.Sample.mixed (n := 3) {(0, 2), (1, 2)} ∅ ∅).spouses v)), p = (0, 1) := by decide
      intro v p hp
      rw [g3] at hp
      rw [key v p hp]
      exact hs
    have := ((C199_vstructures_partial C g2.reachable _ srt).2.2.2 hi 0 2 1).2 ⟨k2, hs⟩
    rw [← he] at this
    simp at this
  unfold CyclicG.markovEquivalent
  rw [d1, e1, pure_bind, pure_bind, decide_eq_false hne]
  simp

/-- C201 is violated in the other direction: `0 → 1 ↔ 2 ↔ 3`, `1 → 3` and `0 → 1 ↔ 2 → 3`, `1 → 3`, both built after asking for the
parents of `0`, are reported equivalent for all orders in which the sets of parents and spouses come sorted, although they have
different m-separations. -/
theorem C201_violated_keys (srt : Unpack (Fin 4)) (o1 o2 : DiscOracle (Fin 4)) (i1 : Sample.keyCol.Increasing o1.vstruct srt)
    (i2 : Sample.keyNon.Increasing o2.vstruct srt) :
    CyclicG.Reachable Sample.keyCol ∧ CyclicG.Reachable Sample.keyNon ∧
      Sample.keyCol.base.mixed.DMAG {v | v ∈ Sample.keyCol.base.nodes} ∧
      Sample.keyNon.base.mixed.DMAG {v | v ∈ Sample.keyNon.base.nodes} ∧ Sample.keyCol.base.nodes = Sample.keyNon.base.nodes ∧
      Sample.keyCol.markovEquivalent o1 o2 srt Sample.keyNon = pure ⟨true⟩ ∧
      ¬ Sample.keyCol.base.mixed.MarkovEquiv Sample.keyNon.base.mixed {v | v ∈ Sample.keyCol.base.nodes} := by
  refine ⟨Sample.keyCol_reachable, Sample.keyNon_reachable, ⟨by decide, Sample.discCol_ancestral, Sample.discCol_maximal⟩,
    ⟨by decide, Sample.discNon_ancestral, Sample.discNon_maximal⟩, rfl, ?_, ?_⟩
  · unfold CyclicG.markovEquivalent
    rw [Sample.no_paths Sample.keyCol rfl (by decide) o1, Sample.no_paths Sample.keyNon rfl (by decide) o2, pure_bind, pure_bind,
      CyclicG.vstructures_eq i1, CyclicG.vstructures_eq i2]
    have h1 : Sample.keyCol.base.skeleton = Sample.keyNon.base.skeleton := by decide
    have h2 : Sample.keyCol.base.vstructures o1.vstruct srt = Sample.keyNon.base.vstructures o2.vstruct srt := by
      refine (AG.vstructures_eq_iff Sample.discCol_good Sample.discNon_good _ _ _).2 ?_
      decide
    rw [h1, h2]
    simp [AG.sameDiscriminating]
  · intro he
    obtain ⟨r, k1, k2⟩ := AG.markovEquivalent_spec Sample.discCol_good Sample.discNon_good Sample.discCol_ancestral
      Sample.discNon_ancestral Sample.discCol_maximal Sample.discNon_maximal rfl o1 o2 srt
    obtain ⟨r', k1', k2'⟩ := AG.markovEquivalent_marks Sample.discCol_good Sample.discNon_good Sample.discCol_ancestral
      Sample.discNon_ancestral o1 o2 srt
    have e : r = r' := by
      have := congrArg ExceptT.run (k1.symm.trans k1')
      simpa using this
    subst e
    have hs := k2'.1 (k2.2 he)
    exact Sample.discNon_collider ((hs.disc 0 [] 1 2 3 Sample.discCol_disc Sample.discNon_disc).1 Sample.discCol_collider)

/-- What holds of C201 (the whole property: for maximal ancestral graphs with the same nodes `markov_equivalent` returns `True`
exactly if they have the same m-separations): it holds if both objects have been built by the constructor and only been queried
since, and the sets of parents and spouses are iterated in sorted order. -/
theorem C201_markov_equivalent_partial (C D : CyclicG α) (hC : CyclicG.Built C) (hD : CyclicG.Built D) (aC : C.base.mixed.Ancestral)
    (aD : D.base.mixed.Ancestral) (mC : C.base.mixed.Maximal {v | v ∈ C.base.nodes}) (mD : D.base.mixed.Maximal {v | v ∈ D.base.nodes})
    (hn : C.base.nodes = D.base.nodes) (o1 o2 : DiscOracle α) (srt : Unpack α) (iC : C.Increasing o1.vstruct srt)
    (iD : D.Increasing o2.vstruct srt) :
    ∃ r, C.markovEquivalent o1 o2 srt D = pure ⟨r⟩ ∧
      (r = true ↔ C.base.mixed.MarkovEquiv D.base.mixed {v | v ∈ C.base.nodes}) := by
  obtain ⟨r, h1, h2⟩ := CyclicG.markovEquivalent_spec hC hD aC aD o1 o2 srt iC iD
  obtain ⟨r', k1, k2⟩ := AG.markovEquivalent_spec hC.reachable.base.good hD.reachable.base.good aC aD mC mD hn o1 o2 srt
  have e : r = r' := by
    have := congrArg ExceptT.run (h2.symm.trans k1)
    simpa using this
  subst e
  exact ⟨r, h1, k2⟩

namespace Sample

/-- Sorted orders. -/
def sorted (n : ℕ) {κ : Type} : SetOrder κ (Fin n) where
  ord _ s := (List.finRange n).filter (· ∈ s)
  nodup _ s := (List.nodup_finRange n).filter _
  mem_iff _ s x := by simp [List.mem_filter]

/-- `sorted((i, j))`. -/
def sortPair : Unpack (Fin 4) where
  fn s := (((List.finRange 4).find? (· ∈ s)).getD 0, ((List.finRange 4).reverse.find? (· ∈ s)).getD 0)
  spec := by decide

def sortedOracle (n : ℕ) : DiscOracle (Fin n) := ⟨sorted n, sorted n, sorted n, sorted n, sorted n⟩

theorem discCol_increasing (keys : List (Fin 4)) : CyclicG.Increasing (sorted 4) sortPair ⟨discCol, keys⟩ := by
  intro v
  revert v
  change ∀ v, ∀ p ∈ DAG.pairs ((sorted 4 (κ := Fin 4)).ord v (discCol.parents v ∪ discCol.spouses v)), sortPair.fn {p.1, p.2} = p
  decide

theorem discNon_increasing (keys : List (Fin 4)) : CyclicG.Increasing (sorted 4) sortPair ⟨discNon, keys⟩ := by
  intro v
  revert v
  change ∀ v, ∀ p ∈ DAG.pairs ((sorted 4 (κ := Fin 4)).ord v (discNon.parents v ∪ discNon.spouses v)), sortPair.fn {p.1, p.2} = p
  decide

end Sample

/-- The hypotheses of `C201_violated_keys` hold for sorted orders. -/
example : Sample.keyCol.markovEquivalent (Sample.sortedOracle 4) (Sample.sortedOracle 4) Sample.sortPair Sample.keyNon = pure ⟨true⟩ :=
  (C201_violated_keys _ (Sample.sortedOracle 4) (Sample.sortedOracle 4) (Sample.discCol_increasing _)
    (Sample.discNon_increasing _)).2.2.2.2.2.1

/-- The same two graphs, each built by one constructor call, are told apart. -/
example (o o' : SetOrder (Fin 3) (Fin 4 × Fin 4)) : ∃ C D, CyclicG.new o Finset.univ {(0, 1), (1, 3)} {(1, 2), (2, 3)} ∅ = (C, none) ∧
    CyclicG.new o' Finset.univ {(0, 1), (1, 3), (2, 3)} {(1, 2)} ∅ = (D, none) ∧
    C.markovEquivalent (Sample.sortedOracle 4) (Sample.sortedOracle 4) Sample.sortPair D = pure ⟨false⟩ := by
  obtain ⟨C, h1, h2, h3⟩ := Sample.built_mixed Sample.discCol_good o {(1, 2), (2, 3)} ∅ (by decide) rfl
  obtain ⟨D, k1, k2, k3⟩ := Sample.built_mixed Sample.discNon_good o' {(1, 2)} ∅ (by decide) rfl
  refine ⟨C, D, h1, k1, ?_⟩
  obtain ⟨bC, kC⟩ := C
  obtain ⟨bD, kD⟩ := D
  obtain rfl : bC = Sample.discCol := h3
  obtain rfl : bD = Sample.discNon := k3
  obtain ⟨r, e1, e2⟩ := C201_markov_equivalent_partial _ _ h2 k2 Sample.discCol_ancestral Sample.discNon_ancestral
    Sample.discCol_maximal Sample.discNon_maximal rfl (Sample.sortedOracle 4) (Sample.sortedOracle 4) Sample.sortPair
    (Sample.discCol_increasing _) (Sample.discNon_increasing _)
  have hne := (C201_violated_keys _ (Sample.sortedOracle 4) (Sample.sortedOracle 4) (Sample.discCol_increasing _)
    (Sample.discNon_increasing _)).2.2.2.2.2.2
  rw [e1]
  cases r with
  | false => rfl
  | true => exact absurd (e2.1 rfl) hne

/-! ## C202 -/

namespace Sample

/-- `1 ↔ 0 ↔ 2`, `1 → 2`. -/
abbrev tri : AG (Fin 3) := _root_.Sample.mixed {(1, 2)} {{0, 1}, {0, 2}} ∅

theorem tri_good : tri.Good := _root_.Sample.mixed_good (by decide) (by decide) (by decide) (by decide) (by decide)

theorem tri_dmag : tri.mixed.DMAG {v | v ∈ tri.nodes} := by
  refine ⟨by decide, _root_.Sample.mixed_ancestral {(1, 2)} (by decide) (by decide) (by decide) (by decide), ?_⟩
  intro i _ j _ hij hadj
  have : ∀ i j : Fin 3, i ≠ j → tri.mixed.Adj i j := by decide
  exact absurd (this i j hij) hadj

end Sample

/-- C202 is violated: in `1 ↔ 0 ↔ 2`, `1 → 2`, for all orders, `legitimate_mark_changes()` lists the change of `0 ↔ 1` to `0 → 1`,
after which `0 → 1 → 2` and `0 ↔ 2`: the graph is not ancestral any more. -/
theorem C202_violated (o : SetOrder (Fin 3) (Fin 3 × Fin 3)) (w : DiscOracle (Fin 3)) (oa : SetOrder (Fin 3 × Finset (Fin 3)) (Fin 3))
    (oe : SetOrder Bool (Fin 3 × Fin 3)) :
    ∃ C D B, CyclicG.new o Finset.univ {(1, 2)} {(0, 1), (0, 2)} ∅ = (C, none) ∧ C.base.mixed.DMAG {v | v ∈ C.base.nodes} ∧
      C.legitimateMarkChanges w oa oe = pure (D, B) ∧ (0, 1) ∈ B ∧ ¬ (C.base.mixed.toDir 0 1).Ancestral := by
  obtain ⟨C, h1, h2, h3⟩ := Sample.built_mixed Sample.tri_good o {(0, 1), (0, 2)} ∅ (by decide) rfl
  have hd : C.base.mixed.DMAG {v | v ∈ C.base.nodes} := by rw [h3]; exact Sample.tri_dmag
  have hun := AG.un_empty_of h2.reachable.base.good hd.no_un
  obtain ⟨d, D, B, k1, k2, -, k3⟩ := CyclicG.legitimateMarkChanges_passes h2.reachable.base.good hd.anc hun w oa oe
  obtain ⟨d', g1, g2, -⟩ := h2.discriminatingPaths hd.anc w
  have e : d = d' := by
    have := congrArg ExceptT.run (k1.symm.trans g1)
    simpa using this
  subst e
  refine ⟨C, D, B, h1, hd, k2, (k3 0 1).2 ⟨by rw [h3]; decide, ?_, ?_, ?_, ?_⟩, ?_⟩
  · rw [h3]; decide
  · rw [h3]; decide
  · rw [← Bool.not_eq_true, AG.discBlocked_iff g2]
    rintro ⟨x, qs, hq⟩
    obtain ⟨q, hq'⟩ := List.exists_mem_of_ne_nil _ hq.nonempty
    have hqp := hq.parent q hq'
    rw [h3] at hqp
    exact (by decide : ∀ q : Fin 3, ¬ Sample.tri.mixed.dir q 1) q hqp
  · intro hp
    rcases TransGen.tail'_iff.1 hp with ⟨q, -, hq, -⟩
    rw [h3] at hq
    revert q; decide
  · intro ha
    refine ha.almost 0 2 ⟨by rw [h3]; decide, by decide, by decide⟩ (.tail (.single (Or.inr ⟨rfl, rfl⟩)) (Or.inl ?_))
    rw [h3]; decide

/-- What holds of C202 (the whole property: on every directed maximal ancestral graph `legitimate_mark_changes()` returns exactly
the single mark changes that lead to a Markov equivalent directed maximal ancestral graph), if only queries have been called since
the constructor, for all orders: the first set is exact; the second set contains all right changes, and its other
members are exactly the listed ones that lead to a graph that is not ancestral. -/
theorem C202_legitimate_mark_changes_partial (C : CyclicG α) (h : CyclicG.Built C) (hd : C.base.mixed.DMAG {v | v ∈ C.base.nodes})
    (w : DiscOracle α) (oa : SetOrder (α × Finset α) α) (oe : SetOrder Bool (α × α)) :
    ∃ D B, C.legitimateMarkChanges w oa oe = pure (D, B) ∧
      (∀ i j, (i, j) ∈ D ↔ C.base.mixed.dir i j ∧ (C.base.mixed.toBi i j).DMAG {v | v ∈ C.base.nodes} ∧
        C.base.mixed.MarkovEquiv (C.base.mixed.toBi i j) {v | v ∈ C.base.nodes}) ∧
      (∀ i j, (i, j) ∈ B → C.base.mixed.bi i j) ∧
      ∀ i j, (i, j) ∈ B ∧ (C.base.mixed.toDir i j).Ancestral ↔ C.base.mixed.bi i j ∧
        (C.base.mixed.toDir i j).DMAG {v | v ∈ C.base.nodes} ∧
        C.base.mixed.MarkovEquiv (C.base.mixed.toDir i j) {v | v ∈ C.base.nodes} := by
  have hg := h.reachable.base.good
  have hun := AG.un_empty_of hg hd.no_un
  obtain ⟨d, D, B, k1, k2, k3, k4⟩ := CyclicG.legitimateMarkChanges_passes hg hd.anc hun w oa oe
  obtain ⟨d', g1, g2, -⟩ := h.discriminatingPaths hd.anc w
  have e : d = d' := by
    have := congrArg ExceptT.run (k1.symm.trans g1)
    simpa using this
  subst e
  refine ⟨D, B, k2, fun i j => (k3 i j).trans (and_congr_right fun k => ?_), fun i j hm => ((k4 i j).1 hm).1, fun i j => ?_⟩
  · rw [CyclicG.passes_dir hg hd.anc hd.no_un g2 k]
    exact AG.legit_toBi hg hd.anc hd.max hun k
  · rw [k4, and_assoc]
    refine and_congr_right fun k => ?_
    rw [← AG.legit_toDir hg hd.anc hd.max hun k]
    obtain ⟨p1, p2⟩ := CyclicG.passes_bi hg hd.anc hd.no_un g2 k
    exact ⟨fun q => p2 q.1 q.2, fun q => ⟨p1 q, ((AG.legit_toDir hg hd.anc hd.max hun k).1 q).1.anc⟩⟩

/-- C202. With undirected edges the call raises `ValueError`. -/
theorem C202_undirected_partial (C : CyclicG α) (h : C.base.undirected ≠ ∅) (w : DiscOracle α) (oa : SetOrder (α × Finset α) α)
    (oe : SetOrder Bool (α × α)) : C.legitimateMarkChanges w oa oe = throw .value :=
  if_pos (Finset.nonempty_iff_ne_empty.2 h)

/-- In `0 → 1 ↔ 2 → 3`, `1 → 3` the mark change of `2 → 3` is refused because of the discriminating path. -/
example (o : SetOrder (Fin 3) (Fin 4 × Fin 4)) (w : DiscOracle (Fin 4)) (oa : SetOrder (Fin 4 × Finset (Fin 4)) (Fin 4))
    (oe : SetOrder Bool (Fin 4 × Fin 4)) : ∃ C D B, CyclicG.new o Finset.univ {(0, 1), (1, 3), (2, 3)} {(1, 2)} ∅ = (C, none) ∧
      C.legitimateMarkChanges w oa oe = pure (D, B) ∧ (2, 3) ∉ D := by
  obtain ⟨C, h1, h2, h3⟩ := Sample.built_mixed Sample.discNon_good o {(1, 2)} ∅ (by decide) rfl
  obtain ⟨bC, kC⟩ := C
  obtain rfl : bC = Sample.discNon := h3
  obtain ⟨D, B, k1, k2, -⟩ := C202_legitimate_mark_changes_partial _ h2 Sample.discNon_dmag w oa oe
  refine ⟨_, D, B, h1, k1, fun hm => ?_⟩
  have := (AG.legit_toBi Sample.discNon_good Sample.discNon_ancestral Sample.discNon_maximal rfl ((k2 2 3).1 hm).1).2 ((k2 2 3).1 hm).2
  exact this.disc 0 [1] Sample.discNon_disc

/-! ## C203 -/

/-- C203. `copy()` does not raise and returns an object equal to the original with the same views, also if the graph has directed
cycles. -/
theorem C203_copy (C : CyclicG α) (h : CyclicG.Reachable C) (o : SetOrder (Fin 3) (α × α)) (srt : Unpack α) :
    ∃ C', C.copy o srt = (C', none) ∧ C'.base = C.base := by
  have hb := CyclicG.new_base o C.base.nodes C.base.directed (C.base.bidirected.image srt.fn) (C.base.undirected.image srt.fn)
  rw [show AG.new o C.base.nodes C.base.directed (C.base.bidirected.image srt.fn) (C.base.undirected.image srt.fn) = (C.base, none)
    from AG.copy_spec h.base.good o srt] at hb
  have h1 := congrArg Prod.fst hb
  have h2 := congrArg Prod.snd hb
  exact ⟨(C.copy o srt).1, Prod.ext rfl h2, h1⟩

/-- C203. `==` compares the nodes and the three edge sets, which determine all views. -/
theorem C203_eq (C D : CyclicG α) (hC : CyclicG.Reachable C) (hD : CyclicG.Reachable D) :
    (C.base.beq D.base = true ↔ C.base.nodes = D.base.nodes ∧ C.base.directed = D.base.directed ∧
      C.base.bidirected = D.base.bidirected ∧ C.base.undirected = D.base.undirected) ∧
    (C.base.beq D.base = true → C.base.parents = D.base.parents ∧ C.base.children = D.base.children ∧
      C.base.spouses = D.base.spouses ∧ C.base.neighbors = D.base.neighbors) := by
  have h1 : C.base.beq D.base = true ↔ C.base.nodes = D.base.nodes ∧ C.base.directed = D.base.directed ∧
      C.base.bidirected = D.base.bidirected ∧ C.base.undirected = D.base.undirected := by
    simp [AG.beq, and_assoc]
  refine ⟨h1, fun h => ?_⟩
  obtain ⟨e1, e2, e3, e4⟩ := h1.1 h
  have e := AG.Consistent.ext hC.base.good.1 hD.base.good.1 e1 e2 e3 e4
  rw [e]
  exact ⟨rfl, rfl, rfl, rfl⟩

/-- C203. If the nodes are `0, …, n - 1`, then `to_amat()` has the entries of the three kinds of edges, and `from_amat` of the matrix is an
object equal to the original. -/
theorem C203_amat_round_trip (C : CyclicG ℕ) (h : CyclicG.Reachable C) (n : ℕ) (hn : C.base.nodes = Finset.range n)
    (o : SetOrder Unit (ℕ × ℕ)) (ob : SetOrder Bool (Finset ℕ)) (up : Unpack ℕ) (oc : SetOrder (Fin 3) (ℕ × ℕ)) :
    ∃ M C', C.base.toAmat o ob up = .ok M ∧ M.n = n ∧
      (∀ i j, (i, j) ∈ C.base.directed → M.entry i j = 2 ∧ M.entry j i = 3) ∧
      (∀ i j, {i, j} ∈ C.base.bidirected → M.entry i j = 2 ∧ M.entry j i = 2) ∧
      (∀ i j, {i, j} ∈ C.base.undirected → M.entry i j = 3 ∧ M.entry j i = 3) ∧
      (∀ i j, ¬ C.base.mixed.Adj i j → M.entry i j = 0) ∧
      CyclicG.fromAmat oc M = (C', none) ∧ C'.base = C.base := by
  obtain ⟨M, h1, h2, h3, h4, h5, h6, h7⟩ := AG.amat_round_trip h.base.good n hn o ob up oc
  have hb : ((CyclicG.fromAmat oc M).1.base, (CyclicG.fromAmat oc M).2) = AG.fromAmat oc M := CyclicG.new_base oc _ _ _ _
  rw [h7] at hb
  have g1 := congrArg Prod.fst hb
  have g2 := congrArg Prod.snd hb
  exact ⟨M, (CyclicG.fromAmat oc M).1, h1, h2, h3, h4, h5, h6, Prod.ext rfl g2, g1⟩

/-- The cycle `0 → 1 → 2 → 0` over natural numbers. -/
example (o : SetOrder (Fin 3) (ℕ × ℕ)) : ∃ C : CyclicG ℕ, CyclicG.Reachable C ∧ C.base.nodes = Finset.range 3 ∧
    C.base.directed = {(0, 1), (1, 2), (2, 0)} := by
  obtain ⟨C, -, h2, h3, h4, -⟩ := C196_cycles_accepted o (Finset.range 3) {(0, 1), (1, 2), (2, 0)}
    (fun i j h => (by decide : ∀ e ∈ ({(0, 1), (1, 2), (2, 0)} : Finset (ℕ × ℕ)), e.1 ≠ e.2 ∧
      (e.2, e.1) ∉ ({(0, 1), (1, 2), (2, 0)} : Finset (ℕ × ℕ)) ∧ e.1 ∈ Finset.range 3 ∧ e.2 ∈ Finset.range 3) (i, j) h)
  exact ⟨C, h2.reachable, h3, h4⟩

/-! ## C204 -/

/-- C204. On every ancestral graph `to_maximal()` terminates without raising, keeps the nodes, directed and undirected edges, adds
bidirected edges exactly between the non-adjacent nodes that no set of other nodes m-separates; the result is ancestral and maximal
with the same m-separations. -/
theorem C204_to_maximal (C : CyclicG α) (h : CyclicG.Reachable C) (hanc : C.base.mixed.Ancestral)
    (o : SepOracle α) (oS : SetOrder (α × α) α) (on : SetOrder Unit α) :
    ∃ B, AG.toMaximalOld o oS (DAG.pairs (on.ord () C.base.nodes)) C.base = some (B, none) ∧ B.Consistent ∧ B.Simple ∧
      B.mixed.Ancestral ∧ B.mixed.Maximal {v | v ∈ B.nodes} ∧
      B.nodes = C.base.nodes ∧ B.directed = C.base.directed ∧ B.undirected = C.base.undirected ∧
      (∀ e, e ∈ B.bidirected ↔ e ∈ C.base.bidirected ∨ ∃ i j, e = {i, j} ∧ i ∈ C.base.nodes ∧ j ∈ C.base.nodes ∧ i ≠ j ∧
        ¬ C.base.mixed.Adj i j ∧ ∀ Z ⊆ {v | v ∈ C.base.nodes} \ {i, j}, ¬ C.base.mixed.MSep {i} {j} Z) ∧
      ∀ S T Z : Set α, Disjoint S Z → (B.mixed.MSep S T Z ↔ C.base.mixed.MSep S T Z) := by
  obtain ⟨B, h1, h2, h3⟩ := AG.toMaximalOld_spec h.base.good hanc o oS on
  exact ⟨B, h1, h2.good.1, h2.good.2, h2.ancestral, h3, h2.nodes, h2.directed, h2.undirected, h2.exact h.base.good h3, h2.msep⟩

/-- `2 ↔ 0 ↔ 1 ↔ 3`, `0 → 3`, `1 → 2` gets the edge `2 ↔ 3`. -/
example (o : SetOrder (Fin 3) (Fin 4 × Fin 4)) (w : SepOracle (Fin 4)) (oS : SetOrder (Fin 4 × Fin 4) (Fin 4)) (on : SetOrder Unit (Fin 4)) :
    ∃ C B, CyclicG.new o Finset.univ {(0, 3), (1, 2)} {(0, 2), (0, 1), (1, 3)} ∅ = (C, none) ∧
      AG.toMaximalOld w oS (DAG.pairs (on.ord () C.base.nodes)) C.base = some (B, none) ∧ {2, 3} ∈ B.bidirected := by
  have g : (_root_.Sample.mixed (n := 4) {(0, 3), (1, 2)} {{0, 2}, {0, 1}, {1, 3}} ∅).Good :=
    _root_.Sample.mixed_good (by decide) (by decide) (by decide) (by decide) (by decide)
  have anc : (_root_.Sample.mixed (n := 4) {(0, 3), (1, 2)} {{0, 2}, {0, 1}, {1, 3}} ∅).mixed.Ancestral :=
    _root_.Sample.mixed_ancestral {(0, 3), (1, 2)} (by decide) (by decide) (by decide) (by decide)
  have hind : (_root_.Sample.mixed (n := 4) {(0, 3), (1, 2)} {{0, 2}, {0, 1}, {1, 3}} ∅).mixed.Ind 2 3 := by
    refine ⟨0, 1, Or.inr (by unfold AG.mixed; decide), Or.inr (.single (by unfold AG.mixed; decide)),
      .single ⟨by unfold AG.mixed; decide, Or.inl (.single (by unfold AG.mixed; decide))⟩, Or.inr (by unfold AG.mixed; decide)⟩
  have nadj : ¬ (_root_.Sample.mixed (n := 4) {(0, 3), (1, 2)} {{0, 2}, {0, 1}, {1, 3}} ∅).mixed.Adj 2 3 := by decide
  obtain ⟨C, h1, h2, h3⟩ := Sample.built_mixed g o {(0, 2), (0, 1), (1, 3)} ∅ (by decide) rfl
  obtain ⟨bC, kC⟩ := C
  obtain rfl : bC = _ := h3
  obtain ⟨B, k1, -, -, -, k2, k3, -, -, k4, -⟩ := C204_to_maximal _ h2.reachable anc w oS on
  refine ⟨_, B, h1, k1, (k4 _).2 (Or.inr ⟨2, 3, rfl, by simp [_root_.Sample.mixed], by simp [_root_.Sample.mixed], by decide, nadj, ?_⟩)⟩
  exact (Mixed.ind_iff g.proper (AG.hV g) (by decide) nadj).1 hind

/-- C204. `ancestors_of(v, exclude_arcs)` terminates, also on directed cycles, and returns the nodes with a directed path to `v` that
uses no excluded edge; `v` itself is among them exactly if such a path is a cycle through `v`. -/
theorem C204_ancestors_of (C : CyclicG α) (h : CyclicG.Reachable C) (o : SetOrder (α × Finset α) α) (ex : Finset (α × α)) (v : α) :
    ∃ s, C.base.ancestorsOf o ex v = some s ∧ ∀ x, x ∈ s ↔ Path (fun i j => (i, j) ∈ C.base.directed ∧ (i, j) ∉ ex) x v :=
  AG.ancestorsOf_spec h.base.good o ex v

/-- On the cycle `0 → 1 → 2 → 0` every node is its own ancestor, unless an edge of the cycle is excluded. -/
example (o : SetOrder (Fin 3) (ℕ × ℕ)) (w : SetOrder (ℕ × Finset ℕ) ℕ) : ∃ (C : CyclicG ℕ) (s t : Finset ℕ), CyclicG.Reachable C ∧
    C.base.ancestorsOf w ∅ 0 = some s ∧ 0 ∈ s ∧ C.base.ancestorsOf w {(2, 0)} 0 = some t ∧ t = ∅ := by
  obtain ⟨C, -, h2, -, h3, -⟩ := C196_cycles_accepted o (Finset.range 3) {(0, 1), (1, 2), (2, 0)}
    (fun i j h => (by decide : ∀ e ∈ ({(0, 1), (1, 2), (2, 0)} : Finset (ℕ × ℕ)), e.1 ≠ e.2 ∧
      (e.2, e.1) ∉ ({(0, 1), (1, 2), (2, 0)} : Finset (ℕ × ℕ)) ∧ e.1 ∈ Finset.range 3 ∧ e.2 ∈ Finset.range 3) (i, j) h)
  have h2 := h2.reachable
  obtain ⟨s, k1, k2⟩ := C204_ancestors_of C h2 w ∅ 0
  obtain ⟨t, g1, g2⟩ := C204_ancestors_of C h2 w {(2, 0)} 0
  refine ⟨C, s, t, h2, k1, (k2 0).2 ?_, g1, Finset.eq_empty_of_forall_notMem fun x hx => ?_⟩
  · rw [h3]
    exact .tail (.tail (.single (b := 1) (by decide)) (c := 2) (by decide)) (by decide)
  · obtain ⟨q, -, hq⟩ := TransGen.tail'_iff.1 ((g2 x).1 hx)
    rw [h3] at hq
    simp at hq

end Props
