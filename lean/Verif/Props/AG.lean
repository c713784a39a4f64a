import Verif.Proof.AGNew
import Verif.Proof.Districts
import Verif.Props.Sample

/-! # C40, C41, C42: mutators and districts of `AncestralGraph` -/

namespace Sample

open Model

/-- The object with the given edge sets over `Fin n`. -/
def mixed {n : ℕ} (d : Finset (Fin n × Fin n)) (b u : Finset (Finset (Fin n))) : AG (Fin n) where
  nodes := Finset.univ
  directed := d
  bidirected := b
  undirected := u
  parents j := Finset.univ.filter fun i => (i, j) ∈ d
  children i := Finset.univ.filter fun j => (i, j) ∈ d
  spouses j := Finset.univ.filter fun i => {i, j} ∈ b
  neighbors j := Finset.univ.filter fun i => {i, j} ∈ u
  adjacent j := Finset.univ.filter fun i => (i, j) ∈ d ∨ (j, i) ∈ d ∨ {i, j} ∈ b ∨ {i, j} ∈ u

theorem mixed_good {n : ℕ} {d : Finset (Fin n × Fin n)} {b u : Finset (Finset (Fin n))}
    (h1 : ∀ i, (i, i) ∉ d) (h2 : ∀ e ∈ b ∪ u, ∃ i j, i ≠ j ∧ e = {i, j})
    (h3 : ∀ i j, (i, j) ∈ d → (j, i) ∉ d ∧ {i, j} ∉ b ∧ {i, j} ∉ u) (h4 : ∀ e ∈ b, e ∉ u)
    (h5 : ∀ i j k, {i, j} ∈ u → (k, i) ∉ d ∧ {k, i} ∉ b) : (mixed d b u).Good := by
  refine ⟨⟨?_, ?_, ?_, ?_, ?_, h1, fun e he => h2 e (by simp [show e ∈ b from he]),
    fun e he => h2 e (by simp [show e ∈ u from he]), ?_, ?_, ?_⟩,
    ⟨fun i j h => (h3 i j h).1, fun i j h => (h3 i j h).2.1, fun i j h => (h3 i j h).2.2, h4, h5⟩⟩ <;>
    intros <;> simp [mixed]

/-- The sample objects are what the constructor builds. -/
theorem mixed_reachable {n : ℕ} {d : Finset (Fin n × Fin n)} {b u : Finset (Finset (Fin n))}
    (h : (mixed d b u).Good) (o : SetOrder (Fin 3) (Fin n × Fin n)) (b' u' : Finset (Fin n × Fin n))
    (hb : b'.image (fun e => ({e.1, e.2} : Finset (Fin n))) = b) (hu : u'.image (fun e => ({e.1, e.2} : Finset (Fin n))) = u) :
    AG.Reachable (mixed d b u) := by
  refine .new o Finset.univ d b' u' _ ?_ (AG.new_ok h o b' u' hb hu)
  intro e he
  simp only [Finset.mem_union] at he
  rcases he with (he | he) | he
  · intro hc
    have : (e.1, e.2) ∈ d := he
    rw [hc] at this
    exact h.1.dir_ne _ this
  · exact h.1.bi_ne (i := e.1) (j := e.2) (by
      change _ ∈ b; rw [← hb]; exact Finset.mem_image.2 ⟨e, he, rfl⟩)
  · exact h.1.un_ne (i := e.1) (j := e.2) (by
      change _ ∈ u; rw [← hu]; exact Finset.mem_image.2 ⟨e, he, rfl⟩)

end Sample

namespace Props

open Model Relation Spec

universe u
variable {α : Type u} [DecidableEq α]

/-! ## C41 -/

/-- C41. After any constructor call that returns and any sequence of `add_*` calls on different nodes and `remove_*`
calls, whether they raise or not and for all iteration orders: `parents`, `children`, `spouses`, `neighbors` and
`adjacent` describe exactly the three edge sets, all edges join two different nodes of the graph, no two nodes are joined
by two edges, and a node with an undirected edge has no parent and no spouse. -/
theorem C41_views (A : AG α) (h : AG.Reachable A) : A.Consistent ∧ A.Simple := h.good

/-- The same for what a constructor call that raises has built. -/
theorem C41_constructor (o : SetOrder (Fin 3) (α × α)) (nodes : Finset α) (d b u : Finset (α × α))
    (hne : ∀ e ∈ d ∪ b ∪ u, e.1 ≠ e.2) :
    (AG.new o nodes d b u).1.Consistent ∧ (AG.new o nodes d b u).1.Simple := AG.new_good o nodes d b u hne

/-- No mutator call runs forever. -/
theorem C41_total (A : AG α) (h : AG.Reachable A) (w : AG.Orders α) (op : AG.Op α) (hop : op.Distinct) :
    ∃ A' e, op.exec w A = some (A', e) ∧ AG.Reachable A' := by
  obtain ⟨B, e, h1, -⟩ := AG.exec_good h.good w op hop
  exact ⟨B, e, h1, .call A w op B e h hop h1⟩

/-- What the calls add and remove: `add_bidirected` and `add_undirected` without an exception add exactly their edge, with
an exception nothing; `remove_*` removes exactly its edge and raises exactly when it is absent and `ignore_error` is
false. -/
theorem C41_effects (A : AG α) (h : AG.Reachable A) (i j : α) (hij : i ≠ j) (ig : Bool) :
    ((A.addBidirected i j).2 = none → (A.addBidirected i j).1.bidirected = insert {i, j} A.bidirected ∧
      (A.addBidirected i j).1.directed = A.directed ∧ (A.addBidirected i j).1.undirected = A.undirected) ∧
    (∀ e, (A.addBidirected i j).2 = some e → (A.addBidirected i j).1 = A) ∧
    ((A.addUndirected i j).2 = none → (A.addUndirected i j).1.undirected = insert {i, j} A.undirected ∧
      (A.addUndirected i j).1.directed = A.directed ∧ (A.addUndirected i j).1.bidirected = A.bidirected) ∧
    (∀ e, (A.addUndirected i j).2 = some e → (A.addUndirected i j).1 = A) ∧
    (A.removeDirected ig i j).1.directed = A.directed.erase (i, j) ∧
    ((A.removeDirected ig i j).2 = none ↔ (i, j) ∈ A.directed ∨ ig = true) ∧
    (A.removeBidirected ig i j).1.bidirected = A.bidirected.erase {i, j} ∧
    ((A.removeBidirected ig i j).2 = none ↔ {i, j} ∈ A.bidirected ∨ ig = true) ∧
    (A.removeUndirected ig i j).1.undirected = A.undirected.erase {i, j} ∧
    ((A.removeUndirected ig i j).2 = none ↔ {i, j} ∈ A.undirected ∨ ig = true) := by
  obtain ⟨-, b1, b2⟩ := AG.addBidirectedRaw_spec h.good hij
  obtain ⟨-, u1, u2⟩ := AG.addUndirected_spec h.good hij
  obtain ⟨-, -, d3, -, -, d6⟩ := AG.removeDirected_spec h.good ig i j
  obtain ⟨-, -, e3, -, -, e6⟩ := AG.removeBidirected_spec h.good ig i j
  obtain ⟨-, -, f3, -, -, f6⟩ := AG.removeUndirected_spec h.good ig i j
  rw [AG.addBidirected_eq h.good hij]
  refine ⟨fun k => ⟨(b1 k).1, (b1 k).2.2⟩, fun e k => (b2 e k).1, fun k => ⟨(u1 k).1, (u1 k).2.2⟩, fun e k => (u2 e k).1,
    d3, ?_, e3, ?_, f3, ?_⟩
  · rw [d6]; split_ifs with c <;> simp [c]
  · rw [e6]; split_ifs with c <;> simp [c]
  · rw [f6]; split_ifs with c <;> simp [c]

/-- `remove_node` removes the node and exactly the edges at it, for all iteration orders. -/
theorem C41_remove_node (A : AG α) (h : AG.Reachable A) (ig adjKey : Bool) (o : SetOrder (Fin 4) α) (v : α) :
    (A.removeNode ig adjKey o v).1.nodes = A.nodes.erase v ∧
    (∀ i j, (i, j) ∈ (A.removeNode ig adjKey o v).1.directed ↔ (i, j) ∈ A.directed ∧ i ≠ v ∧ j ≠ v) ∧
    (∀ e, e ∈ (A.removeNode ig adjKey o v).1.bidirected ↔ e ∈ A.bidirected ∧ v ∉ e) ∧
    (∀ e, e ∈ (A.removeNode ig adjKey o v).1.undirected ↔ e ∈ A.undirected ∧ v ∉ e) :=
  have ⟨_, h1, h2, h3, h4, _⟩ := AG.removeNode_spec h.good ig adjKey o v
  ⟨h1, h2, h3, h4⟩

/-! ## C40 -/

/-- C40 is violated by `add_bidirected`: on `0 → 1 → 2` the call `add_bidirected(0, 2)` returns normally and leaves a graph
with a bidirected edge between a node and its descendant. -/
theorem C40_violated : ∃ A B : AG (Fin 3), AG.Reachable A ∧ A.mixed.Ancestral ∧
    A.addBidirected 0 2 = (B, none) ∧ ¬ B.mixed.Ancestral := by
  have g : (Sample.mixed (n := 3) {(0, 1), (1, 2)} ∅ ∅).Good := Sample.mixed_good (by decide) (by decide) (by decide)
    (by decide) (by decide)
  have r := Sample.mixed_reachable g Sample.order ∅ ∅ rfl rfl
  have gT : (Sample.mixed (n := 3) {(0, 1), (1, 2)} {{0, 2}} ∅).Good := Sample.mixed_good (by decide) (by decide)
    (by decide) (by decide) (by decide)
  have ok := AG.addBidirectedRaw_ok g gT ⟨by decide, by decide, by decide⟩ (i := 0) (j := 2) (by decide)
  rw [← AG.addBidirected_eq g (by decide)] at ok
  obtain ⟨e1, e2, -⟩ := (C41_effects _ r 0 2 (by decide) true).1 ok
  refine ⟨_, (AG.addBidirected (Sample.mixed {(0, 1), (1, 2)} ∅ ∅) 0 2).1, r, ⟨?_, ?_, ?_⟩, Prod.ext rfl ok, ?_⟩
  · exact Sample.acyclic_of_lt (by unfold AG.mixed; decide)
  · intro u v h; simp [AG.mixed, Sample.mixed] at h
  · intro u v w h; simp [AG.mixed, Sample.mixed] at h
  · intro h
    refine h.almost 0 2 ?_ ?_
    · change ({0, 2} : Finset (Fin 3)) ∈ (AG.addBidirected _ 0 2).1.bidirected
      rw [e1]; simp
    · refine TransGen.tail (b := 1) (.single ?_) ?_
      · change _ ∈ (AG.addBidirected _ 0 2).1.directed
        rw [e2]; decide
      · change _ ∈ (AG.addBidirected _ 0 2).1.directed
        rw [e2]; decide

/-- C40 is violated by `add_directed` too: with `1 → 2` and `0 ↔ 2`, after `add_directed(0, 1)` the graph is not ancestral,
whether or not the call raises, for all iteration orders. -/
theorem C40_violated_directed : ∃ A : AG (Fin 3), AG.Reachable A ∧
    A.mixed.Ancestral ∧ ∀ o os, ∃ B e, A.addDirected o os 0 1 = some (B, e) ∧ ¬ B.mixed.Ancestral := by
  have g : (Sample.mixed (n := 3) {(1, 2)} {{0, 2}} ∅).Good := Sample.mixed_good (by decide) (by decide) (by decide)
    (by decide) (by decide)
  have gT : (Sample.mixed (n := 3) {(0, 1), (1, 2)} {{0, 2}} ∅).Good := Sample.mixed_good (by decide) (by decide)
    (by decide) (by decide) (by decide)
  refine ⟨_, Sample.mixed_reachable g Sample.order {(0, 2)} ∅ (by decide) rfl, ⟨?_, ?_, ?_⟩, ?_⟩
  · exact Sample.acyclic_of_lt (by unfold AG.mixed; decide)
  · intro u v h hp
    have e : ∀ u v : Fin 3, (u, v) ∈ ({(1, 2)} : Finset (Fin 3 × Fin 3)) → u = 1 ∧ v = 2 := by decide
    have hu : u = 1 := by
      rcases TransGen.head'_iff.1 hp with ⟨x, hx, -⟩
      exact (e _ _ hx).1
    subst hu
    have : ∀ v : Fin 3, ({1, v} : Finset (Fin 3)) ∉ ({{0, 2}} : Finset (Finset (Fin 3))) := by decide
    exact this v h
  · intro u v w h; simp [AG.mixed, Sample.mixed] at h
  · intro o os
    obtain ⟨B, e, h1, h2, h3, h4, h5⟩ := AG.addDirected_spec g o os (i := 0) (j := 1) (by decide)
    have bad : B.directed = insert (0, 1) {(1, 2)} → ¬ B.mixed.Ancestral := by
      intro hd h
      refine h.almost 0 2 ?_ ?_
      · change _ ∈ B.bidirected; rw [h3]; decide
      · refine TransGen.tail (b := 1) (.single ?_) ?_
        · change _ ∈ B.directed
          rw [hd]; decide
        · change _ ∈ B.directed
          rw [hd]; decide
    refine ⟨B, e, h1, ?_⟩
    rcases h5 with ⟨-, h, -⟩ | ⟨h6, -, h⟩ | ⟨l, -, -, h⟩ | ⟨a, b, -, h, -⟩
    · exact bad h
    · exfalso
      have ok := AG.addDirectedRaw_ok g gT ⟨by decide, by decide, by decide⟩ (i := 0) (j := 1) (by decide)
      rw [ok] at h
      rw [← h] at h6
      simp at h6
    · exfalso
      obtain ⟨v, hv⟩ := DAG.isClosingWalk_cycle h
      exact Sample.acyclic_of_lt (E := fun a b => (a, b) ∈ insert (0, 1) (Sample.mixed (n := 3) {(1, 2)} {{0, 2}} ∅).directed)
        (by decide) v hv
    · exact bad h

/-- C40, the part that holds. Let the graph be ancestral.
* After `add_undirected`, whether it raises or not, it is ancestral.
* After `add_bidirected(i, j)` there is no directed cycle and no arrowhead at a node with an undirected edge; the graph is
  ancestral exactly when the call raised or neither of `i`, `j` is an ancestor of the other.
* `add_directed(i, j)` terminates for all orders; no arrowhead is at a node with an undirected edge afterwards; if it
  returns, there is no directed cycle; if it raises anything but `SpouseError` the graph is ancestral and has lost or gained
  no edge; if it raises `SpouseError` the new edge stays and there is a bidirected edge between a node and its ancestor; in
  a graph without bidirected edges the graph is always ancestral afterwards.
Missing: `add_bidirected` and `add_directed` can leave a graph that is not ancestral (`C40_violated`,
`C40_violated_directed`). -/
theorem C40_mutators_partial (A : AG α) (h : AG.Reachable A) (hA : A.mixed.Ancestral) (i j : α) (hij : i ≠ j)
    (o os : SetOrder (Option α) α) :
    (A.addUndirected i j).1.mixed.Ancestral ∧
    (Acyclic (A.addBidirected i j).1.mixed.dir ∧
      (∀ u v w, (A.addBidirected i j).1.mixed.un u v → ¬ (A.addBidirected i j).1.mixed.Into w u) ∧
      ((A.addBidirected i j).1.mixed.Ancestral ↔
        (A.addBidirected i j).2 ≠ none ∨ ¬ Path A.mixed.dir i j ∧ ¬ Path A.mixed.dir j i)) ∧
    ∃ B e, A.addDirected o os i j = some (B, e) ∧
      (∀ u v w, B.mixed.un u v → ¬ B.mixed.Into w u) ∧
      (e = none → Acyclic B.mixed.dir ∧ B.directed = insert (i, j) A.directed) ∧
      (∀ x, e = some x → (∃ a b, x = .spouse a b ∧ B.mixed.bi b a ∧ Path B.mixed.dir b a) ∨
        B.mixed.Ancestral ∧ B.mixed = A.mixed) ∧
      (A.bidirected = ∅ → B.mixed.Ancestral) := by
  have tails : ∀ {B : AG α}, B.Good → ∀ u v w, B.mixed.un u v → ¬ B.mixed.Into w u := by
    intro B hB u v w hu hi
    rcases hi with hi | hi
    · exact (hB.2.tails u v w hu).1 hi
    · exact (hB.2.tails u v w hu).2 hi
  refine ⟨?_, ⟨?_, ?_, ?_⟩, ?_⟩
  · obtain ⟨h1, h2, h3⟩ := AG.addUndirected_spec h.good hij
    cases hr : (A.addUndirected i j).2 with
    | some e => rw [(h3 e hr).1]; exact hA
    | none =>
      obtain ⟨-, -, k3, k4⟩ := h2 hr
      refine ⟨?_, ?_, tails h1⟩
      · unfold AG.mixed; rw [k3]; exact hA.acyclic
      · unfold AG.mixed; rw [k3, k4]; exact hA.almost
  · cases hr : (A.addBidirected i j).2 with
    | some e => rw [(C41_effects A h i j hij true).2.1 e hr]; exact hA.acyclic
    | none =>
      obtain ⟨-, k, -⟩ := (C41_effects A h i j hij true).1 hr
      unfold AG.mixed; rw [k]; exact hA.acyclic
  · refine tails ?_
    rw [AG.addBidirected_eq h.good hij]
    exact (AG.addBidirectedRaw_spec h.good hij).1
  · cases hr : (A.addBidirected i j).2 with
    | some e => rw [(C41_effects A h i j hij true).2.1 e hr]; simp [hA]
    | none =>
      obtain ⟨k1, k2, k3⟩ := (C41_effects A h i j hij true).1 hr
      have hd : (A.addBidirected i j).1.mixed.dir = A.mixed.dir := by unfold AG.mixed; rw [k2]
      have hb : ∀ u v, (A.addBidirected i j).1.mixed.bi u v ↔ ({u, v} : Finset α) = {i, j} ∨ A.mixed.bi u v := by
        intro u v; unfold AG.mixed; simp [k1]
      constructor
      · intro hB
        right
        have h1 := hB.almost i j ((hb i j).2 (.inl rfl))
        have h2 := hB.almost j i ((hb j i).2 (.inl (Finset.pair_comm j i)))
        rw [hd] at h1 h2
        exact ⟨h1, h2⟩
      · rintro (h1 | ⟨h1, h2⟩)
        · simp at h1
        · refine ⟨by rw [hd]; exact hA.acyclic, ?_, tails ?_⟩
          · intro u v huv
            rw [hd]
            rcases (hb u v).1 huv with e | e
            · rcases (UG.pair_eq).1 e with ⟨rfl, rfl⟩ | ⟨rfl, rfl⟩
              · exact h1
              · exact h2
            · exact hA.almost u v e
          · rw [AG.addBidirected_eq h.good hij]
            exact (AG.addBidirectedRaw_spec h.good hij).1
  · obtain ⟨B, e, h1, h2, h3, h4, h5⟩ := AG.addDirected_spec h.good o os hij
    have hanc : Acyclic B.mixed.dir → A.bidirected = ∅ → B.mixed.Ancestral := by
      intro hac he
      refine ⟨hac, ?_, tails h2⟩
      intro u v hb
      unfold AG.mixed at hb
      rw [h3, he] at hb
      simp at hb
    refine ⟨B, e, h1, tails h2, ?_, ?_, ?_⟩
    · rintro rfl
      rcases h5 with ⟨-, k1, k2⟩ | ⟨k, -⟩ | ⟨l, k, -⟩ | ⟨a, b, k, -⟩
      · exact ⟨k2, k1⟩
      · simp at k
      · simp at k
      · simp at k
    · rintro x rfl
      rcases h5 with ⟨k, -⟩ | ⟨-, rfl, -⟩ | ⟨l, k1, k2, k3⟩ | ⟨a, b, k1, k2, k3, k4⟩
      · simp at k
      · exact Or.inr ⟨hA, rfl⟩
      · have hn : (i, j) ∉ A.directed := by
          intro hm
          obtain ⟨v, hv⟩ := DAG.isClosingWalk_cycle k3
          rw [Finset.insert_eq_of_mem hm] at hv
          exact hA.acyclic v hv
        rw [Finset.erase_eq_of_notMem hn] at k2
        have : B.mixed = A.mixed := by unfold AG.mixed; rw [k2, h3, h4]
        exact Or.inr ⟨this ▸ hA, this⟩
      · simp only [Option.some.injEq] at k1
        exact Or.inl ⟨a, b, k1, by change _ ∈ B.bidirected; rw [h3]; exact k3, k4⟩
    · intro he
      rcases h5 with ⟨-, k1, k2⟩ | ⟨-, rfl, -⟩ | ⟨l, k1, k2, k3⟩ | ⟨a, b, k1, k2, k3, k4⟩
      · exact hanc k2 he
      · exact hA
      · refine hanc ?_ he
        intro v hv
        refine hA.acyclic v (path_mono ?_ hv)
        intro a b hab
        have hab : (a, b) ∈ B.directed := hab
        rw [k2] at hab
        exact Finset.mem_of_mem_erase hab
      · rw [he] at k3; simp at k3

/-- The hypotheses can be met: `0 → 1 ↔ 2`. -/
example : ∃ A : AG (Fin 3), AG.Reachable A ∧ A.mixed.Ancestral ∧ A.bidirected.Nonempty ∧ A.directed.Nonempty := by
  have g : (Sample.mixed (n := 3) {(0, 1)} {{1, 2}} ∅).Good := Sample.mixed_good (by decide) (by decide) (by decide)
    (by decide) (by decide)
  refine ⟨_, Sample.mixed_reachable g Sample.order {(1, 2)} ∅ (by decide) rfl, ⟨?_, ?_, ?_⟩, by decide, by decide⟩
  · exact Sample.acyclic_of_lt (by unfold AG.mixed; decide)
  · intro u v h hp
    have e : ∀ u v : Fin 3, (u, v) ∈ ({(0, 1)} : Finset (Fin 3 × Fin 3)) → u = 0 ∧ v = 1 := by decide
    have hu : u = 0 := by
      rcases TransGen.head'_iff.1 hp with ⟨x, hx, -⟩
      exact (e _ _ hx).1
    subst hu
    have : ∀ v : Fin 3, ({0, v} : Finset (Fin 3)) ∉ ({{1, 2}} : Finset (Finset (Fin 3))) := by decide
    exact this v h
  · intro u v w h; simp [AG.mixed, Sample.mixed] at h

/-! ## C42 -/

/-- C42. For all iteration and pop orders `c_components()` terminates and returns pairwise disjoint sets; every node of
the graph is in one of them; two nodes are in the same one exactly when they are joined by a path of bidirected edges;
and `district_of(v)` is the member that contains `v`. -/
theorem C42_districts (A : AG α) (h : AG.Reachable A) (o : SetOrder (α × Finset α) α) (pk : Pick α) :
    ∃ cs, A.cComponents o pk = some cs ∧ cs.Pairwise Disjoint ∧
      (∀ v, (∃ c ∈ cs, v ∈ c) ↔ v ∈ A.nodes) ∧
      (∀ v ∈ A.nodes, ∀ w, (∃ c ∈ cs, v ∈ c ∧ w ∈ c) ↔ ReflTransGen (fun a b => {a, b} ∈ A.bidirected) v w) ∧
      ∀ v ∈ A.nodes, ∀ o', ∃ c ∈ cs, A.districtOf o' v = some c ∧ v ∈ c := AG.districts_spec h.good o pk


end Props
