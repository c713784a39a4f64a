import Verif.Proof.AGMarkov
import Verif.Props.AG

/-! # C31, C43, C72 - C74: queries, copies and adjacency matrices of `AncestralGraph` -/

namespace Props

open Model Relation Spec

universe u
variable {α : Type u} [DecidableEq α]

/-! ## C31 -/

/-- C31. For every mixed graph on `0, ..., n-1` the constructor and the mutators can build, `to_amat` succeeds, and
`from_amat` of the matrix builds exactly the same object without raising, for all iteration orders. The entries are those
documented: `i → j` gives 2 at `(i, j)` and 3 at `(j, i)`, `i ↔ j` gives 2 twice, `i − j` gives 3 twice, no edge 0. -/
theorem C31_amat_round_trip (A : AG ℕ) (h : AG.Reachable A) (n : ℕ) (hn : A.nodes = Finset.range n)
    (o : SetOrder Unit (ℕ × ℕ)) (ob : SetOrder Bool (Finset ℕ)) (up : Unpack ℕ) (oc : SetOrder (Fin 3) (ℕ × ℕ)) :
    ∃ M, A.toAmat o ob up = .ok M ∧ M.n = n ∧
      (∀ i j, (i, j) ∈ A.directed → M.entry i j = 2 ∧ M.entry j i = 3) ∧
      (∀ i j, {i, j} ∈ A.bidirected → M.entry i j = 2 ∧ M.entry j i = 2) ∧
      (∀ i j, {i, j} ∈ A.undirected → M.entry i j = 3 ∧ M.entry j i = 3) ∧
      (∀ i j, ¬ A.mixed.Adj i j → M.entry i j = 0) ∧
      AG.fromAmat oc M = (A, none) := AG.amat_round_trip h.good n hn o ob up oc

/-- `0 → 2 ↔ 1`, `3 − 4` over natural numbers. -/
example : ∃ A : AG ℕ, AG.Reachable A ∧ A.nodes = Finset.range 5 ∧ (0, 2) ∈ A.directed ∧ {1, 2} ∈ A.bidirected ∧
    {3, 4} ∈ A.undirected := by
  have hne : ∀ e ∈ ({(0, 2)} ∪ {(1, 2)} ∪ {(3, 4)} : Finset (ℕ × ℕ)), e.1 ≠ e.2 := by decide
  have e : ∀ (κ : Type) (k : κ) (p : ℕ × ℕ), (_root_.Sample.order : SetOrder κ (ℕ × ℕ)).ord k {p} = [p] := by
    intro κ k p
    have h1 := (_root_.Sample.order : SetOrder κ (ℕ × ℕ)).nodup k {p}
    have h2 := (_root_.Sample.order : SetOrder κ (ℕ × ℕ)).mem_iff k {p}
    match hl : (_root_.Sample.order : SetOrder κ (ℕ × ℕ)).ord k {p}, h1, h2 with
    | [], _, h2 => have := (h2 p).2 (by simp); simp at this
    | [a], _, h2 => have := (h2 p).2 (by simp); simp at this; rw [this]
    | a :: b :: l, h1, h2 =>
      have ha := (h2 a).1 (by simp); have hb := (h2 b).1 (by simp)
      simp at ha hb; simp [ha, hb] at h1
  refine ⟨(AG.new _root_.Sample.order (Finset.range 5) {(0, 2)} {(1, 2)} {(3, 4)}).1,
    .new _root_.Sample.order (Finset.range 5) {(0, 2)} {(1, 2)} {(3, 4)} _ hne (Prod.ext rfl ?_), ?_, ?_, ?_, ?_⟩ <;>
  · simp only [AG.new, e]
    decide

/-! ## C72 -/

/-- C72. `copy()` of every graph the constructor and the mutators can build returns an object with the same contents,
without raising, for all iteration orders and unpackings of the frozensets. -/
theorem C72_copy (A : AG α) (h : AG.Reachable A) (o : SetOrder (Fin 3) (α × α)) (up : Unpack α) :
    A.copy o up = (A, none) := AG.copy_spec h.good o up

/-- `induced_subgraph(S)` does not raise, has the nodes `S`, exactly the edges inside `S`, and consistent views. -/
theorem C72_induced_subgraph (A : AG α) (h : AG.Reachable A) (o : SetOrder (Fin 3) (α × α)) (up : Unpack α) (S : Finset α) :
    ∃ B, A.inducedSubgraph o up S = (B, none) ∧ B.nodes = S ∧ B.Consistent ∧ B.Simple ∧
      (∀ i j, (i, j) ∈ B.directed ↔ (i, j) ∈ A.directed ∧ i ∈ S ∧ j ∈ S) ∧
      (∀ e, e ∈ B.bidirected ↔ e ∈ A.bidirected ∧ e ⊆ S) ∧ (∀ e, e ∈ B.undirected ↔ e ∈ A.undirected ∧ e ⊆ S) :=
  ⟨A.restrict S, AG.inducedSubgraph_spec h.good o up S, rfl, (AG.restrict_good h.good S).1, (AG.restrict_good h.good S).2,
    fun i j => by simp [AG.restrict], fun e => by simp [AG.restrict], fun e => by simp [AG.restrict]⟩

/-- An induced subgraph of an ancestral graph is ancestral. -/
theorem C72_induced_ancestral (A B : AG α) (h : AG.Reachable A) (hA : A.mixed.Ancestral) (o : SetOrder (Fin 3) (α × α))
    (up : Unpack α) (S : Finset α) (hB : A.inducedSubgraph o up S = (B, none)) : B.mixed.Ancestral := by
  obtain ⟨B', hB', -, -, -, h1, h2, h3⟩ := C72_induced_subgraph A h o up S
  obtain rfl : B = B' := by rw [hB] at hB'; exact (Prod.mk.inj hB').1
  have hp : ∀ {x y}, Path B.mixed.dir x y → Path A.mixed.dir x y := fun k => path_mono (fun a b k => ((h1 a b).1 k).1) k
  refine ⟨fun v k => hA.acyclic v (hp k), fun u v k k' => hA.almost u v ((h2 _).1 k).1 (hp k'), fun u v w k k' => ?_⟩
  refine hA.tails u v w ((h3 _).1 k).1 ?_
  exact k'.imp (fun k => ((h1 _ _).1 k).1) (fun k => ((h2 _).1 k).1)

/-- `0 → 1 ↔ 2`, `3 − 4` restricted to `{1, 2, 3}` keeps `1 ↔ 2` only. -/
example : ∃ A : AG (Fin 5), AG.Reachable A ∧ ∀ o up, ∃ B, A.inducedSubgraph o up {1, 2, 3} = (B, none) ∧
    B.bidirected = {{1, 2}} ∧ B.directed = ∅ := by
  have g : (Sample.mixed (n := 5) {(0, 1)} {{1, 2}} {{3, 4}}).Good := Sample.mixed_good (by decide) (by decide) (by decide)
    (by decide) (by decide)
  refine ⟨_, Sample.mixed_reachable g Sample.order {(1, 2)} {(3, 4)} (by decide) (by decide), fun o up => ?_⟩
  exact ⟨_, AG.inducedSubgraph_spec g o up _, by decide, by decide⟩

/-! ## C73 -/

/-- C73 is violated: on `0 → 1`, `descendants_of(0, exclude_arcs={(0, 1)})` returns `{1}` (the excluded arcs are looked up
reversed), and `ancestors_of({1}, exclude_arcs={(0, 1)})` returns `{0}` (they are not passed on for sets of nodes). -/
theorem C73_violated : ∃ A : AG (Fin 2), AG.Reachable A ∧
    (∀ o, ∃ s, A.descendantsOf o {(0, 1)} 0 = some s ∧ 1 ∈ s) ∧
    (∀ o on, ∃ s, (A.ancestorsOfSet o on {(0, 1)} {1}).run = some (.ok s) ∧ 0 ∈ s) ∧
    ¬ Path (fun i j => (i, j) ∈ A.directed ∧ (i, j) ∉ ({(0, 1)} : Finset (Fin 2 × Fin 2))) 0 1 := by
  have g : (Sample.mixed (n := 2) {(0, 1)} ∅ ∅).Good := Sample.mixed_good (by decide) (by decide) (by decide)
    (by decide) (by decide)
  refine ⟨_, Sample.mixed_reachable g Sample.order ∅ ∅ rfl rfl, ?_, ?_, ?_⟩
  · intro o
    obtain ⟨s, h1, h2⟩ := AG.descendantsOf_spec g o {(0, 1)} 0
    exact ⟨s, h1, (h2 1).2 (.single ⟨by decide, by decide⟩)⟩
  · intro o on
    obtain ⟨s, h1, h2⟩ := (AG.ancestorsOfSet_spec g o on {(0, 1)} {1}).2 (by simp)
    exact ⟨s, h1, (h2 0).2 ⟨1, by simp, .single (by decide)⟩⟩
  · intro h
    obtain ⟨c, ⟨h1, h2⟩, -⟩ := TransGen.head'_iff.1 h
    simp [Sample.mixed] at h1 h2
    exact h2 h1

/-- What holds of C73: for a single node `ancestors_of(v, exclude_arcs=X)` terminates and is exact for every `X`;
`descendants_of(v, exclude_arcs=X)` terminates and is exact when `X` contains with each pair its reverse (in particular for
`X = {}`); for a set of nodes both are exact when `X = {}`, and raise `TypeError` for the empty set. Missing: other `X`,
where the code is wrong. -/
theorem C73_reachability_partial (A : AG α) (h : AG.Reachable A) (o : SetOrder (α × Finset α) α) (on : SetOrder Unit α)
    (X : Finset (α × α)) (v : α) (S : Finset α) :
    (∃ s, A.ancestorsOf o X v = some s ∧ ∀ x, x ∈ s ↔ Path (fun i j => (i, j) ∈ A.directed ∧ (i, j) ∉ X) x v) ∧
    ((∀ i j, (i, j) ∈ X → (j, i) ∈ X) →
      ∃ s, A.descendantsOf o X v = some s ∧ ∀ x, x ∈ s ↔ Path (fun i j => (i, j) ∈ A.directed ∧ (i, j) ∉ X) v x) ∧
    (S ≠ ∅ → ∃ s, (A.ancestorsOfSet o on ∅ S).run = some (.ok s) ∧
      ∀ x, x ∈ s ↔ ∃ v ∈ S, Path (fun i j => (i, j) ∈ A.directed) x v) ∧
    (S ≠ ∅ → ∃ s, (A.descendantsOfSet o on ∅ S).run = some (.ok s) ∧
      ∀ x, x ∈ s ↔ ∃ v ∈ S, Path (fun i j => (i, j) ∈ A.directed) v x) ∧
    (A.ancestorsOfSet o on X ∅).run = some (.error .type) ∧ (A.descendantsOfSet o on X ∅).run = some (.error .type) := by
  refine ⟨AG.ancestorsOf_spec h.good o X v, ?_, (AG.ancestorsOfSet_spec h.good o on ∅ S).2,
    (AG.descendantsOfSet_spec h.good o on ∅ S).2, (AG.ancestorsOfSet_spec h.good o on X ∅).1 rfl,
    (AG.descendantsOfSet_spec h.good o on X ∅).1 rfl⟩
  intro hX
  obtain ⟨s, h1, h2⟩ := AG.descendantsOf_spec h.good o X v
  refine ⟨s, h1, fun x => ?_⟩
  rw [h2]
  have : (fun i j => (i, j) ∈ A.directed ∧ (j, i) ∉ X) = fun i j => (i, j) ∈ A.directed ∧ (i, j) ∉ X := by
    funext i j
    rw [eq_iff_iff]
    exact and_congr_right fun _ => not_congr ⟨hX _ _, hX _ _⟩
  rw [this]

/-! ## C74 -/

/-- C74. On an ancestral graph `topological_sort()` returns an ordering of the nodes in which every directed edge points
forward, and `ancestor_dict()`, `descendant_dict()` hold for every node exactly its proper ancestors and descendants, for
all iteration orders; nothing is raised. -/
theorem C74_dicts (A : AG α) (h : AG.Reachable A) (hanc : A.mixed.Ancestral) (ot os : SetOrder (Option α) α)
    (o : SetOrder α α) :
    (∃ l, (A.topologicalSort ot os).run = some (.ok l) ∧
      LinearExtension {v | v ∈ A.nodes} (fun i j => (i, j) ∈ A.directed) l) ∧
    (∃ d, (A.ancestorDict ot os o).run = some (.ok d) ∧ ∀ v ∈ A.nodes, ∀ x, x ∈ d v ↔ Path A.mixed.dir x v) ∧
    (∃ d, (A.descendantDict ot os o).run = some (.ok d) ∧ ∀ v ∈ A.nodes, ∀ x, x ∈ d v ↔ Path A.mixed.dir v x) :=
  ⟨AG.topologicalSort_ok h.good hanc ot os, AG.ancestorDict_spec h.good hanc ot os o,
    AG.descendantDict_spec h.good hanc ot os o⟩

/-- `0 → 1 ↔ 2`, `0 → 3`. -/
example : ∃ A : AG (Fin 4), AG.Reachable A ∧ A.mixed.Ancestral ∧ A.bidirected ≠ ∅ := by
  have g : (Sample.mixed (n := 4) {(0, 1), (0, 3)} {{1, 2}} ∅).Good := Sample.mixed_good (by decide) (by decide) (by decide)
    (by decide) (by decide)
  refine ⟨_, Sample.mixed_reachable g Sample.order {(1, 2)} ∅ (by decide) rfl, ⟨?_, ?_, ?_⟩, by decide⟩
  · exact Sample.acyclic_of_lt (by unfold AG.mixed; decide)
  · intro u v h hp
    obtain ⟨c, hc, -⟩ := TransGen.head'_iff.1 hp
    clear hp; revert u v c; unfold AG.mixed; decide
  · intro u v w h; simp [AG.mixed, Sample.mixed] at h

/-! ## C43 -/

/-- C43 is violated: `0 − 1 − 2` is a maximal ancestral graph, and for all iteration orders the only statement, about
`0` and `2`, has the empty conditioning set, given which they are not m-separated. -/
theorem C43_violated : ∃ A : AG (Fin 3), AG.Reachable A ∧ A.mixed.Ancestral ∧ A.mixed.Maximal {v | v ∈ A.nodes} ∧
    ∀ on o, ∃ l, A.pairwiseMarkov on o = some l ∧ ∃ i j S, (i, j, S) ∈ l ∧ ¬ A.mixed.MSep {i} {j} {x | x ∈ S} := by
  have g : (Sample.mixed (n := 3) ∅ ∅ {{0, 1}, {1, 2}}).Good := Sample.mixed_good (by decide) (by decide) (by decide)
    (by decide) (by decide)
  have nodir : ∀ x y, ¬ (Sample.mixed (n := 3) ∅ ∅ {{0, 1}, {1, 2}}).mixed.dir x y := by
    intro x y h; simp [AG.mixed, Sample.mixed] at h
  have nopath : ∀ x y, ¬ Path (Sample.mixed (n := 3) ∅ ∅ {{0, 1}, {1, 2}}).mixed.dir x y := by
    intro x y h
    obtain ⟨c, hc, -⟩ := TransGen.head'_iff.1 h
    exact nodir _ _ hc
  have nointo : ∀ x y, ¬ (Sample.mixed (n := 3) ∅ ∅ {{0, 1}, {1, 2}}).mixed.Into x y := by
    rintro x y (h | h) <;> simp [AG.mixed, Sample.mixed] at h
  refine ⟨_, Sample.mixed_reachable g Sample.order ∅ {(0, 1), (1, 2)} rfl (by decide), ⟨?_, ?_, ?_⟩, ?_, ?_⟩
  · intro v h; exact nopath _ _ h
  · intro u v _ h; exact nopath _ _ h
  · intro u v w _ h; exact nointo _ _ h
  · rw [g.maximal_iff]
    rintro i - j - - - ⟨v, w, h1, -⟩
    exact nointo _ _ h1
  · intro on o
    obtain ⟨l, h1, h2, h3⟩ := AG.pairwiseMarkov_spec g on o
    refine ⟨l, h1, ?_⟩
    have : ¬ (Sample.mixed (n := 3) ∅ ∅ {{0, 1}, {1, 2}}).mixed.Adj 0 2 := by
      change ¬ (_ ∨ _ ∨ _ ∨ _); unfold AG.mixed; decide
    obtain ⟨S, hS⟩ := h2 0 (by simp [Sample.mixed]) 2 (by simp [Sample.mixed]) (by decide) this
    have hadj : ∀ u v, [u, v] <:+: [(0 : Fin 3), 1, 2] ∨ [u, v] <:+: [(2 : Fin 3), 1, 0] →
        (Sample.mixed (n := 3) ∅ ∅ {{0, 1}, {1, 2}}).mixed.Adj u v := by
      change ∀ u v, _ → (_ ∨ _ ∨ _ ∨ _); unfold AG.mixed; decide
    have hemp : ∀ i j, (i, j, S) ∈ l → ∀ x, x ∉ S := by
      intro i j hm x hx
      rcases ((h3 i j S hm).2.2.2.2.1 x).1 hx with k | k
      · exact nopath _ _ k
      · exact nopath _ _ k.1
    rcases hS with hS | hS
    · refine ⟨0, 2, S, hS, fun hs => hs 0 rfl 2 rfl [0, 1, 2] ⟨rfl, rfl, by decide, fun u v h => hadj u v (Or.inl h), ?_⟩⟩
      exact fun u v w _ => ⟨fun h => absurd h.1 (nointo _ _), fun _ => hemp _ _ hS _⟩
    · refine ⟨2, 0, S, hS, fun hs => hs 2 rfl 0 rfl [2, 1, 0] ⟨rfl, rfl, by decide, fun u v h => hadj u v (Or.inr h), ?_⟩⟩
      exact fun u v w _ => ⟨fun h => absurd h.1 (nointo _ _), fun _ => hemp _ _ hS _⟩

/-- C43 is violated for directed graphs too: on `2 → 1 → 0` the iteration order 0, 1, 2 gives the statement
`(0, 2, {1, 2})`, whose set contains one of the two nodes it is about. -/
theorem C43_violated_order : ∃ A : AG (Fin 3), AG.Reachable A ∧ A.mixed.Ancestral ∧
    ∃ on : SetOrder Unit (Fin 3), ∀ o, ∃ l, A.pairwiseMarkov on o = some l ∧ ∃ i j S, (i, j, S) ∈ l ∧ j ∈ S := by
  have g : (Sample.mixed (n := 3) {(2, 1), (1, 0)} ∅ ∅).Good := Sample.mixed_good (by decide) (by decide) (by decide)
    (by decide) (by decide)
  let on : SetOrder Unit (Fin 3) := ⟨fun _ s => (List.finRange 3).filter (· ∈ s),
    fun _ s => (List.nodup_finRange 3).filter _, fun _ s a => by simp⟩
  refine ⟨_, Sample.mixed_reachable g Sample.order ∅ ∅ rfl rfl, ⟨?_, ?_, ?_⟩, on, ?_⟩
  · have key : ∀ x y, Path (Sample.mixed (n := 3) {(2, 1), (1, 0)} ∅ ∅).mixed.dir x y → y < x := by
      intro x y h
      induction h with
      | single h => revert h; unfold AG.mixed; revert x; rename_i b; revert b; decide
      | tail _ h ih =>
        refine lt_trans ?_ ih
        rename_i b c hx
        revert h; clear ih hx; unfold AG.mixed; revert b c; decide
    intro v h
    exact lt_irrefl _ (key v v h)
  · intro u v h; simp [AG.mixed, Sample.mixed] at h
  · intro u v w h; simp [AG.mixed, Sample.mixed] at h
  · intro o
    obtain ⟨l, h1, h2, h3⟩ := AG.pairwiseMarkov_spec g on o
    have hmem : ∃ S, (0, 2, S) ∈ l := by
      have hadj : ¬ (Sample.mixed (n := 3) {(2, 1), (1, 0)} ∅ ∅).mixed.Adj 0 2 := by
        change ¬ (_ ∨ _ ∨ _ ∨ _); unfold AG.mixed; decide
      obtain ⟨S, hS | hS⟩ := h2 0 (by simp [Sample.mixed]) 2 (by simp [Sample.mixed]) (by decide) hadj
      · exact ⟨S, hS⟩
      · have := (h3 _ _ _ hS).2.2.2.2.2
        exact absurd this (by decide)
    obtain ⟨S, hS⟩ := hmem
    exact ⟨l, h1, 0, 2, S, hS, ((h3 _ _ _ hS).2.2.2.2.1 2).2
      (Or.inl (.tail (b := 1) (.single (by unfold AG.mixed; decide)) (by unfold AG.mixed; decide)))⟩

/-- What holds of C43: `pairwise_markov_statements()` terminates; there is a statement for every pair of different
non-adjacent nodes; and in a maximal ancestral graph without undirected edges, every statement `(i, j, S)` where `j` is not
an ancestor of `i` has `i, j` not in `S` and `i`, `j` are m-separated given `S`. Missing: undirected edges and the order of
the pair, where the code is wrong. -/
theorem C43_pairwise_markov_partial (A : AG α) (h : AG.Reachable A) (on : SetOrder Unit α) (o : SetOrder (α × Finset α) α) :
    ∃ l, A.pairwiseMarkov on o = some l ∧
      (∀ i ∈ A.nodes, ∀ j ∈ A.nodes, i ≠ j → ¬ A.mixed.Adj i j → ∃ S, (i, j, S) ∈ l ∨ (j, i, S) ∈ l) ∧
      (∀ i j S, (i, j, S) ∈ l → i ∈ A.nodes ∧ j ∈ A.nodes ∧ i ≠ j ∧ ¬ A.mixed.Adj i j) ∧
      (A.mixed.Ancestral → A.mixed.Maximal {v | v ∈ A.nodes} → A.undirected = ∅ → ∀ i j S, (i, j, S) ∈ l →
        ¬ Path A.mixed.dir j i → i ∉ S ∧ j ∉ S ∧ A.mixed.MSep {i} {j} {x | x ∈ S}) := by
  obtain ⟨l, h1, h2, h3⟩ := AG.pairwiseMarkov_spec h.good on o
  refine ⟨l, h1, h2, fun i j S hS => ?_, fun hA hM hu i j S hS hji => ?_⟩
  · obtain ⟨k1, k2, k3, k4, -⟩ := h3 i j S hS
    exact ⟨k1, k2, k3, k4⟩
  · obtain ⟨k1, k2, k3, k4, k5, -⟩ := h3 i j S hS
    have hi : i ∉ S := by
      rw [k5]; rintro (k | k)
      · exact hA.acyclic i k
      · exact k.2.1 rfl
    have hj : j ∉ S := by
      rw [k5]; rintro (k | k)
      · exact hji k
      · exact k.2.2 rfl
    refine ⟨hi, hj, AG.msep_ancestors h.good hM hu k1 k2 k3 k4 fun x => ?_⟩
    change x ∈ S ↔ _
    constructor
    · intro hx
      refine ⟨fun e => hi (e ▸ hx), fun e => hj (e ▸ hx), ?_⟩
      exact ((k5 x).1 hx).imp_right And.left
    · rintro ⟨n1, n2, k | k⟩
      · exact (k5 x).2 (Or.inl k)
      · exact (k5 x).2 (Or.inr ⟨k, n1, n2⟩)

/-- `0 → 1 ↔ 2` meets the hypotheses, and 0, 2 are not adjacent. -/
example : ∃ A : AG (Fin 3), AG.Reachable A ∧ A.mixed.Ancestral ∧ A.mixed.Maximal {v | v ∈ A.nodes} ∧ A.undirected = ∅ ∧
    ¬ A.mixed.Adj 0 2 := by
  have g : (Sample.mixed (n := 3) {(0, 1)} {{1, 2}} ∅).Good := Sample.mixed_good (by decide) (by decide) (by decide)
    (by decide) (by decide)
  refine ⟨_, Sample.mixed_reachable g Sample.order {(1, 2)} ∅ (by decide) rfl, ⟨?_, ?_, ?_⟩, ?_, rfl, ?_⟩
  · exact Sample.acyclic_of_lt (by unfold AG.mixed; decide)
  · intro u v h hp
    obtain ⟨c, hc, -⟩ := TransGen.head'_iff.1 hp
    clear hp; revert u v c; unfold AG.mixed; decide
  · intro u v w h; simp [AG.mixed, Sample.mixed] at h
  · rw [g.maximal_iff]
    rintro i - j - - - ⟨v, w, h1, h2, -⟩
    have : ∃ c, (Sample.mixed (n := 3) {(0, 1)} {{1, 2}} ∅).mixed.dir v c := by
      rcases h2 with h2 | h2 <;>
      · obtain ⟨c, hc, -⟩ := TransGen.head'_iff.1 h2
        exact ⟨c, hc⟩
    obtain ⟨c, hc⟩ := this
    clear h2
    revert i v c; change ∀ i v, (_ ∨ _) → _; unfold AG.mixed; decide
  · change ¬ (_ ∨ _ ∨ _ ∨ _); unfold AG.mixed; decide

end Props
