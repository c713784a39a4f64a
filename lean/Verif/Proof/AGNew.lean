import Verif.Proof.AGSort

/-! # Constructor and histories of `AncestralGraph` -/

namespace Model.AG

universe u
variable {α : Type u} [DecidableEq α]
open Relation Spec

/-- Consistent objects with the same edge sets are equal. -/
theorem Consistent.ext {A B : AG α} (hA : A.Consistent) (hB : B.Consistent) (h1 : A.nodes = B.nodes)
    (h2 : A.directed = B.directed) (h3 : A.bidirected = B.bidirected) (h4 : A.undirected = B.undirected) : A = B := by
  refine AG.ext h1 h2 h3 h4 ?_ ?_ ?_ ?_ ?_ <;> funext k <;> ext x
  · rw [hA.neighbors_iff, hB.neighbors_iff, h4]
  · rw [hA.spouses_iff, hB.spouses_iff, h3]
  · rw [hA.parents_iff, hB.parents_iff, h2]
  · rw [hA.children_iff, hB.children_iff, h2]
  · rw [hA.adjacent_iff, hB.adjacent_iff, h2, h3, h4]

/-- Edgewise inclusion. -/
structure Sub (A T : AG α) : Prop where
  dir : A.directed ⊆ T.directed
  bi : A.bidirected ⊆ T.bidirected
  un : A.undirected ⊆ T.undirected

theorem addDirectedRaw_ok {A T : AG α} (hA : A.Good) (hT : T.Good) (h : Sub A T) {i j : α} (hij : (i, j) ∈ T.directed) :
    (A.addDirectedRaw i j).2 = none := by
  unfold addDirectedRaw
  split_ifs with c1 c2 c3
  · rfl
  · obtain ⟨k, hk⟩ := c2
    rw [hA.1.neighbors_iff] at hk
    have := h.un hk
    rw [Finset.pair_comm] at this
    exact absurd hij (hT.2.tails j k i this).1
  · rw [hA.1.adjacent_iff] at c3
    rcases c3 with c | c | c | c
    · exact absurd c c1
    · exact absurd (h.dir c) (hT.2.dir_dir _ _ hij)
    · exact absurd (h.bi c) (hT.2.dir_bi _ _ hij)
    · exact absurd (h.un c) (hT.2.dir_un _ _ hij)
  · rfl

theorem addBidirectedRaw_ok {A T : AG α} (hA : A.Good) (hT : T.Good) (h : Sub A T) {i j : α}
    (hij : ({i, j} : Finset α) ∈ T.bidirected) : (A.addBidirectedRaw i j).2 = none := by
  have hji : ({j, i} : Finset α) ∈ T.bidirected := by rwa [Finset.pair_comm]
  unfold addBidirectedRaw
  split_ifs with c1 c2 c2' c3
  · rfl
  · obtain ⟨k, hk⟩ := c2
    rw [hA.1.neighbors_iff, Finset.pair_comm] at hk
    exact absurd hji (hT.2.tails i k j (h.un hk)).2
  · obtain ⟨k, hk⟩ := c2'
    rw [hA.1.neighbors_iff, Finset.pair_comm] at hk
    exact absurd hij (hT.2.tails j k i (h.un hk)).2
  · rw [hA.1.adjacent_iff] at c3
    rcases c3 with c | c | c | c
    · exact absurd hij (hT.2.dir_bi _ _ (h.dir c))
    · exact absurd hji (hT.2.dir_bi _ _ (h.dir c))
    · exact absurd c c1
    · exact absurd (h.un c) (hT.2.bi_un _ hij)
  · rfl

theorem addUndirected_ok {A T : AG α} (hA : A.Good) (hT : T.Good) (h : Sub A T) {i j : α}
    (hij : ({i, j} : Finset α) ∈ T.undirected) : (A.addUndirected i j).2 = none := by
  have hji : ({j, i} : Finset α) ∈ T.undirected := by rwa [Finset.pair_comm]
  unfold addUndirected
  split_ifs with c1 c2 c3 c4 c5 c6
  · rfl
  · obtain ⟨k, hk⟩ := c2
    rw [hA.1.parents_iff] at hk
    exact absurd (h.dir hk) (hT.2.tails i j k hij).1
  · obtain ⟨k, hk⟩ := c3
    rw [hA.1.spouses_iff] at hk
    exact absurd (h.bi hk) (hT.2.tails i j k hij).2
  · obtain ⟨k, hk⟩ := c4
    rw [hA.1.parents_iff] at hk
    exact absurd (h.dir hk) (hT.2.tails j i k hji).1
  · obtain ⟨k, hk⟩ := c5
    rw [hA.1.spouses_iff] at hk
    exact absurd (h.bi hk) (hT.2.tails j i k hji).2
  · rw [hA.1.adjacent_iff] at c6
    rcases c6 with c | c | c | c
    · exact absurd hij (hT.2.dir_un _ _ (h.dir c))
    · exact absurd hji (hT.2.dir_un _ _ (h.dir c))
    · exact absurd hij (hT.2.bi_un _ (h.bi c))
    · exact absurd c c1
  · rfl

omit [DecidableEq α] in
/-- Loop rule for `forEach`: an invariant of every call. -/
theorem forEach_inv {β : Type u} (I : AG α → Prop) (body : AG α → β → Step α) : ∀ (l : List β) (A : AG α), I A →
    (∀ x ∈ l, ∀ A, I A → I (body A x).1) → I (forEach body l A).1 := by
  intro l
  induction l with
  | nil => intro A h _; exact h
  | cons x l ih =>
    intro A h hb
    have h1 := hb x (by simp) A h
    rw [forEach, Step.andThen]
    cases hr : (body A x).2 with
    | some e => exact h1
    | none => exact ih _ h1 (fun y hy => hb y (by simp [hy]))

omit [DecidableEq α] in
/-- Loop rule for `forEach` without exceptions; the invariant may refer to the elements done. -/
theorem forEach_ok {β : Type u} (I : List β → AG α → Prop) (body : AG α → β → Step α) (l : List β) (A : AG α) (h0 : I [] A)
    (step : ∀ pre x post A, l = pre ++ x :: post → I pre A → (body A x).2 = none ∧ I (pre ++ [x]) (body A x).1) :
    ∃ B, forEach body l A = (B, none) ∧ I l B := by
  suffices H : ∀ (post pre : List β) (A : AG α), l = pre ++ post → I pre A →
      ∃ B, forEach body post A = (B, none) ∧ I l B from H l [] A rfl h0
  intro post
  induction post with
  | nil => intro pre A hl hI; simp at hl; subst hl; exact ⟨A, rfl, hI⟩
  | cons x post ih =>
    intro pre A hl hI
    obtain ⟨h1, h2⟩ := step pre x post A hl hI
    obtain ⟨B, h3, h4⟩ := ih (pre ++ [x]) (body A x).1 (by simp [hl]) h2
    refine ⟨B, ?_, h4⟩
    rw [forEach, Step.andThen, h1]
    exact h3

omit [DecidableEq α] in
theorem andThen_inv {I : AG α → Prop} {r : Step α} {f : AG α → Step α} (h : I r.1) (hf : ∀ A, I A → I (f A).1) :
    I (r.andThen f).1 := by
  unfold Step.andThen
  cases hr : r.2 with
  | some e => exact h
  | none => exact hf _ h

/-- Whatever the constructor builds before returning or raising is a good object. -/
theorem new_good (o : SetOrder (Fin 3) (α × α)) (nodes : Finset α) (d b u : Finset (α × α))
    (hne : ∀ e ∈ d ∪ b ∪ u, e.1 ≠ e.2) : (AG.new o nodes d b u).1.Good := by
  unfold AG.new
  refine andThen_inv (I := Good) (andThen_inv (I := Good) (forEach_inv Good _ _ _ (empty_good nodes) ?_) ?_) ?_
  · intro e he A hA
    rw [o.mem_iff] at he
    exact (addDirectedRaw_spec hA (hne e (by simp [he]))).1
  · intro A hA
    refine forEach_inv Good _ _ _ hA ?_
    intro e he A hA
    rw [o.mem_iff] at he
    exact (addBidirectedRaw_spec hA (hne e (by simp [he]))).1
  · intro A hA
    refine forEach_inv Good _ _ _ hA ?_
    intro e he A hA
    rw [o.mem_iff] at he
    exact (addUndirected_spec hA (hne e (by simp [he]))).1

/-- Constructing a graph from the edge sets of a good one succeeds and gives that one, for all orders. -/
theorem new_ok {T : AG α} (hT : T.Good) (o : SetOrder (Fin 3) (α × α)) (b u : Finset (α × α))
    (hb : b.image (fun e => ({e.1, e.2} : Finset α)) = T.bidirected)
    (hu : u.image (fun e => ({e.1, e.2} : Finset α)) = T.undirected) :
    AG.new o T.nodes T.directed b u = (T, none) := by
  have hb' : ∀ e ∈ b, ({e.1, e.2} : Finset α) ∈ T.bidirected := fun e he => by
    rw [← hb]; exact Finset.mem_image_of_mem _ he
  have hu' : ∀ e ∈ u, ({e.1, e.2} : Finset α) ∈ T.undirected := fun e he => by
    rw [← hu]; exact Finset.mem_image_of_mem _ he
  obtain ⟨A1, h1, g1, n1, d1, b1, u1⟩ := forEach_ok (fun pre A => A.Good ∧ A.nodes = T.nodes ∧
      (∀ e, e ∈ A.directed ↔ e ∈ pre) ∧ A.bidirected = ∅ ∧ A.undirected = ∅) (fun A (e : α × α) => A.addDirectedRaw e.1 e.2)
    (o.ord 0 T.directed) (empty T.nodes) ⟨empty_good _, rfl, by simp [empty], rfl, rfl⟩ (by
      rintro pre ⟨i, j⟩ post A hl ⟨g, n, d, b, u⟩
      have hmem : ∀ e ∈ pre ++ (i, j) :: post, e ∈ T.directed := fun e he => by
        rw [← hl, o.mem_iff] at he; exact he
      have hij := hmem (i, j) (by simp)
      have hs : Sub A T := ⟨fun e he => hmem e (by simp [(d e).1 he]), by simp [b], by simp [u]⟩
      have ok := addDirectedRaw_ok g hT hs hij
      have hne : i ≠ j := by rintro rfl; exact hT.1.dir_ne _ hij
      obtain ⟨k1, k2, -⟩ := addDirectedRaw_spec g hne
      obtain ⟨k2, k3, k4, k5⟩ := k2 ok
      refine ⟨ok, k1, ?_, ?_, k4.trans b, k5.trans u⟩
      · dsimp only
        rw [k3, n]
        have := hT.1.dir_mem _ _ hij
        rw [Finset.insert_eq_of_mem this.1, Finset.insert_eq_of_mem this.2]
      · intro e
        dsimp only
        rw [k2, Finset.mem_insert, d]; simp [or_comm])
  simp only [o.mem_iff] at d1
  have d1' : A1.directed = T.directed := by ext e; exact d1 e
  obtain ⟨A2, h2, g2, n2, d2, b2, u2⟩ := forEach_ok (fun pre A => A.Good ∧ A.nodes = T.nodes ∧
      A.directed = T.directed ∧ (∀ e, e ∈ A.bidirected ↔ ∃ x ∈ pre, e = {x.1, x.2}) ∧ A.undirected = ∅)
    (fun A (e : α × α) => A.addBidirectedRaw e.1 e.2)
    (o.ord 1 b) A1 ⟨g1, n1, d1', by simp [b1], u1⟩ (by
      rintro pre ⟨i, j⟩ post A hl ⟨g, n, d, bb, u⟩
      have hmem : ∀ e ∈ pre ++ (i, j) :: post, ({e.1, e.2} : Finset α) ∈ T.bidirected := fun e he => by
        rw [← hl, o.mem_iff] at he; exact hb' e he
      have hij := hmem (i, j) (by simp)
      have hs : Sub A T := ⟨by rw [d], fun e he => by
        obtain ⟨x, hx, rfl⟩ := (bb e).1 he
        exact hmem x (by simp [hx]), by simp [u]⟩
      have ok := addBidirectedRaw_ok g hT hs hij
      have hne : i ≠ j := hT.1.bi_ne hij
      obtain ⟨k1, k2, -⟩ := addBidirectedRaw_spec g hne
      obtain ⟨k2, k3, k4, k5⟩ := k2 ok
      refine ⟨ok, k1, ?_, k4.trans d, ?_, k5.trans u⟩
      · dsimp only
        rw [k3, n]
        have hm := hT.1.bi_mem _ hij
        rw [Finset.insert_eq_of_mem (hm (by simp) : i ∈ T.nodes), Finset.insert_eq_of_mem (hm (by simp))]
      · intro e
        dsimp only
        rw [k2, Finset.mem_insert, bb]
        simp only [List.mem_append, List.mem_singleton]
        constructor
        · rintro (rfl | ⟨x, hx, rfl⟩)
          · exact ⟨(i, j), Or.inr rfl, rfl⟩
          · exact ⟨x, Or.inl hx, rfl⟩
        · rintro ⟨x, hx | rfl, rfl⟩
          · exact Or.inr ⟨x, hx, rfl⟩
          · exact Or.inl rfl)
  simp only [o.mem_iff] at b2
  have b2' : A2.bidirected = T.bidirected := by
    rw [← hb]; ext e; rw [b2, Finset.mem_image]; simp only [eq_comm]
  obtain ⟨A3, h3, g3, n3, d3, b3, u3⟩ := forEach_ok (fun pre A => A.Good ∧ A.nodes = T.nodes ∧
      A.directed = T.directed ∧ A.bidirected = T.bidirected ∧ (∀ e, e ∈ A.undirected ↔ ∃ x ∈ pre, e = {x.1, x.2}))
    (fun A (e : α × α) => A.addUndirected e.1 e.2)
    (o.ord 2 u) A2 ⟨g2, n2, d2, b2', by simp [u2]⟩ (by
      rintro pre ⟨i, j⟩ post A hl ⟨g, n, d, bb, uu⟩
      have hmem : ∀ e ∈ pre ++ (i, j) :: post, ({e.1, e.2} : Finset α) ∈ T.undirected := fun e he => by
        rw [← hl, o.mem_iff] at he; exact hu' e he
      have hij := hmem (i, j) (by simp)
      have hs : Sub A T := ⟨by rw [d], by rw [bb], fun e he => by
        obtain ⟨x, hx, rfl⟩ := (uu e).1 he
        exact hmem x (by simp [hx])⟩
      have ok := addUndirected_ok g hT hs hij
      have hne : i ≠ j := hT.1.un_ne hij
      obtain ⟨k1, k2, -⟩ := addUndirected_spec g hne
      obtain ⟨k2, k3, k4, k5⟩ := k2 ok
      refine ⟨ok, k1, ?_, k4.trans d, k5.trans bb, ?_⟩
      · dsimp only
        rw [k3, n]
        have hm := hT.1.un_mem _ hij
        rw [Finset.insert_eq_of_mem (hm (by simp) : i ∈ T.nodes), Finset.insert_eq_of_mem (hm (by simp))]
      · intro e
        dsimp only
        rw [k2, Finset.mem_insert, uu]
        simp only [List.mem_append, List.mem_singleton]
        constructor
        · rintro (rfl | ⟨x, hx, rfl⟩)
          · exact ⟨(i, j), Or.inr rfl, rfl⟩
          · exact ⟨x, Or.inl hx, rfl⟩
        · rintro ⟨x, hx | rfl, rfl⟩
          · exact Or.inr ⟨x, hx, rfl⟩
          · exact Or.inl rfl)
  simp only [o.mem_iff] at u3
  have u3' : A3.undirected = T.undirected := by
    rw [← hu]; ext e; rw [u3, Finset.mem_image]; simp only [eq_comm]
  have : A3 = T := g3.1.ext hT.1 n3 d3 b3 u3'
  unfold AG.new
  rw [h1, andThen_none, h2, andThen_none, h3, this]

/-- Everything about `add_directed`. -/
theorem addDirected_spec {A : AG α} (hA : A.Good) (o os : SetOrder (Option α) α) {i j : α} (hij : i ≠ j) :
    ∃ B e, A.addDirected o os i j = some (B, e) ∧ B.Good ∧ B.bidirected = A.bidirected ∧ B.undirected = A.undirected ∧
      ((e = none ∧ B.directed = insert (i, j) A.directed ∧ Acyclic (fun i j => (i, j) ∈ B.directed)) ∨
       ((e = some .neighbor ∨ e = some .adjacent) ∧ B = A ∧ (A.addDirectedRaw i j).2 = e) ∨
       (∃ l, e = some (.cycle l) ∧ B.directed = A.directed.erase (i, j) ∧
         IsClosingWalk (fun a b => (a, b) ∈ insert (i, j) A.directed) l) ∨
       (∃ a b, e = some (.spouse a b) ∧ B.directed = insert (i, j) A.directed ∧ ({b, a} : Finset α) ∈ A.bidirected ∧
         Path (fun i j => (i, j) ∈ B.directed) b a)) := by
  obtain ⟨h1, h2, h3⟩ := addDirectedRaw_spec hA hij
  unfold addDirected
  cases hr : A.addDirectedRaw i j with
  | mk A1 e1 =>
  rw [hr] at h1 h2 h3
  cases e1 with
  | some e =>
    obtain ⟨h4, h5⟩ := h3 e rfl
    dsimp only at h4
    subst h4
    exact ⟨A1, some e, rfl, hA, rfl, rfl, Or.inr (Or.inl ⟨by simpa using h5, rfl, rfl⟩)⟩
  | none =>
    obtain ⟨k1, k2, k3, k4⟩ := h2 rfl
    dsimp only at h1 k1 k2 k3 k4 ⊢
    rcases topologicalSort_cases A1 o os h1.1 with ⟨l, hl, hl'⟩ | ⟨e, he, ⟨l, rfl, hl⟩ | ⟨a, b, rfl, hb, hp⟩⟩
    · rw [hl]
      exact ⟨A1, none, rfl, h1, k3, k4, Or.inl ⟨rfl, k1, DAG.linearExtension_acyclic hl'⟩⟩
    · rw [he]
      obtain ⟨r1, r2, r3, r4, r5, r6⟩ := removeDirected_spec h1 false i j
      have r6' : (A1.removeDirected false i j).2 = none := by
        rw [r6, if_pos (Or.inl (by rw [k1]; simp))]
      refine ⟨(A1.removeDirected false i j).1, some (.cycle l), ?_, r1, r4.trans k3, r5.trans k4,
        Or.inr (Or.inr (Or.inl ⟨l, rfl, ?_, ?_⟩))⟩
      · simp only [Step.andThen, r6']
      · rw [r3, k1, Finset.erase_insert_eq_erase]
      · rw [← k1]; exact hl
    · rw [he]
      exact ⟨A1, some (.spouse a b), rfl, h1, k3, k4, Or.inr (Or.inr (Or.inr ⟨a, b, rfl, k1, by rw [← k3]; exact hb, hp⟩))⟩

/-- `add_bidirected` is `_add_bidirected`. -/
theorem addBidirected_eq {A : AG α} (hA : A.Good) {i j : α} (hij : i ≠ j) : A.addBidirected i j = A.addBidirectedRaw i j := by
  obtain ⟨h1, h2, h3⟩ := addBidirectedRaw_spec hA hij
  unfold addBidirected Step.andThen
  cases hr : A.addBidirectedRaw i j with
  | mk A1 e1 =>
  rw [hr] at h2
  cases e1 with
  | some e => rfl
  | none =>
    obtain ⟨k1, -⟩ := h2 rfl
    dsimp only at k1 ⊢
    have : ({i, j} : Finset α) ∈ A1.bidirected := by rw [k1]; simp
    unfold addBidirectedRaw
    rw [if_pos this]

theorem exec_good {A : AG α} (hA : A.Good) (w : Orders α) (op : Op α) (hop : op.Distinct) :
    ∃ B e, op.exec w A = some (B, e) ∧ B.Good := by
  cases op with
  | addNode v =>
    refine ⟨_, _, rfl, ?_⟩
    obtain ⟨h, hs⟩ := hA
    exact ⟨⟨h.parents_iff, h.children_iff, h.spouses_iff, h.neighbors_iff, h.adjacent_iff, h.dir_ne, h.bi_pair, h.un_pair,
      fun i j hij => ⟨Finset.mem_insert_of_mem (h.dir_mem i j hij).1, Finset.mem_insert_of_mem (h.dir_mem i j hij).2⟩,
      fun e he => (h.bi_mem e he).trans (Finset.subset_insert _ _),
      fun e he => (h.un_mem e he).trans (Finset.subset_insert _ _)⟩,
      ⟨hs.dir_dir, hs.dir_bi, hs.dir_un, hs.bi_un, hs.tails⟩⟩
  | addDirected i j =>
    obtain ⟨B, e, h1, h2, -⟩ := addDirected_spec hA w.children w.spouses (i := i) (j := j) hop
    exact ⟨B, e, h1, h2⟩
  | addBidirected i j =>
    refine ⟨(A.addBidirected i j).1, (A.addBidirected i j).2, rfl, ?_⟩
    rw [addBidirected_eq hA hop]
    exact (addBidirectedRaw_spec hA hop).1
  | addUndirected i j => exact ⟨_, _, rfl, (addUndirected_spec hA hop).1⟩
  | removeDirected ig i j => exact ⟨_, _, rfl, (removeDirected_spec hA ig i j).1⟩
  | removeBidirected ig i j => exact ⟨_, _, rfl, (removeBidirected_spec hA ig i j).1⟩
  | removeUndirected ig i j => exact ⟨_, _, rfl, (removeUndirected_spec hA ig i j).1⟩
  | removeEdge ig i j => exact ⟨_, _, rfl, removeEdge_good hA ig i j⟩
  | removeNode ig v => exact ⟨_, _, rfl, (removeNode_spec hA ig w.adjKey w.del v).1⟩

theorem Reachable.good {A : AG α} (h : Reachable A) : A.Good := by
  induction h with
  | new o nodes d b u A hne h =>
    have := new_good o nodes d b u hne
    rw [h] at this; exact this
  | call A w op A' e _ hop hx ih =>
    obtain ⟨B, e', h1, h2⟩ := exec_good ih w op hop
    rw [h1] at hx
    simp only [Option.some.injEq, Prod.mk.injEq] at hx
    rw [← hx.1]; exact h2

end Model.AG
