import Verif.Proof.Complete
import Verif.Proof.Queries
import Verif.Model.ToDag

/-! # `remove_node` and `to_dag` -/

namespace Model.PDAG

open Spec
universe u
variable {α : Type u} [DecidableEq α]

theorem removeEach_spec (v : α) : ∀ (l : List α) (d : α → Finset α), l.Nodup → (∀ x ∈ l, v ∈ d x) →
    ∃ d', removeEach v l d = .ok d' ∧ ∀ x y, y ∈ d' x ↔ y ∈ d x ∧ ¬ (x ∈ l ∧ y = v) := by
  intro l
  induction l with
  | nil => intro d _ _; exact ⟨d, rfl, by simp⟩
  | cons a l ih =>
    intro d hnd hl
    rw [List.nodup_cons] at hnd
    obtain ⟨d', h1, h2⟩ := ih (Function.update d a ((d a).erase v)) hnd.2 (by
      intro x hx
      have : x ≠ a := by rintro rfl; exact hnd.1 hx
      rw [Function.update_of_ne this]; exact hl x (List.mem_cons_of_mem _ hx))
    refine ⟨d', ?_, ?_⟩
    · unfold removeEach; rw [remove_ok (hl a List.mem_cons_self)]; exact h1
    · intro x y
      rw [h2, List.mem_cons]
      by_cases hx : x = a
      · subst hx
        rw [Function.update_self, Finset.mem_erase]
        have := hnd.1
        tauto
      · rw [Function.update_of_ne hx]; simp [hx]

/-- `remove_node` leaves the induced graph on the other nodes. -/
theorem removeNode_spec {P : PDAG α} (hP : P.Consistent) (hS : P.Simple) (o : SetOrder (Fin 3) α) {v : α}
    (hv : v ∈ P.nodes) :
    ∃ Q, P.removeNode o v = .ok Q ∧ Q.Consistent ∧ Q.Simple ∧ Q.nodes = P.nodes.erase v ∧ Q.known = P.known ∧
      (∀ i j, (i, j) ∈ Q.arcs ↔ (i, j) ∈ P.arcs ∧ i ≠ v ∧ j ≠ v) ∧
      (∀ e, e ∈ Q.edges ↔ e ∈ P.edges ∧ v ∉ e) := by
  obtain ⟨pa, a1, a2⟩ := removeEach_spec v (o.ord 0 (P.children v)) P.parents (o.nodup _ _) (by
    intro x hx
    rw [o.mem_iff, hP.children_iff] at hx
    exact (hP.parents_iff _ _).2 hx)
  obtain ⟨n1, b1, b2⟩ := removeEach_spec v (o.ord 0 (P.children v)) P.neighbors (o.nodup _ _) (by
    intro x hx
    rw [o.mem_iff, hP.children_iff] at hx
    exact (hP.neighbors_iff _ _).2 (Or.inl hx))
  simp only [o.mem_iff, hP.children_iff] at a2 b2
  have hpa : ∀ x, x ∈ pa v ↔ (x, v) ∈ P.arcs := by
    intro x
    rw [a2, hP.parents_iff]
    exact ⟨fun h => h.1, fun h => ⟨h, fun h' => hS.one_arc _ _ h'.1 h'.1⟩⟩
  obtain ⟨ch, c1, c2⟩ := removeEach_spec v (o.ord 1 (pa v)) P.children (o.nodup _ _) (by
    intro x hx
    rw [o.mem_iff, hpa] at hx
    exact (hP.children_iff _ _).2 hx)
  obtain ⟨n2, d1, d2⟩ := removeEach_spec v (o.ord 1 (pa v)) n1 (o.nodup _ _) (by
    intro x hx
    rw [o.mem_iff, hpa] at hx
    rw [b2, hP.neighbors_iff]
    exact ⟨Or.inr (Or.inl hx), fun h => hS.one_arc _ _ h.1 hx⟩)
  simp only [o.mem_iff, hpa] at c2 d2
  obtain ⟨un, e1, e2⟩ := removeEach_spec v (o.ord 2 (P.undirected v)) P.undirected (o.nodup _ _) (by
    intro x hx
    rw [o.mem_iff, hP.undirected_iff] at hx
    rw [hP.undirected_iff, Finset.pair_comm]; exact hx)
  obtain ⟨n3, f1, f2⟩ := removeEach_spec v (o.ord 2 (P.undirected v)) n2 (o.nodup _ _) (by
    intro x hx
    rw [o.mem_iff, hP.undirected_iff] at hx
    rw [d2, b2, hP.neighbors_iff]
    refine ⟨⟨Or.inr (Or.inr (by rw [Finset.pair_comm]; exact hx)), fun h => ?_⟩, fun h => ?_⟩
    · exact hS.no_edge _ _ h.1 (by rw [Finset.pair_comm]; exact hx)
    · exact hS.no_edge _ _ h.1 hx)
  simp only [o.mem_iff, hP.undirected_iff] at e2 f2
  have hedge : ∀ {i j}, i ∈ ({i, j} : Finset α) ∧ j ∈ ({i, j} : Finset α) := by intro i j; simp
  unfold removeNode
  rw [remove_ok hv, a1, b1]
  simp only [bind, Except.bind, c1, d1, e1, f1]
  refine ⟨_, rfl, ⟨?_, ?_, ?_, ?_, ?_, ?_, ?_⟩, ⟨?_, ?_⟩, rfl, rfl, ?_, ?_⟩
  · intro i j
    rw [Finset.mem_filter]
    by_cases hj : j = v
    · subst hj; simp
    · dsimp only; rw [Function.update_of_ne hj, a2, hP.parents_iff]
      constructor
      · rintro ⟨h1, h2⟩
        refine ⟨h1, ?_, hj⟩
        rintro rfl; exact h2 ⟨h1, rfl⟩
      · rintro ⟨h1, h2, _⟩; exact ⟨h1, fun h => h2 h.2⟩
  · intro i j
    rw [Finset.mem_filter]
    by_cases hi : i = v
    · subst hi; simp
    · dsimp only; rw [Function.update_of_ne hi, c2, hP.children_iff]
      constructor
      · rintro ⟨h1, h2⟩
        refine ⟨h1, hi, ?_⟩
        rintro rfl; exact h2 ⟨h1, rfl⟩
      · rintro ⟨h1, _, h2⟩; exact ⟨h1, fun h => h2 h.2⟩
  · intro i j
    rw [Finset.mem_filter]
    by_cases hj : j = v
    · subst hj; simp
    · dsimp only; rw [Function.update_of_ne hj, e2]
      constructor
      · rintro ⟨h1, h2⟩
        refine ⟨h1, ?_⟩
        intro h
        simp only [Finset.mem_insert, Finset.mem_singleton] at h
        rcases h with rfl | rfl
        · exact h2 ⟨by rw [Finset.pair_comm]; exact h1, rfl⟩
        · exact hj rfl
      · rintro ⟨h1, h2⟩
        refine ⟨h1, ?_⟩
        rintro ⟨_, rfl⟩; exact h2 (by simp)
  · intro i j
    simp only [Finset.mem_filter]
    by_cases hj : j = v
    · subst hj; simp
    · rw [Function.update_of_ne hj, f2, d2, b2, hP.neighbors_iff]
      have hp : ({j, i} : Finset α) = {i, j} := Finset.pair_comm j i
      by_cases hi : i = v
      · subst hi
        rw [hp]; simp; tauto
      · have h1 : v ∉ ({i, j} : Finset α) := by simp [Ne.symm hi, Ne.symm hj]
        simp [hi, hj, h1]
  · intro e he; exact hP.edge_pair e (Finset.mem_filter.1 he).1
  · intro i j h
    rw [Finset.mem_filter] at h
    have := hP.arc_mem _ _ h.1
    simp only [Finset.mem_erase]
    exact ⟨⟨h.2.1, this.1⟩, h.2.2, this.2⟩
  · intro e he x hx
    rw [Finset.mem_filter] at he
    refine Finset.mem_erase.2 ⟨?_, hP.edge_mem e he.1 hx⟩
    rintro rfl; exact he.2 hx
  · intro i j h h'
    exact hS.one_arc _ _ (Finset.mem_filter.1 h).1 (Finset.mem_filter.1 h').1
  · intro i j h h'
    exact hS.no_edge _ _ (Finset.mem_filter.1 h).1 (Finset.mem_filter.1 h').1
  · intro i j; rw [Finset.mem_filter]
  · intro e; rw [Finset.mem_filter]

theorem image_unpack {P : PDAG α} (hP : P.Consistent) (up : Unpack α) :
    (∀ e ∈ P.edges.image up.fn, e.1 ≠ e.2) ∧
      (P.edges.image up.fn).image (fun e => ({e.1, e.2} : Finset α)) = P.edges := by
  have key : ∀ e ∈ P.edges, (up.fn e).1 ≠ (up.fn e).2 ∧ ({(up.fn e).1, (up.fn e).2} : Finset α) = e := by
    intro e he
    obtain ⟨i, j, hij, rfl⟩ := hP.edge_pair e he
    rcases up.spec i j hij with h | h <;> rw [h]
    · exact ⟨hij, rfl⟩
    · exact ⟨hij.symm, Finset.pair_comm _ _⟩
  constructor
  · intro e he
    obtain ⟨s, hs, rfl⟩ := Finset.mem_image.1 he
    exact (key s hs).1
  · ext e
    simp only [Finset.mem_image, exists_exists_and_eq_and]
    constructor
    · rintro ⟨s, hs, rfl⟩; rw [(key s hs).2]; exact hs
    · intro he; exact ⟨e, he, (key e he).2⟩

theorem copy_spec {P : PDAG α} (hP : P.Consistent) (oa oe : SetOrder Unit (α × α)) (up : Unpack α) :
    (P.copy oa oe up).Consistent ∧ (P.copy oa oe up).nodes = P.nodes ∧ (P.copy oa oe up).arcs = P.arcs ∧
      (P.copy oa oe up).edges = P.edges ∧ (P.copy oa oe up).known = P.known := by
  obtain ⟨k1, k2⟩ := image_unpack hP up
  obtain ⟨h1, h2, h3, h4, h5⟩ := new_spec oa oe P.nodes P.arcs (P.edges.image up.fn) P.known k1
  refine ⟨h1, ?_, h2, by rw [← k2]; exact h3, h4⟩
  unfold copy
  ext v; rw [h5]
  constructor
  · rintro (h | ⟨a, ha, h⟩ | ⟨a, ha, h⟩)
    · exact h
    · have := hP.arc_mem _ _ ha
      rcases h with rfl | rfl
      · exact this.1
      · exact this.2
    · have : ({a.1, a.2} : Finset α) ∈ P.edges := by
        rw [← k2]; exact Finset.mem_image_of_mem _ ha
      have := hP.edge_mem _ this
      apply this
      rcases h with rfl | rfl <;> simp
  · exact Or.inl

theorem copy_simple {P : PDAG α} (hP : P.Consistent) (hS : P.Simple) (oa oe : SetOrder Unit (α × α)) (up : Unpack α) :
    (P.copy oa oe up).Simple := by
  obtain ⟨_, _, h2, h3, _⟩ := copy_spec hP oa oe up
  exact ⟨by rw [h2]; exact hS.one_arc, by rw [h2, h3]; exact hS.no_edge⟩

/-- Invariant of the loop: `P` is what is left of `P₀`, `A` are the arcs collected. -/
structure DagInv (P₀ P : PDAG α) (A : Finset (α × α)) : Prop where
  cons : P.Consistent
  simp : P.Simple
  arcs : ∀ i j, (i, j) ∈ P.arcs ↔ (i, j) ∈ P₀.arcs ∧ i ∈ P.nodes ∧ j ∈ P.nodes
  edges : ∀ i j, {i, j} ∈ P.edges ↔ {i, j} ∈ P₀.edges ∧ i ∈ P.nodes ∧ j ∈ P.nodes
  rank : ∃ (n : ℕ) (r : α → ℕ), (∀ x y, (x, y) ∈ A → r y < r x) ∧ ∀ v, (v ∈ P.nodes → r v = n) ∧ r v ≤ n
  gone : ∀ x y, (x, y) ∈ A → y ∉ P.nodes
  sub : ∀ x y, (x, y) ∈ A → P₀.hasEdgeOrArc x y = true
  cover : ∀ x y, P₀.hasEdgeOrArc x y = true → (x ∈ P.nodes ∧ y ∈ P.nodes) ∨ (x, y) ∈ A ∨ (y, x) ∈ A
  keep : ∀ x y, (x, y) ∈ P₀.arcs → (x ∈ P.nodes ∧ y ∈ P.nodes) ∨ (x, y) ∈ A
  vstr : ∀ a c b, (a, c) ∈ A → (b, c) ∈ A → a ≠ b → P₀.hasEdgeOrArc a b = false → (a, c) ∈ P₀.arcs

theorem DagInv.acyclic {P₀ P : PDAG α} {A : Finset (α × α)} (h : DagInv P₀ P A) : Acyclic fun i j => (i, j) ∈ A := by
  obtain ⟨n, r, hr, _⟩ := h.rank
  intro v hv
  have : ∀ a b, Path (fun i j => (i, j) ∈ A) a b → r b < r a := by
    intro a b hab
    induction hab with
    | single h => exact hr _ _ h
    | tail _ h ih => exact lt_trans (hr _ _ h) ih
  exact lt_irrefl _ (this v v hv)

theorem DagInv.adj {P₀ P : PDAG α} {A : Finset (α × α)} (h : DagInv P₀ P A) (x y : α) :
    P.hasEdgeOrArc x y = true ↔ P₀.hasEdgeOrArc x y = true ∧ x ∈ P.nodes ∧ y ∈ P.nodes := by
  rw [adj_true, adj_true, h.arcs, h.arcs, h.edges]; tauto

theorem nbr_iff {P : PDAG α} (hP : P.Consistent) (x y : α) : x ∈ P.neighbors y ↔ P.hasEdgeOrArc x y = true := by
  rw [hP.neighbors_iff, adj_true]

theorem adj_nodes {P : PDAG α} (hP : P.Consistent) {x y : α} (h : P.hasEdgeOrArc x y = true) :
    x ∈ P.nodes ∧ y ∈ P.nodes := by
  rcases adj_true.1 h with h | h | h
  · exact hP.arc_mem _ _ h
  · exact (hP.arc_mem _ _ h).symm
  · exact ⟨hP.edge_mem _ h (by simp), hP.edge_mem _ h (by simp)⟩

theorem adj_ne {P : PDAG α} (hP : P.Consistent) (hS : P.Simple) {x y : α} (h : P.hasEdgeOrArc x y = true) : x ≠ y := by
  rcases adj_true.1 h with h | h | h
  · exact hS.ne h
  · exact (hS.ne h).symm
  · exact hP.edge_ne h

/-- Removing a possible sink keeps the invariant. -/
theorem DagInv.step {P₀ P Q : PDAG α} {A : Finset (α × α)} (h : DagInv P₀ P A) {s : α} (hs : s ∈ P.nodes)
    (hsink : P.canSink s = true) (hQ : Q.Consistent) (hQS : Q.Simple) (hn : Q.nodes = P.nodes.erase s)
    (ha : ∀ i j, (i, j) ∈ Q.arcs ↔ (i, j) ∈ P.arcs ∧ i ≠ s ∧ j ≠ s) (he : ∀ e, e ∈ Q.edges ↔ e ∈ P.edges ∧ s ∉ e) :
    DagInv P₀ Q (A ∪ (P.neighbors s).image fun x => (x, s)) := by
  have hA : ∀ x y, (x, y) ∈ A ∪ (P.neighbors s).image (fun x => (x, s)) ↔
      (x, y) ∈ A ∨ (P.hasEdgeOrArc x s = true ∧ y = s) := by
    intro x y
    rw [Finset.mem_union, Finset.mem_image]
    refine or_congr Iff.rfl ?_
    constructor
    · rintro ⟨z, hz, h1⟩
      obtain ⟨rfl, rfl⟩ := Prod.mk.inj h1
      exact ⟨(nbr_iff h.cons _ _).1 hz, rfl⟩
    · rintro ⟨h1, rfl⟩; exact ⟨x, (nbr_iff h.cons _ _).2 h1, rfl⟩
  unfold canSink at hsink
  simp only [Bool.and_eq_true, decide_eq_true_eq, Finset.card_eq_zero] at hsink
  obtain ⟨hs1, hs2⟩ := hsink
  have hnoch : ∀ x, (s, x) ∉ P.arcs := by
    intro x hx
    have := (h.cons.children_iff _ _).2 hx
    rw [hs1] at this; simp at this
  have hQn : ∀ x, x ∈ Q.nodes ↔ x ∈ P.nodes ∧ x ≠ s := by intro x; rw [hn, Finset.mem_erase]; tauto
  refine ⟨hQ, hQS, ?_, ?_, ?_, ?_, ?_, ?_, ?_, ?_⟩
  · intro i j; rw [ha, h.arcs, hQn, hQn]; tauto
  · intro i j; rw [he, h.edges, hQn, hQn]
    have : s ∉ ({i, j} : Finset α) ↔ i ≠ s ∧ j ≠ s := by
      simp only [Finset.mem_insert, Finset.mem_singleton, not_or, ne_eq, eq_comm]
    rw [this]; tauto
  · obtain ⟨n, r, h1, h2⟩ := h.rank
    refine ⟨n + 1, fun v => if v ∈ Q.nodes then n + 1 else r v, ?_, ?_⟩
    · intro x y hxy
      have hyQ : y ∉ Q.nodes := by
        rcases (hA x y).1 hxy with h3 | ⟨_, rfl⟩
        · intro h4; exact h.gone _ _ h3 ((hQn y).1 h4).1
        · intro h4; exact ((hQn _).1 h4).2 rfl
      simp only [if_neg hyQ]
      rcases (hA x y).1 hxy with h3 | ⟨h3, rfl⟩
      · have h4 := h1 _ _ h3
        split_ifs
        · have := (h2 y).2; omega
        · exact h4
      · have hx : x ∈ Q.nodes := (hQn x).2 ⟨(adj_nodes h.cons h3).1, adj_ne h.cons h.simp h3⟩
        rw [if_pos hx, (h2 y).1 hs]; omega
    · intro v
      refine ⟨fun hv => if_pos hv, ?_⟩
      dsimp only
      split_ifs
      · exact le_rfl
      · have := (h2 v).2; omega
  · intro x y hxy
    rcases (hA x y).1 hxy with h3 | ⟨_, rfl⟩
    · intro h4; exact h.gone _ _ h3 ((hQn y).1 h4).1
    · intro h4; exact ((hQn _).1 h4).2 rfl
  · intro x y hxy
    rcases (hA x y).1 hxy with h3 | ⟨h3, rfl⟩
    · exact h.sub _ _ h3
    · exact ((h.adj _ _).1 h3).1
  · intro x y hxy
    rcases h.cover x y hxy with h3 | h3 | h3
    · have h4 := (h.adj x y).2 ⟨hxy, h3⟩
      by_cases hx : x = s
      · subst hx
        exact Or.inr (Or.inr ((hA _ _).2 (Or.inr ⟨by rw [hasEdgeOrArc_comm]; exact h4, rfl⟩)))
      · by_cases hy : y = s
        · subst hy; exact Or.inr (Or.inl ((hA _ _).2 (Or.inr ⟨h4, rfl⟩)))
        · exact Or.inl ⟨(hQn x).2 ⟨h3.1, hx⟩, (hQn y).2 ⟨h3.2, hy⟩⟩
    · exact Or.inr (Or.inl ((hA _ _).2 (Or.inl h3)))
    · exact Or.inr (Or.inr ((hA _ _).2 (Or.inl h3)))
  · intro x y hxy
    rcases h.keep x y hxy with h3 | h3
    · have h4 : (x, y) ∈ P.arcs := (h.arcs x y).2 ⟨hxy, h3⟩
      have hx : x ≠ s := by rintro rfl; exact hnoch _ h4
      by_cases hy : y = s
      · subst hy; exact Or.inr ((hA _ _).2 (Or.inr ⟨adj_true.2 (Or.inl h4), rfl⟩))
      · exact Or.inl ⟨(hQn x).2 ⟨h3.1, hx⟩, (hQn y).2 ⟨h3.2, hy⟩⟩
    · exact Or.inr ((hA _ _).2 (Or.inl h3))
  · intro a c b hac hbc hab hna
    rcases (hA a c).1 hac with h3 | ⟨h3, rfl⟩
    · rcases (hA b c).1 hbc with h4 | ⟨h4, rfl⟩
      · exact h.vstr a c b h3 h4 hab hna
      · exact absurd hs (h.gone _ _ h3)
    · rcases (hA b c).1 hbc with h4 | ⟨h4, _⟩
      · exact absurd hs (h.gone _ _ h4)
      · rcases adj_true.1 h3 with h5 | h5 | h5
        · exact ((h.arcs _ _).1 h5).1
        · exact absurd h5 (hnoch _)
        · exfalso
          have h6 := hs2 a ((h.cons.undirected_iff _ _).2 h5)
            (Finset.mem_sdiff.2 ⟨(nbr_iff h.cons _ _).2 h4, by simpa using hab.symm⟩)
          rw [nbr_iff h.cons, hasEdgeOrArc_comm] at h6
          rw [((h.adj _ _).1 h6).1] at hna; simp at hna

/-- A node into which an extension of `P₀` points all that is left next to it is a possible sink. -/
theorem DagInv.canSink {P₀ P : PDAG α} {A : Finset (α × α)} (h : DagInv P₀ P A) {F : α → α → Prop}
    (hF : Extends P₀.Arc P₀.Edge F) {s : α} (hadj : ∀ {x}, P.hasEdgeOrArc x s = true → F x s) :
    P.canSink s = true := by
  unfold PDAG.canSink
  simp only [Bool.and_eq_true, decide_eq_true_eq, Finset.card_eq_zero]
  constructor
  · rw [Finset.eq_empty_iff_forall_notMem]
    intro x hx
    rw [h.cons.children_iff] at hx
    have h1 := (h.arcs _ _).1 hx
    exact hF.acyclic.asymm (hF.arcs _ _ h1.1) (hadj (adj_true.2 (Or.inr (Or.inl hx))))
  · intro u hu w hw
    rw [h.cons.undirected_iff] at hu
    rw [Finset.mem_sdiff, Finset.mem_singleton, nbr_iff h.cons] at hw
    rw [nbr_iff h.cons]
    by_contra hc
    have h1 := adj_nodes h.cons hw.1
    have h2 := adj_nodes h.cons (adj_true.2 (Or.inr (Or.inr hu)))
    have hnadj : ¬ Adj F u w := by
      intro h3
      refine hc ((h.adj w u).2 ⟨?_, h1.1, h2.1⟩)
      rw [hasEdgeOrArc_comm, adj_iff]; exact (hF.adj u w).1 h3
    have := (hF.vstr u s w ⟨Ne.symm hw.2, hadj (adj_true.2 (Or.inr (Or.inr hu))), hadj hw.1, hnadj⟩).1
    exact h.simp.no_edge _ _ ((h.arcs _ _).2 ⟨this, h2⟩) hu

/-- In an extension of `P₀`, all that is left points into a node that comes last. -/
theorem DagInv.into_last {P₀ P : PDAG α} {A : Finset (α × α)} (h : DagInv P₀ P A) {F : α → α → Prop}
    (hF : Extends P₀.Arc P₀.Edge F) {f : α → ℕ} {s : α} (hs : s ∈ P.nodes)
    (hmono : ∀ x ∈ P.nodes, ∀ y ∈ P.nodes, F x y → f x < f y) (hmax : ∀ x ∈ P.nodes, f x ≤ f s) {x : α}
    (hx : P.hasEdgeOrArc x s = true) : F x s := by
  have h1 := (h.adj x s).1 hx
  rcases (hF.adj x s).2 (adj_iff.1 h1.1) with h2 | h2
  · exact h2
  · exact absurd (hmono _ hs _ h1.2.1 h2) (not_lt.2 (hmax _ h1.2.1))

/-- An extension of `P₀` restricts to one of what is left, so a possible sink exists. -/
theorem DagInv.sink {P₀ P : PDAG α} {A : Finset (α × α)} (h : DagInv P₀ P A) {F : α → α → Prop}
    (hF : Extends P₀.Arc P₀.Edge F) (hne : P.nodes.Nonempty) : ∃ s ∈ P.nodes, P.canSink s = true := by
  classical
  obtain ⟨f, _, hmono, _⟩ := exists_rank hF.acyclic _ P.nodes rfl
  obtain ⟨s, hs, hmax⟩ := P.nodes.exists_max_image f hne
  exact ⟨s, hs, h.canSink hF fun hx => h.into_last hF hs hmono hmax hx⟩

/-- The loop. `L` are the nodes left over. -/
theorem toDagLoop_spec (o : DagOracle α) (P₀ : PDAG α) : ∀ (c n : ℕ) (P : PDAG α) (A : Finset (α × α)),
    P.nodes.card ≤ c → DagInv P₀ P A →
    ∃ Q A', (toDagLoop o n P A).run = some (.ok A') ∧ DagInv P₀ Q A' ∧
      ((Q.arcs = ∅ ∧ Q.edges = ∅) ∨
        ((∃ x y, Q.hasEdgeOrArc x y = true) ∧ ¬ ∃ F, Extends P₀.Arc P₀.Edge F)) := by
  intro c
  induction c with
  | zero =>
    intro n P A hc h
    have hn : P.nodes = ∅ := Finset.card_eq_zero.1 (by omega)
    have h1 : P.arcs = ∅ := by
      rw [Finset.eq_empty_iff_forall_notMem]; rintro ⟨i, j⟩ hij
      have := (h.cons.arc_mem _ _ hij).1; rw [hn] at this; simp at this
    have h2 : P.edges = ∅ := by
      rw [Finset.eq_empty_iff_forall_notMem]; intro e he
      obtain ⟨i, j, _, rfl⟩ := h.cons.edge_pair e he
      have := h.cons.edge_mem _ he (Finset.mem_insert_self i _); rw [hn] at this; simp at this
    refine ⟨P, A, ?_, h, Or.inl ⟨h1, h2⟩⟩
    rw [toDagLoop]; simp [h1, h2]
  | succ c ih =>
    intro n P A hc h
    by_cases h0 : P.edges.card + P.arcs.card = 0
    · refine ⟨P, A, ?_, h, Or.inl ⟨Finset.card_eq_zero.1 (by omega), Finset.card_eq_zero.1 (by omega)⟩⟩
      rw [toDagLoop, if_pos h0]; rfl
    · have hex : ∃ x y, P.hasEdgeOrArc x y = true := by
        by_cases h1 : P.arcs = ∅
        · have h2 : P.edges.Nonempty := Finset.nonempty_iff_ne_empty.2 (by
            intro h2; rw [h1, h2] at h0; simp at h0)
          obtain ⟨e, he⟩ := h2
          obtain ⟨i, j, _, rfl⟩ := h.cons.edge_pair e he
          exact ⟨i, j, adj_true.2 (Or.inr (Or.inr he))⟩
        · obtain ⟨a, ha⟩ := Finset.nonempty_iff_ne_empty.2 h1
          exact ⟨a.1, a.2, adj_true.2 (Or.inl ha)⟩
      cases hf : (o.nodes.ord n P.nodes).find? P.canSink with
      | none =>
        refine ⟨P, A, ?_, h, Or.inr ⟨hex, ?_⟩⟩
        · rw [toDagLoop, if_neg h0, hf]; rfl
        · rintro ⟨F, hF⟩
          obtain ⟨x, y, hxy⟩ := hex
          obtain ⟨s, hs, hs'⟩ := h.sink hF ⟨x, (adj_nodes h.cons hxy).1⟩
          have := List.find?_eq_none.1 hf s ((o.nodes.mem_iff _ _ _).2 hs)
          exact this hs'
      | some s =>
        have hs : s ∈ P.nodes := (o.nodes.mem_iff _ _ _).1 (List.mem_of_find?_eq_some hf)
        have hs' : P.canSink s = true := List.find?_some hf
        obtain ⟨Q, q1, q2, q3, q4, _, q6, q7⟩ := removeNode_spec h.cons h.simp (o.del n) hs
        obtain ⟨R, A', r1, r2, r3⟩ := ih (n + 1) Q _ (by
          rw [q4, Finset.card_erase_of_mem hs]; have := Finset.card_pos.2 ⟨s, hs⟩; omega)
          (h.step hs hs' q2 q3 q4 q6 q7)
        refine ⟨R, A', ?_, r2, r3⟩
        rw [toDagLoop, if_neg h0, hf]
        simp only [q1]
        exact r1

/-- The invariant holds for the copy with which the loop begins. -/
theorem copy_inv {P : PDAG α} (hP : P.Consistent) (hS : P.Simple) (oa oe : SetOrder Unit (α × α)) (up : Unpack α) :
    DagInv P (P.copy oa oe up) ∅ := by
  obtain ⟨c1, c2, c3, c4, _⟩ := copy_spec hP oa oe up
  refine ⟨c1, copy_simple hP hS _ _ _, ?_, ?_, ?_, by simp, by simp, ?_, ?_, by simp⟩
  · intro i j; rw [c3, c2]
    exact ⟨fun h => ⟨h, hP.arc_mem _ _ h⟩, fun h => h.1⟩
  · intro i j; rw [c4, c2]
    exact ⟨fun h => ⟨h, hP.edge_mem _ h (by simp), hP.edge_mem _ h (by simp)⟩, fun h => h.1⟩
  · exact ⟨0, fun _ => 0, by simp, by simp⟩
  · intro x y h; left; rw [c2]; exact adj_nodes hP h
  · intro x y h; left; rw [c2]; exact hP.arc_mem _ _ h

theorem toDag_spec (o : DagOracle α) {P : PDAG α} (hP : P.Consistent) (hS : P.Simple) :
    ∃ G, (P.toDag o).run = some (.ok G) ∧ G.Valid ∧
      G.nodes = G.arcs.image Prod.fst ∪ G.arcs.image Prod.snd ∧
      (∀ x y, G.E x y → P.hasEdgeOrArc x y = true) ∧
      (Extends P.Arc P.Edge G.E ∨
        ((∃ x y, P.hasEdgeOrArc x y = true ∧ ¬ Adj G.E x y) ∧ ¬ ∃ F, Extends P.Arc P.Edge F)) := by
  have h0 := copy_inv hP hS o.copyArcs o.copyEdges o.unpack
  obtain ⟨Q, A, h1, h2, h3⟩ := toDagLoop_spec o P _ 0 _ ∅ le_rfl h0
  obtain ⟨G, g1, g2, g3, g4⟩ := DAG.new_ok o.sort o.arcs ∅ A h2.acyclic
  have hE : ∀ x y, G.E x y ↔ (x, y) ∈ A := by intro x y; unfold DAG.E; rw [g3]
  refine ⟨G, ?_, g2, by rw [g4, g3]; simp, ?_, ?_⟩
  · unfold toDag
    simp only [ExceptT.run_bind, h1]
    simp [g1]
  · intro x y h; exact h2.sub _ _ ((hE _ _).1 h)
  · rcases h3 with ⟨ha, he⟩ | ⟨⟨x, y, hxy⟩, hno⟩
    · left
      have hgone : ∀ x y, P.hasEdgeOrArc x y = true → ¬ (x ∈ Q.nodes ∧ y ∈ Q.nodes) := by
        intro x y hxy hn
        have := (h2.adj x y).2 ⟨hxy, hn⟩
        rw [adj_true, ha, he] at this; simp at this
      refine ⟨g2.acyclic, ?_, ?_, ?_⟩
      · intro a b
        rw [← adj_iff]
        constructor
        · rintro (h | h)
          · exact h2.sub _ _ ((hE _ _).1 h)
          · rw [hasEdgeOrArc_comm]; exact h2.sub _ _ ((hE _ _).1 h)
        · intro h
          rcases h2.cover a b h with h' | h' | h'
          · exact absurd h' (hgone a b h)
          · exact Or.inl ((hE _ _).2 h')
          · exact Or.inr ((hE _ _).2 h')
      · intro a b h
        exact (hE _ _).2 ((h2.keep a b h).resolve_left (hgone a b (adj_true.2 (Or.inl h))))
      · rintro a c b ⟨hab, hac, hbc, hn⟩
        rw [hE] at hac hbc
        have hn' : ∀ {a b}, ¬ Adj G.E a b → P.hasEdgeOrArc a b = false := by
          intro a b hn
          by_contra h
          rw [Bool.not_eq_false] at h
          rcases h2.cover a b h with h' | h' | h'
          · exact absurd h' (hgone a b h)
          · exact hn (Or.inl ((hE _ _).2 h'))
          · exact hn (Or.inr ((hE _ _).2 h'))
        exact ⟨h2.vstr a c b hac hbc hab (hn' hn), h2.vstr b c a hbc hac hab.symm (hn' fun h => hn (adj_symm h))⟩
    · right
      refine ⟨⟨x, y, ((h2.adj x y).1 hxy).1, ?_⟩, hno⟩
      have hn := ((h2.adj x y).1 hxy).2
      rintro (h | h)
      · exact h2.gone _ _ ((hE _ _).1 h) hn.2
      · exact h2.gone _ _ ((hE _ _).1 h) hn.1

end Model.PDAG
