import Verif.Proof.MargRelabel
import Verif.Props.Sample

/-! # C64, C83, C84: `marginal_mag` -/

namespace Props

open Model Relation Spec

universe u v
variable {α : Type u} [DecidableEq α] {β : Type v} [DecidableEq β]

/-- C64. For every DAG and every latent set (members that are no nodes included), for all iteration and pop orders:
`marginal_mag(L)` terminates without raising; on sets of observed nodes, disjoint or not, `msep` on the result returns what
`dsep` returns on the DAG. -/
theorem C64_marginal_mag (D : DAG α) (hD : D.Valid) (w : DAG.MargOracle α) (L : Finset α) :
    ∃ A, DAG.marginalMag D w L = some (A, none) ∧ A.nodes = D.nodes \ L ∧
      ∀ (o o' : SepOracle α) (X Y C : Finset α), X ⊆ D.nodes \ L → Y ⊆ D.nodes \ L → C ⊆ D.nodes \ L →
        ∃ r, A.msep o X Y C = some r ∧ DAG.dsep D o' X Y C = some r := by
  obtain ⟨A, h1, h2, h3, h4⟩ := DAG.marginalMag_spec hD w L
  refine ⟨A, h1, h3, fun o o' X Y C hX hY hC => ?_⟩
  obtain ⟨r, h5, h6⟩ := AG.msep_spec h2 o X Y C
  obtain ⟨r', h7, h8⟩ := DAG.dsep_spec hD o' X Y C
  refine ⟨r, h5, ?_⟩
  rw [h7]; congr 1
  have hn := DAG.asMixed_nice hD
  have hL : ∀ {S : Finset α}, S ⊆ D.nodes \ L → ∀ x ∈ S, x ∉ (L : Set α) := by
    intro S hS x hx; have := hS hx; simp at this; simpa using this.2
  have key : r' = false ↔ r = false := by
    rw [h6, h8]
    refine exists_congr fun a => and_congr_right fun ha => exists_congr fun b => and_congr_right fun hb =>
      or_congr_right (and_congr_right fun haC => ?_)
    have := Mixed.marg_msep hn (L := L) (A := {a}) (B := {b}) (C := (C : Set α)) (by simpa using hL hX a ha)
      (by simpa using hL hY b hb) (Set.disjoint_left.2 fun x hx => hL hC x hx) (by simpa using haC)
    rw [DAG.asMixed_msep, dsep_iff, ← h4, Mixed.msep_iff h2.mg_ok] at this
    simp only [Set.mem_singleton_iff, forall_eq] at this
    exact (not_iff_not.1 this).symm
  cases r <;> cases r' <;> simp_all

/-- The latent common cause of the docstring (dag.py:2152-2155). -/
example : ∃ A, DAG.marginalMag (Sample.graph (n := 3) {(0, 2), (0, 1)})
    ⟨Sample.order, Sample.order, Sample.order, Sample.order, Sample.order, fun _ => Sample.sep, Sample.order, fun _ => true,
      fun _ => Sample.order⟩ {0} = some (A, none) ∧ A.nodes = {1, 2} := by
  obtain ⟨A, h1, h2, -⟩ := C64_marginal_mag (Sample.graph (n := 3) {(0, 2), (0, 1)}) (Sample.graph_valid (by decide))
    ⟨Sample.order, Sample.order, Sample.order, Sample.order, Sample.order, fun _ => Sample.sep, Sample.order, fun _ => true,
      fun _ => Sample.order⟩ {0}
  exact ⟨A, h1, by rw [h2]; decide⟩

/-- C83. The graph `marginal_mag(L)` returns: its nodes are the observed ones, its views are consistent, it has no undirected
edges, it is ancestral and maximal. Two observed nodes are adjacent iff no set of other observed nodes d-separates them; the edge
points along ancestry in the DAG, and is bidirected if neither node is an ancestor of the other. -/
theorem C83_edges (D : DAG α) (hD : D.Valid) (w : DAG.MargOracle α) (L : Finset α) :
    ∃ A, DAG.marginalMag D w L = some (A, none) ∧ A.Consistent ∧ A.Simple ∧ A.nodes = D.nodes \ L ∧ A.undirected = ∅ ∧
      A.mixed.Ancestral ∧ A.mixed.Maximal {v | v ∈ A.nodes} ∧
      ∀ i ∈ D.nodes \ L, ∀ j ∈ D.nodes \ L, i ≠ j →
        ((i, j) ∈ A.directed ↔ Path D.E i j ∧
          ∀ S : Finset α, S ⊆ (D.nodes \ {i, j}) \ L → ¬ DSep D.E {i} {j} {x | x ∈ S}) ∧
        ({i, j} ∈ A.bidirected ↔ ¬ Path D.E i j ∧ ¬ Path D.E j i ∧
          ∀ S : Finset α, S ⊆ (D.nodes \ {i, j}) \ L → ¬ DSep D.E {i} {j} {x | x ∈ S}) := by
  obtain ⟨A, h1, h2, h3, h4⟩ := DAG.marginalMag_spec hD w L
  have hn := DAG.asMixed_nice hD
  refine ⟨A, h1, h2.1, h2.2, h3, ?_, ?_, ?_, ?_⟩
  · rw [Finset.eq_empty_iff_forall_notMem]; intro e k
    obtain ⟨i, j, -, rfl⟩ := h2.1.un_pair e k
    have : A.mixed.un i j := k
    rw [h4] at this; exact this
  · rw [h4]; exact (Mixed.marg_nice hn).anc
  · have := AG.hV h2
    rw [h4] at this ⊢
    refine Mixed.marg_maximal hn this (Set.disjoint_left.2 fun x hx => ?_)
    have hx : x ∈ A.nodes := hx
    rw [h3] at hx; simp at hx; simpa using hx.2
  · intro i hi j hj hij
    rw [Finset.mem_sdiff] at hi hj
    have hI := DAG.indL_iff hD hij hi.2 hj.2
    have e1 : (i, j) ∈ A.directed ↔ (D.asMixed.marg L).dir i j := by rw [← h4]; rfl
    have e2 : {i, j} ∈ A.bidirected ↔ (D.asMixed.marg L).bi i j := by rw [← h4]; rfl
    constructor
    · rw [e1]
      exact ⟨fun k => ⟨k.2.2.2, hI.1 k.2.2.1⟩, fun k => ⟨hi.2, hj.2, hI.2 k.2, k.1⟩⟩
    · rw [e2]
      exact ⟨fun k => ⟨k.2.2.2.2.1, k.2.2.2.2.2, hI.1 k.2.2.2.1⟩, fun k => ⟨hi.2, hj.2, hij, hI.2 k.2.2, k.1, k.2.1⟩⟩

/-- A latent common cause becomes a bidirected edge. -/
example : ∃ A, DAG.marginalMag (Sample.graph (n := 3) {(0, 2), (0, 1)})
    ⟨Sample.order, Sample.order, Sample.order, Sample.order, Sample.order, fun _ => Sample.sep, Sample.order, fun _ => true,
      fun _ => Sample.order⟩ {0} = some (A, none) ∧ {1, 2} ∈ A.bidirected := by
  have hv : (Sample.graph (n := 3) {(0, 2), (0, 1)}).Valid := Sample.graph_valid (by decide)
  obtain ⟨A, h1, -, -, -, -, -, -, h2⟩ := C83_edges (Sample.graph (n := 3) {(0, 2), (0, 1)}) hv
    ⟨Sample.order, Sample.order, Sample.order, Sample.order, Sample.order, fun _ => Sample.sep, Sample.order, fun _ => true,
      fun _ => Sample.order⟩ {0}
  refine ⟨A, h1, (h2 1 (by decide) 2 (by decide) (by decide)).2.2 ⟨?_, ?_, ?_⟩⟩
  · intro k
    obtain ⟨z, hz, -⟩ := TransGen.head'_iff.1 k
    revert hz; revert z; change ∀ z, (1, z) ∈ _ → _; decide
  · intro k
    obtain ⟨z, hz, -⟩ := TransGen.head'_iff.1 k
    revert hz; revert z; change ∀ z, (2, z) ∈ _ → _; decide
  · intro S hS hs
    have hS0 : (0 : Fin 3) ∉ S := fun k => by have := hS k; revert this; decide
    refine hs 1 rfl 2 rfl [1, 0, 2] ⟨rfl, rfl, by decide, ?_, ?_⟩
    · intro u v h
      have : ∀ u v : Fin 3, [u, v] <:+: [1, 0, 2] → (u, v) = (1, 0) ∨ (u, v) = (0, 2) := by decide
      rcases this u v h with k | k <;> cases k
      · exact Or.inr (by decide)
      · exact Or.inl (by decide)
    · intro u v w h
      have : ∀ u v w : Fin 3, [u, v, w] <:+: [1, 0, 2] → u = 1 ∧ v = 0 ∧ w = 2 := by decide
      obtain ⟨rfl, rfl, rfl⟩ := this u v w h
      refine ⟨fun k => absurd k.1 (by decide), fun _ => hS0⟩

/-- C83. `marginal_mag(L, new=False)`, which tries all conditioning sets, returns the same object. -/
theorem C83_old (D : DAG α) (hD : D.Valid) (w : DAG.MargOracle α) (oc : SetOrder (Fin 3) (α × α)) (on : SetOrder Unit α)
    (o : SepOracle α) (oa : SetOrder (α × Finset α) α) (oS : SetOrder (α × α) α) (L : Finset α) :
    ∃ A, DAG.marginalMag D w L = some (A, none) ∧ DAG.marginalMagOld D oc on o oa oS L = some (A, none) := by
  obtain ⟨A, h1, h2, h3, h4⟩ := DAG.marginalMag_spec hD w L
  exact ⟨A, h1, DAG.marginalMagOld_spec hD oc on o oa oS h2 h3 h4⟩

example : ∃ A, DAG.marginalMagOld Sample.diamond Sample.order Sample.order Sample.sep Sample.order Sample.order {0, 3} =
    some (A, none) := by
  obtain ⟨A, -, h⟩ := C83_old Sample.diamond Sample.diamond_valid
    ⟨Sample.order, Sample.order, Sample.order, Sample.order, Sample.order, fun _ => Sample.sep, Sample.order, fun _ => true,
      fun _ => Sample.order⟩ Sample.order Sample.order Sample.sep Sample.order Sample.order {0, 3}
  exact ⟨A, h⟩

/-- C84. `marginal_mag(L, relabel=...)` with labels that differ for different observed nodes returns, without raising, a copy
of `marginal_mag(L)`: the nodes are the labels of the observed nodes, and two labels have the edge their nodes have. -/
theorem C84_relabel (D : DAG α) (hD : D.Valid) (w : DAG.MargOracle α) (L : Finset α) (f : α → β)
    (hf : ∀ x ∈ D.nodes \ L, ∀ y ∈ D.nodes \ L, f x = f y → x = y) (o : SetOrder (Fin 3) (β × β)) (up : Unpack α) :
    ∃ A B, DAG.marginalMag D w L = some (A, none) ∧ DAG.margRelabel o f (D.nodes \ L) up A = (B, none) ∧ B.Consistent ∧
      B.nodes = (D.nodes \ L).image f ∧ B.undirected = ∅ ∧
      ∀ i ∈ D.nodes \ L, ∀ j ∈ D.nodes \ L, ((f i, f j) ∈ B.directed ↔ (i, j) ∈ A.directed) ∧
        ({f i, f j} ∈ B.bidirected ↔ {i, j} ∈ A.bidirected) := by
  obtain ⟨A, h1, h2, h3, h4⟩ := DAG.marginalMag_spec hD w L
  rw [← h3] at hf ⊢
  have hf' : Set.InjOn f A.nodes := fun x hx y hy => hf x hx y hy
  exact ⟨A, _, h1, DAG.margRelabel_spec h2 hf' o up, (DAG.imageAG_good h2 hf').1, rfl, rfl, fun i hi j hj =>
    ⟨DAG.imageAG_dir h2 hf' hi hj, DAG.imageAG_bi h2 hf' hi hj⟩⟩

/-- C84. `relabel='default'` numbers the observed nodes `0, …, n - 1` (the docstring says from `1`) in increasing order. -/
theorem C84_default [LinearOrder α] (obs : Finset α) :
    (∀ x ∈ obs, ∀ y ∈ obs, (DAG.defaultLabel obs x < DAG.defaultLabel obs y ↔ x < y)) ∧
      (∀ x ∈ obs, ∀ y ∈ obs, DAG.defaultLabel obs x = DAG.defaultLabel obs y → x = y) ∧
      obs.image (DAG.defaultLabel obs) = Finset.range obs.card :=
  ⟨fun _ hx _ hy => DAG.defaultLabel_lt obs hx hy, fun _ hx _ hy => DAG.defaultLabel_inj obs hx hy,
    DAG.defaultLabel_image obs⟩

example (up : Unpack (Fin 3)) : ∃ A B, DAG.marginalMag (Sample.graph (n := 3) {(0, 2), (0, 1)})
    ⟨Sample.order, Sample.order, Sample.order, Sample.order, Sample.order, fun _ => Sample.sep, Sample.order, fun _ => true,
      fun _ => Sample.order⟩ {0} = some (A, none) ∧
    DAG.margRelabel Sample.order (DAG.defaultLabel ((Sample.graph (n := 3) {(0, 2), (0, 1)}).nodes \ {0}))
      ((Sample.graph (n := 3) {(0, 2), (0, 1)}).nodes \ {0}) up A = (B, none) := by
  obtain ⟨A, B, h1, h2, -⟩ := C84_relabel (Sample.graph (n := 3) {(0, 2), (0, 1)}) (Sample.graph_valid (by decide))
    ⟨Sample.order, Sample.order, Sample.order, Sample.order, Sample.order, fun _ => Sample.sep, Sample.order, fun _ => true,
      fun _ => Sample.order⟩ {0} (DAG.defaultLabel ((Sample.graph (n := 3) {(0, 2), (0, 1)}).nodes \ {0}))
    (C84_default _).2.1 Sample.order up
  exact ⟨A, B, h1, h2⟩

end Props
