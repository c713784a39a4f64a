import Verif.Props.CPDAG
import Verif.Props.CoreUtils
import Verif.Proof.PDAGRest
import Verif.Proof.ToDag

/-! # C155-C160: possible parents, `assign_parents`, `cpdag_new(new=True)`, removals from a PDAG, `vstructs` -/

namespace Props

open Model Model.DAG Spec Relation
universe u
variable {α : Type u} [DecidableEq α]

/-- C155. Let a PDAG show the class of a DAG under some intervention targets, i.e. its arcs are the arcs common to all
members and its edges the pairs that occur in both directions (as `cpdag()` and `interventional_cpdag()` return it). Then
`possible_parents(v)` lists exactly the sets that arise as the parents of `v` along undirected edges in some member. -/
theorem C155_possible_parents (G : DAG α) (hG : G.Valid) (T : Set (Set α)) (P : PDAG α) (hP : P.Consistent) (hS : P.Simple)
    (hn : P.nodes = G.nodes) (hR : Represents T G.E (fun i j => (i, j) ∈ P.arcs) (fun i j => {i, j} ∈ P.edges))
    (o : SetOrder Unit α) (v : α) (s : Finset α) :
    s ∈ P.possibleParents o v ↔ ∃ F, EquivalentCut T G.E F ∧ ParentsAre (fun i j => {i, j} ∈ P.edges) F v s := by
  have hsh := PDAG.represents_shows hG hP hS hn hR
  have hB := cutBy_cotrans T
  rw [(C55_possible_parents P hP o v).2]
  simp only [hsh.edges]
  constructor
  · rintro ⟨h1, h2⟩
    obtain ⟨F, f1, f2, f3, f4⟩ := clique_realised hG.acyclic hB (nodes_of_valid hG) h1 h2
    exact ⟨F, ⟨⟨f1, f2⟩, f3⟩, fun i => by simp only [hsh.edges]; exact f4 i⟩
  · rintro ⟨F, hF, hs⟩
    unfold ParentsAre at hs
    simp only [hsh.edges] at hs
    refine ⟨fun i hi => ((hs i).1 hi).1, fun i hi j hj hij => ?_⟩
    have hi' := (hs i).1 hi
    have hj' := (hs j).1 hj
    exact parents_clique hG.acyclic hB hF.1.2 hi'.1 hi'.2 hj'.1 hj'.2 hij

theorem equivalentCut_empty {E F : α → α → Prop} : EquivalentCut ∅ E F ↔ Equivalent E F := by
  constructor
  · exact fun h => h.1
  · intro h; exact ⟨h, fun i j hc => by obtain ⟨_, hI, _⟩ := hc; exact absurd hI (Set.notMem_empty _)⟩

/-- What `cpdag()` returns meets the assumption of C155 without targets. -/
theorem cpdag_represents (G : DAG α) (hG : G.Valid) (oa : SetOrder Unit (α × α)) (o : PDAG.OrientOracle α) :
    ∃ P, (G.cpdag oa o).run = some (.ok P) ∧ P.Consistent ∧ P.Simple ∧ P.nodes = G.nodes ∧
      Represents ∅ G.E (fun i j => (i, j) ∈ P.arcs) (fun i j => {i, j} ∈ P.edges) := by
  obtain ⟨P, h1, h2, h3, h4, _, h6, h7⟩ := C19_cpdag G hG oa o
  refine ⟨P, h1, h2, h3, h4, ?_, ?_⟩
  · intro i j; simp only [equivalentCut_empty]; exact h6 i j
  · intro i j
    simp only [equivalentCut_empty]
    rw [← h7 i j]; unfold PDAG.hasEdge; rw [decide_eq_true_eq]

/-- C155 for the result of `cpdag()`. -/
theorem C155_cpdag (G : DAG α) (hG : G.Valid) (oa : SetOrder Unit (α × α)) (o : PDAG.OrientOracle α) :
    ∃ P, (G.cpdag oa o).run = some (.ok P) ∧ ∀ (o' : SetOrder Unit α) (v : α) (s : Finset α), s ∈ P.possibleParents o' v ↔
      ∃ F, Equivalent G.E F ∧ ∀ i, i ∈ s ↔ P.hasEdge i v = true ∧ F i v := by
  obtain ⟨P, h1, h2, h3, h4, h5⟩ := cpdag_represents G hG oa o
  refine ⟨P, h1, fun o' v s => ?_⟩
  rw [C155_possible_parents G hG ∅ P h2 h3 h4 h5 o' v s]
  simp only [equivalentCut_empty, ParentsAre, PDAG.hasEdge, decide_eq_true_eq]

/-- In the class of `0 → 1 → 2`, node `1` may have no parents or the parent `0`, but not both neighbors. -/
example : ∃ P, (Sample.right.cpdag Sample.order ⟨Sample.order, Sample.order⟩).run = some (.ok P) ∧
    ({0, 2} : Finset (Fin 3)) ∉ P.possibleParents Sample.order 1 ∧ ({0} : Finset (Fin 3)) ∈ P.possibleParents Sample.order 1 := by
  obtain ⟨P, h1, h2, h3, h4, h5⟩ := cpdag_represents Sample.right Sample.right_valid Sample.order ⟨Sample.order, Sample.order⟩
  obtain ⟨P', k1, k2⟩ := C155_cpdag Sample.right Sample.right_valid Sample.order ⟨Sample.order, Sample.order⟩
  rw [h1] at k1
  obtain rfl : P = P' := by injection k1 with k1; injection k1
  have hR : Equivalent Sample.right.E Sample.right.E := ⟨Sample.right_valid.acyclic, SameSkelV.refl _⟩
  have hL : Equivalent Sample.right.E Sample.left.E := ⟨Sample.left_valid.acyclic, Sample.left_right⟩
  have e01 : P.hasEdge 0 1 = true := decide_eq_true ((h5.edges 0 1).2
    ⟨⟨_, equivalentCut_empty.2 hR, by decide⟩, _, equivalentCut_empty.2 hL, by decide⟩)
  refine ⟨P, h1, ?_, ?_⟩
  · rw [k2]
    rintro ⟨F, hF, hs⟩
    have h01 := ((hs 0).1 (by decide)).2
    have h21 := ((hs 2).1 (by decide)).2
    have hv : VStruct F 0 1 2 := ⟨by decide, h01, h21, fun h => by
      have := (hF.2.skel 0 2).2 h
      revert this; unfold Adj; decide⟩
    have := (hF.2.vstr 0 1 2).2 hv
    revert this; unfold VStruct Adj; decide
  · rw [k2]
    refine ⟨_, hR, fun i => ?_⟩
    have hsk : P.hasEdge i 1 = true ∧ Sample.right.E i 1 ↔ i = 0 := by
      constructor
      · rintro ⟨_, h⟩; exact (by decide : ∀ i, Sample.right.E i 1 → i = 0) i h
      · rintro rfl; exact ⟨e01, by decide⟩
    rw [hsk, Finset.mem_singleton]

/-- C156. Let a PDAG show the class of a DAG under some intervention targets. For every set `s` listed by
`possible_parents(v)`, `assign_parents(v, s)` terminates without raising; the PDAG then shows exactly the members of the
class in which the parents of `v` along the undirected edges are `s`: an arc where all these agree, an edge where they do
not. It again shows a class as in the assumption, now with `{v}` as a further target. -/
theorem C156_assign_parents (G : DAG α) (hG : G.Valid) (T : Set (Set α)) (P : PDAG α) (hP : P.Consistent) (hS : P.Simple)
    (hn : P.nodes = G.nodes) (hR : Represents T G.E (fun i j => (i, j) ∈ P.arcs) (fun i j => {i, j} ∈ P.edges))
    (op : SetOrder Unit α) (o : SetOrder Bool α) (oc : PDAG.OrientOracle α) (v : α) (s : Finset α)
    (hs : s ∈ P.possibleParents op v) :
    ∃ Q, (P.assignParents o oc v s).run = some (.ok Q) ∧ Q.Consistent ∧ Q.Simple ∧ Q.nodes = G.nodes ∧
      (∀ i j, (i, j) ∈ Q.arcs ↔
        ∀ F, EquivalentCut T G.E F → ParentsAre (fun i j => {i, j} ∈ P.edges) F v s → F i j) ∧
      (∀ i j, Q.hasEdge i j = true ↔
        (∃ F, EquivalentCut T G.E F ∧ ParentsAre (fun i j => {i, j} ∈ P.edges) F v s ∧ F i j) ∧
        ∃ F, EquivalentCut T G.E F ∧ ParentsAre (fun i j => {i, j} ∈ P.edges) F v s ∧ F j i) ∧
      (∀ F, EquivalentCut T G.E F → ParentsAre (fun i j => {i, j} ∈ P.edges) F v s →
        Represents (insert {v} T) F (fun i j => (i, j) ∈ Q.arcs) (fun i j => {i, j} ∈ Q.edges)) := by
  obtain ⟨F, hF, hFs⟩ := (C155_possible_parents G hG T P hP hS hn hR op v s).1 hs
  obtain ⟨Q, q1, q2⟩ := PDAG.assignParents_shows hG hP hS hn hR o oc hF hFs
  obtain ⟨hv, hE, hnodes⟩ := PDAG.member_valid hG hF.1.1 hF.1.2
  have hQ := PDAG.shows_represents hv q2
  rw [hE] at hQ
  have hcut : ∀ {K L : α → α → Prop}, EquivalentCut T G.E K → ParentsAre (fun i j => {i, j} ∈ P.edges) K v s →
      (EquivalentCut (insert {v} T) K L ↔ EquivalentCut T G.E L ∧ ParentsAre (fun i j => {i, j} ∈ P.edges) L v s) :=
    fun hK hKs => PDAG.parentsAre_cut hG.acyclic hR hK hKs
  refine ⟨Q, q1, q2.cons, q2.simp, q2.nodes.trans hnodes, ?_, ?_, ?_⟩
  · intro i j
    refine (hQ.arcs i j).trans ?_
    simp only [hcut hF hFs, and_imp]
  · intro i j
    unfold PDAG.hasEdge
    rw [decide_eq_true_eq]
    refine (hQ.edges i j).trans ?_
    simp only [hcut hF hFs, and_assoc]
  · intro K hK hKs
    refine ⟨fun i j => (hQ.arcs i j).trans ?_, fun i j => (hQ.edges i j).trans ?_⟩
    · simp only [hcut hF hFs, hcut hK hKs]
    · simp only [hcut hF hFs, hcut hK hKs]

/-- C156, the remaining arguments: a parent that is not joined to `v` by an undirected edge gives a `KeyError`. -/
theorem C156_key_error (P : PDAG α) (hP : P.Consistent) (hS : P.Simple) (o : SetOrder Bool α) (oc : PDAG.OrientOracle α)
    (v : α) (s : Finset α) (hs : ∃ p ∈ s, P.hasEdge p v = false) :
    (P.assignParents o oc v s).run = some (.error .key) := by
  obtain ⟨p, hp, he⟩ := hs
  obtain ⟨Q, q1, _⟩ := PDAG.orient_key v (o.ord false s) hP hS (o.nodup _ _)
    ⟨p, (o.mem_iff _ _ _).2 hp, of_decide_eq_false he⟩
  unfold PDAG.assignParents PDAG.orientAround
  rw [q1, PDAG.andThen_some]
  rfl

/-- C156: a set of undirected neighbors that no member of the class has as parents is accepted: in the PDAG `0 - 1 - 2`
the collider `0 → 1 ← 2` is built. -/
theorem C156_unchecked (P : PDAG (Fin 3)) (hP : P.Consistent) (ha : P.arcs = ∅) (he : P.edges = {{0, 1}, {1, 2}})
    (o : SetOrder Bool (Fin 3)) (oc : PDAG.OrientOracle (Fin 3)) (op : SetOrder Unit (Fin 3)) :
    {0, 2} ∉ P.possibleParents op 1 ∧
      ∃ Q, (P.assignParents o oc 1 {0, 2}).run = some (.ok Q) ∧ (0, 1) ∈ Q.arcs ∧ (2, 1) ∈ Q.arcs ∧
        Q.hasEdgeOrArc 0 2 = false := by
  have hS : P.Simple := by constructor <;> rw [ha] <;> simp
  constructor
  · rw [(C55_possible_parents P hP op 1).2, he]; decide
  · obtain ⟨R, r1, r2, r3, r4⟩ := PDAG.orientAround_spec o hP hS (v := 1) (s := {0, 2}) (by rw [he]; decide)
    obtain ⟨Q, q1, q2, _⟩ := PDAG.toCompletePdag_spec oc r2.cons r2.simp (fun _ => True) (fun _ _ => trivial)
      (fun _ _ _ _ _ _ _ => trivial)
    refine ⟨Q, ?_, q2.arcs ((r3 0 1).2 (Or.inr (Or.inl ⟨by decide, rfl⟩))),
      q2.arcs ((r3 2 1).2 (Or.inr (Or.inl ⟨by decide, rfl⟩))), ?_⟩
    · unfold PDAG.assignParents; rw [r1]; exact q1
    · rw [q2.adj, r2.adj, ← Bool.not_eq_true, PDAG.adj_true, ha, he]; decide

namespace Sample

/-- `0 - 1 - 2` -/
noncomputable def line : PDAG (Fin 3) := PDAG.new _root_.Sample.order _root_.Sample.order {0, 1, 2} ∅ {(0, 1), (1, 2)} ∅

theorem line_spec : line.Consistent ∧ line.arcs = ∅ ∧ line.edges = {{0, 1}, {1, 2}} := by
  obtain ⟨h1, h2, h3, _⟩ := PDAG.new_spec _root_.Sample.order _root_.Sample.order ({0, 1, 2} : Finset (Fin 3)) ∅
    {(0, 1), (1, 2)} ∅ (by decide)
  exact ⟨h1, h2, by unfold line; rw [h3]; decide⟩

end Sample

/-- Node `1` of the class of `0 → 1 → 2` gets the parent `0`: then `1 → 2`. -/
example : ∃ P Q, (Sample.right.cpdag Sample.order ⟨Sample.order, Sample.order⟩).run = some (.ok P) ∧
    (P.assignParents Sample.order ⟨Sample.order, Sample.order⟩ 1 {0}).run = some (.ok Q) ∧ (1, 2) ∈ Q.arcs := by
  obtain ⟨P, h1, h2, h3, h4, h5⟩ := cpdag_represents Sample.right Sample.right_valid Sample.order ⟨Sample.order, Sample.order⟩
  have hR : Equivalent Sample.right.E Sample.right.E := ⟨Sample.right_valid.acyclic, SameSkelV.refl _⟩
  have hL : Equivalent Sample.right.E Sample.left.E := ⟨Sample.left_valid.acyclic, Sample.left_right⟩
  have e01 : {0, 1} ∈ P.edges := (h5.edges 0 1).2
    ⟨⟨_, equivalentCut_empty.2 hR, by decide⟩, _, equivalentCut_empty.2 hL, by decide⟩
  have hs : {0} ∈ P.possibleParents Sample.order 1 := by
    rw [(C55_possible_parents P h2 _ 1).2]
    refine ⟨fun i hi => ?_, fun i hi j hj hij => ?_⟩
    · rw [Finset.mem_singleton.1 hi]; exact e01
    · exact absurd ((Finset.mem_singleton.1 hi).trans (Finset.mem_singleton.1 hj).symm) hij
  obtain ⟨Q, q1, _, _, _, q2, _⟩ := C156_assign_parents Sample.right Sample.right_valid ∅ P h2 h3 h4 h5 Sample.order
    Sample.order ⟨Sample.order, Sample.order⟩ 1 {0} hs
  refine ⟨P, Q, h1, q1, (q2 1 2).2 fun F hF hFs => ?_⟩
  have h01 := ((hFs 0).1 (by decide)).2
  rcases (hF.1.2.skel 1 2).1 (Or.inl (by decide)) with h | h
  · exact h
  · have hv : VStruct F 0 1 2 := ⟨by decide, h01, h, fun h => by
      have := (hF.1.2.skel 0 2).2 h
      revert this; unfold Adj; decide⟩
    exact absurd ((hF.1.2.vstr 0 1 2).2 hv) (by unfold VStruct Adj; decide)

example : ∃ p ∈ ({0} : Finset (Fin 3)), Sample.line.hasEdge p 2 = false := by
  refine ⟨0, by decide, ?_⟩
  unfold PDAG.hasEdge; rw [Sample.line_spec.2.2]; decide

example : ∃ P : PDAG (Fin 3), P.Consistent ∧ P.arcs = ∅ ∧ P.edges = {{0, 1}, {1, 2}} := ⟨_, Sample.line_spec⟩

/-- C157, what holds: `to_complete_pdag_new()` returns at once and leaves every PDAG as it is; so `cpdag_new(new=True)`
returns the v-structure arcs as arcs and all other adjacencies as edges, which is `cpdag()` iff no arc outside a
v-structure is common to all Markov equivalent graphs. -/
theorem C157_cpdag_new_partial (G : DAG α) (hG : G.Valid) (oa oe oa' : SetOrder Unit (α × α)) (o : SetOrder ℕ (α × α))
    (o' : PDAG.OrientOracle α) (up : Unpack α) :
    (∀ P : PDAG α, (P.toCompletePdagNew o up).run = some (.ok P)) ∧
    ∃ P Q, (G.cpdagNewNew oa oe o up).run = some (.ok P) ∧ (G.cpdag oa' o').run = some (.ok Q) ∧
      P.Consistent ∧ P.nodes = G.nodes ∧ (∀ i j, (i, j) ∈ P.arcs ↔ ∃ l, VStruct G.E i j l) ∧
      (∀ i j, P.hasEdge i j = true ↔ Adj G.E i j ∧ (¬ ∃ l, VStruct G.E i j l) ∧ ¬ ∃ l, VStruct G.E j i l) ∧
      (P.eq Q = true ↔ ∀ i j, (∀ F, Equivalent G.E F → F i j) → ∃ l, VStruct G.E i j l) := by
  have hv : G.arcsInVstructures ⊆ G.arcs := by unfold arcsInVstructures; exact Finset.filter_subset _ _
  obtain ⟨h1, h2, h3, h4, h5⟩ := PDAG.new_spec oa oe G.nodes G.arcsInVstructures (G.arcs \ G.arcsInVstructures) ∅ (by
    rintro ⟨i, j⟩ he h
    have := (Finset.mem_sdiff.1 he).1
    simp only at h; subst h
    exact hG.acyclic.irrefl this)
  obtain ⟨Q, q1, q2, q3, q4, q5, q6, q7⟩ := C19_cpdag G hG oa' o'
  set P := PDAG.new oa oe G.nodes G.arcsInVstructures (G.arcs \ G.arcsInVstructures) ∅ with hPdef
  have ha : ∀ i j, (i, j) ∈ P.arcs ↔ ∃ l, VStruct G.E i j l := by
    intro i j; rw [h2, PDAG.mem_arcsInVstructures hG]
  have he : ∀ i j, P.hasEdge i j = true ↔ Adj G.E i j ∧ (¬ ∃ l, VStruct G.E i j l) ∧ ¬ ∃ l, VStruct G.E j i l := by
    intro i j
    unfold PDAG.hasEdge
    rw [decide_eq_true_eq, h3, Finset.mem_image]
    have hno : ∀ {a b l}, G.E a b → ¬ VStruct G.E b a l := fun h hw => hG.acyclic.asymm h hw.2.1
    constructor
    · rintro ⟨⟨a, b⟩, hab, hp⟩
      rw [Finset.mem_sdiff, PDAG.mem_arcsInVstructures hG] at hab
      have hE : G.E a b := hab.1
      rcases PDAG.pair_eq_iff.1 hp with ⟨rfl, rfl⟩ | ⟨rfl, rfl⟩
      · exact ⟨Or.inl hE, hab.2, fun ⟨l, hl⟩ => hno hE hl⟩
      · exact ⟨Or.inr hE, fun ⟨l, hl⟩ => hno hE hl, hab.2⟩
    · rintro ⟨h | h, k1, k2⟩
      · exact ⟨(i, j), Finset.mem_sdiff.2 ⟨h, by rw [PDAG.mem_arcsInVstructures hG]; exact k1⟩, rfl⟩
      · exact ⟨(j, i), Finset.mem_sdiff.2 ⟨h, by rw [PDAG.mem_arcsInVstructures hG]; exact k2⟩, Finset.pair_comm _ _⟩
  have hnodes : P.nodes = G.nodes := by
    ext v; rw [h5]
    constructor
    · rintro (h | ⟨a, ha, h⟩ | ⟨a, ha, h⟩)
      · exact h
      · rcases h with rfl | rfl
        · exact hG.fst_mem _ _ (hv ha)
        · exact hG.snd_mem _ _ (hv ha)
      · rcases h with rfl | rfl
        · exact hG.fst_mem _ _ (Finset.mem_sdiff.1 ha).1
        · exact hG.snd_mem _ _ (Finset.mem_sdiff.1 ha).1
    · exact Or.inl
  refine ⟨PDAG.toCompletePdagNew_eq o up, P, Q, PDAG.toCompletePdagNew_eq o up P, q1, h1, hnodes, ha, he, ?_⟩
  unfold PDAG.eq
  simp only [Bool.and_eq_true, decide_eq_true_eq]
  constructor
  · rintro ⟨⟨_, hA⟩, _⟩ i j hF
    rw [← ha, hA]; exact (q6 i j).2 hF
  · intro h
    have hA : ∀ i j, (i, j) ∈ P.arcs ↔ (i, j) ∈ Q.arcs := by
      intro i j
      rw [ha, q6]
      exact ⟨fun ⟨l, hl⟩ F hF => ((hF.2.vstr _ _ _).1 hl).2.1, h i j⟩
    refine ⟨⟨hnodes.trans q4.symm, Finset.ext fun a => hA a.1 a.2⟩, ?_⟩
    have hEd : ∀ i j, {i, j} ∈ P.edges ↔ {i, j} ∈ Q.edges := by
      intro i j
      have e1 := he i j
      have e2 := q5 i j
      unfold PDAG.hasEdge at e1
      rw [decide_eq_true_eq] at e1
      rw [PDAG.adj_true] at e2
      rw [e1, ← ha, ← ha, hA, hA, ← e2]
      constructor
      · rintro ⟨h | h | h, k1, k2⟩
        · exact absurd h k1
        · exact absurd h k2
        · exact h
      · intro h
        exact ⟨Or.inr (Or.inr h), fun h' => q3.no_edge _ _ h' h, fun h' => q3.no_edge _ _ h' (by
          rw [Finset.pair_comm]; exact h)⟩
    ext e
    constructor
    · intro h; obtain ⟨i, j, _, rfl⟩ := h1.edge_pair e h; exact (hEd i j).1 h
    · intro h; obtain ⟨i, j, _, rfl⟩ := q2.edge_pair e h; exact (hEd i j).2 h

example : Sample.diamond.Valid := Sample.diamond_valid

/-- C157 violated: in `0 → 1 → 3 ← 2 ← 0`, `3 → 4` every equivalent graph contains `3 → 4`, but `cpdag_new(new=True)`
returns `3 - 4` as an undirected edge. -/
theorem C157_violated (oa oe oa' : SetOrder Unit (Fin 5 × Fin 5)) (o : SetOrder ℕ (Fin 5 × Fin 5))
    (o' : PDAG.OrientOracle (Fin 5)) (up : Unpack (Fin 5)) :
    ∃ G : DAG (Fin 5), G.Valid ∧ ∃ P Q, (G.cpdagNewNew oa oe o up).run = some (.ok P) ∧
      (G.cpdag oa' o').run = some (.ok Q) ∧ P.eq Q = false ∧ (3, 4) ∈ Q.arcs ∧ P.hasEdge 3 4 = true := by
  refine ⟨Sample.diamond, Sample.diamond_valid, ?_⟩
  obtain ⟨_, P, Q, h1, h2, _, _, _, h5, h6⟩ := C157_cpdag_new_partial Sample.diamond Sample.diamond_valid oa oe oa' o o' up
  obtain ⟨Q', q1, q2, _⟩ := PDAG.cpdag_shows Sample.diamond_valid oa' o'
  rw [h2] at q1
  obtain rfl : Q = Q' := by injection q1 with q1; injection q1
  have hv : VStruct Sample.diamond.E 1 3 2 := by unfold VStruct Adj; decide
  have hm : Meek Sample.diamond.E (fun _ _ => False) 3 4 :=
    .r1 (.vstr hv) (by decide) (by unfold Adj; decide) (by decide)
  have hno : (¬ ∃ l, VStruct Sample.diamond.E 3 4 l) ∧ ¬ ∃ l, VStruct Sample.diamond.E 4 3 l := by
    unfold VStruct Adj; decide
  refine ⟨P, Q, h1, h2, ?_, (q2.arcs 3 4).2 hm, (h5 3 4).2 ⟨Or.inl (by decide), hno⟩⟩
  rw [← Bool.not_eq_true, h6]
  intro h
  exact hno.1 (h 3 4 fun F hF => hm.sound Sample.diamond_valid.acyclic hF.1 hF.2 fun _ _ hf => hf.elim)

/-- C158, what holds: on a PDAG with consistent views in which no pair carries two marks, `remove_edge`, `remove_arc` and
`replace_edge_with_arc` take the edge or arc away (or replace it), leave everything else and keep the views consistent; if
it is not there they raise `KeyError` (nothing with `ignore_error=True`) and leave the object unchanged.
`remove_all_arcs()` never raises and leaves the edges. -/
theorem C158_removals_partial (P : PDAG α) (hP : P.Consistent) (hS : P.Simple) (ign : Bool) (i j : α) :
    (P.hasEdge i j = true → ∃ Q, P.removeEdge ign i j = (Q, none) ∧ Q.Consistent ∧ Q.Simple ∧ Q.nodes = P.nodes ∧
      Q.arcs = P.arcs ∧ ∀ a b, Q.hasEdge a b = true ↔ P.hasEdge a b = true ∧ ({a, b} : Finset α) ≠ {i, j}) ∧
    (P.hasEdge i j = false → P.removeEdge ign i j = (P, if ign then none else some .key)) ∧
    (P.hasArc i j = true → ∃ Q, P.removeArc ign i j = (Q, none) ∧ Q.Consistent ∧ Q.Simple ∧ Q.nodes = P.nodes ∧
      Q.edges = P.edges ∧ ∀ a b, Q.hasArc a b = true ↔ P.hasArc a b = true ∧ (a, b) ≠ (i, j)) ∧
    (P.hasArc i j = false → P.removeArc ign i j = (P, if ign then none else some .key)) ∧
    (P.hasEdge i j = true → ∃ Q, P.replaceEdgeWithArcPublic ign i j = (Q, none) ∧ Q.Consistent ∧ Q.Simple ∧
      Q.nodes = P.nodes ∧ (∀ a b, Q.hasArc a b = true ↔ P.hasArc a b = true ∨ (a, b) = (i, j)) ∧
      (∀ a b, Q.hasEdge a b = true ↔ P.hasEdge a b = true ∧ ({a, b} : Finset α) ≠ {i, j}) ∧
      ∀ v, Q.neighbors v = P.neighbors v) ∧
    (P.hasEdge i j = false → P.replaceEdgeWithArcPublic ign i j = (P, if ign then none else some .key)) := by
  have er : ∀ {Q : PDAG α}, Q.edges = P.edges.erase {i, j} → ∀ a b, Q.hasEdge a b = true ↔
      P.hasEdge a b = true ∧ ({a, b} : Finset α) ≠ {i, j} := by
    intro Q h a b
    unfold PDAG.hasEdge
    rw [decide_eq_true_eq, decide_eq_true_eq, h, Finset.mem_erase, and_comm]
  refine ⟨fun h => ?_, fun h => ?_, fun h => ?_, fun h => ?_, fun h => ?_, fun h => ?_⟩
  · obtain ⟨Q, h1, h2, h3, h4, _, h6, h7⟩ := PDAG.removeEdge_spec hP hS ign (of_decide_eq_true h)
    exact ⟨Q, h1, h2, h3, h4, h6, er h7⟩
  · exact PDAG.removeEdge_absent ign (of_decide_eq_false h)
  · obtain ⟨Q, h1, h2, h3, h4, _, h6, h7⟩ := PDAG.removeArc_spec hP hS ign (of_decide_eq_true h)
    refine ⟨Q, h1, h2, h3, h4, h7, fun a b => ?_⟩
    unfold PDAG.hasArc
    rw [decide_eq_true_eq, decide_eq_true_eq, h6, Finset.mem_erase, and_comm]
  · exact PDAG.removeArc_absent ign (of_decide_eq_false h)
  · have h' : {i, j} ∈ P.edges := of_decide_eq_true h
    obtain ⟨Q, h1, h2, h3, h4⟩ := PDAG.replace_grown hP hS h'
    refine ⟨Q, ?_, h2.cons, h2.simp, h2.nodes, fun a b => ?_, er h4, fun v => ?_⟩
    · unfold PDAG.replaceEdgeWithArcPublic
      rw [PDAG.orient_ok hP h' h1]
      unfold PDAG.guard; cases ign <;> rfl
    · unfold PDAG.hasArc
      rw [decide_eq_true_eq, decide_eq_true_eq, h3, Finset.mem_insert, or_comm]
    · ext w
      rw [h2.cons.neighbors_iff, hP.neighbors_iff, ← PDAG.adj_true, ← PDAG.adj_true, h2.adj]
  · unfold PDAG.replaceEdgeWithArcPublic
    rw [PDAG.orient_absent (of_decide_eq_false h)]
    unfold PDAG.guard; cases ign <;> rfl

theorem C158_remove_all_arcs_partial (P : PDAG α) (hP : P.Consistent) (hS : P.Simple) (o : SetOrder Unit (α × α)) :
    ∃ Q, P.removeAllArcs o = (Q, none) ∧ Q.Consistent ∧ Q.arcs = ∅ ∧ Q.edges = P.edges ∧ Q.nodes = P.nodes ∧
      ∀ v, Q.neighbors v = P.undirected v := by
  obtain ⟨Q, q1, q2, q3, q4, q5, q6⟩ := PDAG.removeAll_spec (o.ord () P.arcs) hP hS (o.nodup _ _)
    (fun a ha => (o.mem_iff _ _ _).1 ha)
  have hA : Q.arcs = ∅ := by
    refine Finset.eq_empty_of_forall_notMem fun a ha => ?_
    rw [q6, o.mem_iff] at ha
    exact ha.2 ha.1
  refine ⟨Q, q1, q2, hA, q5, q4, fun v => ?_⟩
  ext w
  rw [q2.neighbors_iff, hP.undirected_iff, hA, q5]
  simp

/-- `remove_edges_from`, `remove_arcs_from`: the members of the list are removed one after the other up to the first
that is not there (any more), which raises `KeyError`; those before it stay removed. -/
theorem C158_remove_from_partial (l : List (α × α)) : ∀ (P : PDAG α), P.Consistent → P.Simple →
    (∃ Q e n, P.removeEdgesFrom l = (Q, e) ∧ Q.Consistent ∧ Q.Simple ∧ Q.nodes = P.nodes ∧ Q.arcs = P.arcs ∧
      (∀ s, s ∈ Q.edges ↔ s ∈ P.edges ∧ ∀ a ∈ l.take n, s ≠ {a.1, a.2}) ∧
      ((e = none ∧ n = l.length) ∨ (e = some .key ∧ ∃ h : n < l.length, {l[n].1, l[n].2} ∉ Q.edges))) ∧
    (∃ Q e n, P.removeArcsFrom l = (Q, e) ∧ Q.Consistent ∧ Q.Simple ∧ Q.nodes = P.nodes ∧ Q.edges = P.edges ∧
      (∀ a, a ∈ Q.arcs ↔ a ∈ P.arcs ∧ a ∉ l.take n) ∧
      ((e = none ∧ n = l.length) ∨ (e = some .key ∧ ∃ h : n < l.length, l[n] ∉ Q.arcs))) := by
  induction l with
  | nil =>
    intro P hP hS
    exact ⟨⟨P, none, 0, rfl, hP, hS, rfl, rfl, by simp, Or.inl ⟨rfl, rfl⟩⟩,
      P, none, 0, rfl, hP, hS, rfl, rfl, by simp, Or.inl ⟨rfl, rfl⟩⟩
  | cons x l ih =>
    intro P hP hS
    constructor
    · by_cases hx : {x.1, x.2} ∈ P.edges
      · obtain ⟨R, r1, r2, r3, r4, _, r6, r7⟩ := PDAG.removeEdge_spec hP hS false hx
        obtain ⟨⟨Q, e, n, q1, q2, q3, q4, q5, q6, q7⟩, _⟩ := ih R r2 r3
        refine ⟨Q, e, n + 1, ?_, q2, q3, q4.trans r4, q5.trans r6, ?_, ?_⟩
        · show PDAG.forEach _ (x :: l) P = _
          rw [PDAG.forEach, r1]; exact q1
        · intro s
          rw [q6, r7, Finset.mem_erase, List.take_succ_cons]
          simp only [List.mem_cons, forall_eq_or_imp]
          exact (by intros; tauto : ∀ p q r : Prop, (p ∧ q) ∧ r ↔ q ∧ p ∧ r) _ _ _
        · rcases q7 with ⟨h, rfl⟩ | ⟨h, h1, h2⟩
          · exact Or.inl ⟨h, rfl⟩
          · exact Or.inr ⟨h, by simpa using h1, by simpa using h2⟩
      · refine ⟨P, some .key, 0, ?_, hP, hS, rfl, rfl, by simp, Or.inr ⟨rfl, by simp, hx⟩⟩
        show PDAG.forEach _ (x :: l) P = _
        rw [PDAG.forEach, PDAG.removeEdge_absent false hx]; rfl
    · by_cases hx : x ∈ P.arcs
      · obtain ⟨R, r1, r2, r3, r4, _, r6, r7⟩ := PDAG.removeArc_spec hP hS false (i := x.1) (j := x.2) hx
        obtain ⟨_, ⟨Q, e, n, q1, q2, q3, q4, q5, q6, q7⟩⟩ := ih R r2 r3
        refine ⟨Q, e, n + 1, ?_, q2, q3, q4.trans r4, q5.trans r7, ?_, ?_⟩
        · show PDAG.forEach _ (x :: l) P = _
          rw [PDAG.forEach, r1]; exact q1
        · intro s
          rw [q6, r6, Finset.mem_erase, List.take_succ_cons, List.mem_cons, not_or]
          exact (by intros; tauto : ∀ p q r : Prop, (p ∧ q) ∧ r ↔ q ∧ p ∧ r) _ _ _
        · rcases q7 with ⟨h, rfl⟩ | ⟨h, h1, h2⟩
          · exact Or.inl ⟨h, rfl⟩
          · exact Or.inr ⟨h, by simpa using h1, by simpa using h2⟩
      · refine ⟨P, some .key, 0, ?_, hP, hS, rfl, rfl, by simp, Or.inr ⟨rfl, by simp, hx⟩⟩
        show PDAG.forEach _ (x :: l) P = _
        rw [PDAG.forEach, PDAG.removeArc_absent false hx]; rfl

example : Sample.partly.Consistent ∧ Sample.partly.Simple ∧ Sample.partly.hasEdge 1 2 = true ∧
    Sample.partly.hasArc 0 1 = true := by
  obtain ⟨h1, h2, h3⟩ := Sample.partly_spec
  refine ⟨h1, Sample.partly_simple, ?_, ?_⟩
  · unfold PDAG.hasEdge; rw [h3]; decide
  · unfold PDAG.hasArc; rw [h2]; decide

/-- C158 violated: the constructor accepts an arc and an edge between the same two nodes. `remove_arc(0, 1)` then takes
`1` out of the neighbors of `0` although the edge is still there, and a following `remove_edge(0, 1)` raises `KeyError` after
having removed the edge; with `ignore_error=True` it returns normally, leaving `1` an undirected neighbor of `0` without
an edge. -/
theorem C158_violated (oa oe : SetOrder Unit (Fin 2 × Fin 2)) :
    ∃ Q R, (PDAG.new oa oe {0, 1} {(0, 1)} {(0, 1)} ∅).removeArc false 0 1 = (Q, none) ∧
      Q.hasEdge 0 1 = true ∧ 1 ∉ Q.neighbors 0 ∧ ¬ Q.Consistent ∧
      Q.removeEdge false 0 1 = (R, some .key) ∧ Q.removeEdge true 0 1 = (R, none) ∧
      R.hasEdge 0 1 = false ∧ 1 ∈ R.undirected 0 := by
  obtain ⟨h1, h2, h3, h4, h5⟩ := PDAG.new_spec oa oe ({0, 1} : Finset (Fin 2)) {(0, 1)} {(0, 1)} ∅ (by decide)
  set P := PDAG.new oa oe ({0, 1} : Finset (Fin 2)) {(0, 1)} {(0, 1)} ∅
  have hE : P.edges = {{0, 1}} := by rw [h3]; decide
  have hc : 1 ∈ P.children 0 := (h1.children_iff 0 1).2 (by rw [h2]; decide)
  have hp : 0 ∈ P.parents 1 := (h1.parents_iff 0 1).2 (by rw [h2]; decide)
  have hn1 : 1 ∈ P.neighbors 0 := (h1.neighbors_iff 1 0).2 (Or.inr (Or.inl (by rw [h2]; decide)))
  have hn2 : 0 ∈ P.neighbors 1 := (h1.neighbors_iff 0 1).2 (Or.inl (by rw [h2]; decide))
  have hu : 1 ∈ P.undirected 0 := (h1.undirected_iff 1 0).2 (by rw [hE]; decide)
  have hn2' : 0 ∈ Function.update P.neighbors 0 ((P.neighbors 0).erase 1) 1 := by
    rw [Function.update_of_ne (by decide)]; exact hn2
  have hbool : ∀ Q : PDAG (Fin 2), Q.edges = {{0, 1}} → Q.hasEdge 0 1 = true := by
    intro Q h; unfold PDAG.hasEdge; rw [h]; decide
  set Q : PDAG (Fin 2) :=
    { P with
      arcs := P.arcs.erase (0, 1)
      children := Function.update P.children 0 ((P.children 0).erase 1)
      parents := Function.update P.parents 1 ((P.parents 1).erase 0)
      neighbors := Function.update (Function.update P.neighbors 0 ((P.neighbors 0).erase 1)) 1
        ((Function.update P.neighbors 0 ((P.neighbors 0).erase 1) 1).erase 0) } with hQ
  have hQE : Q.edges = {{0, 1}} := hE
  have hQn : 1 ∉ Q.neighbors 0 := by
    rw [hQ]
    show 1 ∉ Function.update (Function.update P.neighbors 0 ((P.neighbors 0).erase 1)) 1
      ((Function.update P.neighbors 0 ((P.neighbors 0).erase 1) 1).erase 0) 0
    rw [Function.update_of_ne (by decide), Function.update_self]
    exact Finset.notMem_erase _ _
  have hrun : ∀ b, Q.removeEdge b 0 1 = ({ Q with edges := Q.edges.erase {0, 1} }, if b then none else some .key) := by
    intro b
    unfold PDAG.removeEdge PDAG.delEdge
    rw [if_pos (by rw [hQE]; decide), PDAG.andThen_none]
    unfold PDAG.delNbr
    rw [if_neg hQn]
    simp only [PDAG.andThen_some]
    unfold PDAG.guard
    cases b <;> rfl
  refine ⟨Q, { Q with edges := Q.edges.erase {0, 1} }, ?_, hbool Q hQE, hQn, ?_, hrun false, hrun true, ?_, hu⟩
  · unfold PDAG.removeArc PDAG.delArc PDAG.delChild PDAG.delParent PDAG.delNbr
    rw [if_pos (by rw [h2]; decide), PDAG.andThen_none, if_pos hc, PDAG.andThen_none, if_pos hp, PDAG.andThen_none,
      if_pos hn1, PDAG.andThen_none, if_pos hn2']
    rfl
  · intro hcon
    exact hQn ((hcon.neighbors_iff 1 0).2 (Or.inr (Or.inr (by rw [hQE]; decide))))
  · unfold PDAG.hasEdge
    show decide ({0, 1} ∈ Q.edges.erase {0, 1}) = false
    rw [decide_eq_false_iff_not]; exact Finset.notMem_erase _ _

/-- C159, what holds: `remove_node(v)` on a PDAG with consistent views in which no pair carries two marks removes the node
with all its arcs and edges, leaves the rest and keeps the views consistent; it raises `KeyError` exactly if `v` is not a
node (then nothing changes) or `_neighbors` has no entry for `v` (then the node is removed all the same). After the
constructor exactly the ends of the arcs and edges have an entry. -/
theorem C159_remove_node_partial (P : PDAG α) (hP : P.Consistent) (hS : P.Simple) (o : SetOrder (Fin 3) α) (hasKey : Bool)
    (v : α) :
    (v ∉ P.nodes → P.removeNodePublic hasKey o v = (P, some .key)) ∧
    (v ∈ P.nodes → ∃ Q, P.removeNodePublic hasKey o v = (Q, if hasKey then none else some .key) ∧ Q.Consistent ∧ Q.Simple ∧
      Q.nodes = P.nodes.erase v ∧ (∀ i j, (i, j) ∈ Q.arcs ↔ (i, j) ∈ P.arcs ∧ i ≠ v ∧ j ≠ v) ∧
      ∀ e, e ∈ Q.edges ↔ e ∈ P.edges ∧ v ∉ e) := by
  constructor
  · intro h
    unfold PDAG.removeNodePublic PDAG.removeNode PDAG.remove
    rw [if_neg h]
    rfl
  · intro h
    obtain ⟨Q, h1, h2, h3, h4, _, h6, h7⟩ := PDAG.removeNode_spec hP hS o h
    refine ⟨Q, ?_, h2, h3, h4, h6, h7⟩
    unfold PDAG.removeNodePublic
    rw [h1]

example : (2 : Fin 3) ∈ PDAG.nbrKeys ({(0, 1)} : Finset (Fin 3 × Fin 3)) {(1, 2)} := by decide

/-- C159 violated: on a new PDAG with an isolated node, `remove_node` of that node raises `KeyError`, after it has removed
it. -/
theorem C159_violated (oa oe : SetOrder Unit (Fin 3 × Fin 3)) (o : SetOrder (Fin 3) (Fin 3)) :
    (2 : Fin 3) ∉ PDAG.nbrKeys {(0, 1)} (∅ : Finset (Fin 3 × Fin 3)) ∧
    2 ∈ (PDAG.new oa oe {0, 1, 2} {(0, 1)} ∅ ∅).nodes ∧
    ∃ Q, (PDAG.new oa oe {0, 1, 2} {(0, 1)} ∅ ∅).removeNodePublic
        (decide ((2 : Fin 3) ∈ PDAG.nbrKeys {(0, 1)} (∅ : Finset (Fin 3 × Fin 3)))) o 2 = (Q, some .key) ∧
      2 ∉ Q.nodes := by
  obtain ⟨h1, h2, h3, h4, h5⟩ := PDAG.new_spec oa oe ({0, 1, 2} : Finset (Fin 3)) {(0, 1)} ∅ ∅ (by decide)
  have hk : (2 : Fin 3) ∉ PDAG.nbrKeys {(0, 1)} (∅ : Finset (Fin 3 × Fin 3)) := by decide
  have hS : (PDAG.new oa oe ({0, 1, 2} : Finset (Fin 3)) {(0, 1)} ∅ ∅).Simple := by
    constructor
    · rw [h2]; decide
    · intro i j _; rw [h3]; simp
  have hm : 2 ∈ (PDAG.new oa oe ({0, 1, 2} : Finset (Fin 3)) {(0, 1)} ∅ ∅).nodes := (h5 2).2 (Or.inl (by decide))
  refine ⟨hk, hm, ?_⟩
  obtain ⟨Q, q1, _, _, q4, _⟩ := (C159_remove_node_partial _ h1 hS o
    (decide ((2 : Fin 3) ∈ PDAG.nbrKeys {(0, 1)} (∅ : Finset (Fin 3 × Fin 3)))) 2).2 hm
  refine ⟨Q, ?_, ?_⟩
  · rw [q1, decide_eq_false hk]; rfl
  · rw [q4]; exact Finset.notMem_erase _ _

/-- C160, what holds: every arc of a v-structure is returned by `vstructs()`; every pair returned is an arc `i → j` for
which `j` has a second parent not joined to `i` by an arc; if no two parents of a node are joined by an edge, exactly the
arcs of the v-structures are returned. -/
theorem C160_vstructs_partial (P : PDAG α) (hP : P.Consistent) (o : SetOrder α α) :
    (∀ i j l, (i, j) ∈ P.arcs → (l, j) ∈ P.arcs → l ≠ i → P.hasEdgeOrArc i l = false → (i, j) ∈ P.vstructs o) ∧
    (∀ i j, (i, j) ∈ P.vstructs o → (i, j) ∈ P.arcs ∧ ∃ l, (l, j) ∈ P.arcs ∧ l ≠ i ∧ (i, l) ∉ P.arcs ∧ (l, i) ∉ P.arcs) ∧
    ((∀ i j l, (i, j) ∈ P.arcs → (l, j) ∈ P.arcs → P.hasEdge i l = false) → ∀ i j, (i, j) ∈ P.vstructs o ↔
      (i, j) ∈ P.arcs ∧ ∃ l, (l, j) ∈ P.arcs ∧ l ≠ i ∧ P.hasEdgeOrArc i l = false) := by
  have hf : ∀ i l, P.hasEdgeOrArc i l = false ↔ (i, l) ∉ P.arcs ∧ (l, i) ∉ P.arcs ∧ P.hasEdge i l = false := by
    intro i l
    unfold PDAG.hasEdgeOrArc
    simp only [Bool.or_eq_false_iff, decide_eq_false_iff_not, and_assoc]
  refine ⟨fun i j l h1 h2 h3 h4 => ?_, fun i j h => (PDAG.mem_vstructs hP o).1 h, fun hno i j => ?_⟩
  · rw [hf] at h4
    exact (PDAG.mem_vstructs hP o).2 ⟨h1, l, h2, h3, h4.1, h4.2.1⟩
  · rw [PDAG.mem_vstructs hP o]
    refine and_congr_right fun h => exists_congr fun l => ?_
    rw [hf]
    constructor
    · rintro ⟨a, b, c, d⟩; exact ⟨a, b, c, d, hno i j l h a⟩
    · rintro ⟨a, b, c, d, _⟩; exact ⟨a, b, c, d⟩

namespace Sample

/-- `0, 1 → 2 → 3`, `0, 1 → 3`, `2, 3 → 4` -/
def shield : DAG (Fin 5) := _root_.Sample.graph {(0, 2), (1, 2), (0, 3), (1, 3), (2, 3), (2, 4), (3, 4)}

theorem shield_valid : shield.Valid := _root_.Sample.graph_valid (by decide)

/-- The same with `3 → 2`. -/
def shield' : DAG (Fin 5) := _root_.Sample.graph {(0, 2), (1, 2), (0, 3), (1, 3), (3, 2), (2, 4), (3, 4)}

/-- A topological order of `shield'`. -/
def rank (v : Fin 5) : ℕ := if v = 2 then 3 else if v = 3 then 2 else v

theorem shield'_equiv : Equivalent shield.E shield'.E := by
  refine ⟨?_, ?_, ?_⟩
  · have key : ∀ a b, Path shield'.E a b → rank a < rank b := by
      intro a b h
      induction h with
      | single h1 => exact (by decide : ∀ a b, shield'.E a b → rank a < rank b) _ _ h1
      | tail _ h1 ih => exact lt_trans ih ((by decide : ∀ a b, shield'.E a b → rank a < rank b) _ _ h1)
    intro v hv; exact lt_irrefl _ (key v v hv)
  · unfold Adj; decide
  · unfold VStruct Adj; decide

end Sample

example : ∀ i j l, (i, j) ∈ Sample.partly.arcs → (l, j) ∈ Sample.partly.arcs → Sample.partly.hasEdge i l = false := by
  obtain ⟨_, h2, h3⟩ := Sample.partly_spec
  unfold PDAG.hasEdge
  rw [h2, h3]
  decide

/-- C160 violated, on a CPDAG: for `0, 1 → 2 → 3`, `0, 1 → 3`, `2, 3 → 4` the CPDAG contains `2 → 4` and the edge `2 - 3`;
`vstructs()` returns `(2, 4)` although the only other parent of `4` is `3`, which is adjacent to `2`. -/
theorem C160_violated (oa : SetOrder Unit (Fin 5 × Fin 5)) (o : PDAG.OrientOracle (Fin 5)) (ov : SetOrder (Fin 5) (Fin 5)) :
    ∃ G : DAG (Fin 5), G.Valid ∧ ∃ P, (G.cpdag oa o).run = some (.ok P) ∧ (2, 4) ∈ P.vstructs ov ∧
      ¬ ∃ l, (l, 4) ∈ P.arcs ∧ l ≠ 2 ∧ P.hasEdgeOrArc 2 l = false := by
  refine ⟨Sample.shield, Sample.shield_valid, ?_⟩
  obtain ⟨P, h1, h2, _⟩ := PDAG.cpdag_shows Sample.shield_valid oa o
  obtain ⟨P', k1, _, _, _, _, k2, k3⟩ := C19_cpdag Sample.shield Sample.shield_valid oa o
  rw [h1] at k1
  obtain rfl : P = P' := by injection k1 with k1; injection k1
  have v2 : VStruct Sample.shield.E 0 2 1 := by unfold VStruct Adj; decide
  have v3 : VStruct Sample.shield.E 0 3 1 := by unfold VStruct Adj; decide
  have a24 : (2, 4) ∈ P.arcs := (h2.arcs 2 4).2 (.r1 (.vstr v2) (by decide) (by unfold Adj; decide) (by decide))
  have a34 : (3, 4) ∈ P.arcs := (h2.arcs 3 4).2 (.r1 (.vstr v3) (by decide) (by unfold Adj; decide) (by decide))
  have e23 : P.hasEdge 2 3 = true := (k3 2 3).2
    ⟨⟨_, ⟨Sample.shield_valid.acyclic, SameSkelV.refl _⟩, by decide⟩, _, Sample.shield'_equiv, by decide⟩
  refine ⟨P, h1, (PDAG.mem_vstructs h2.cons ov).2 ⟨a24, 3, a34, by decide, ?_, ?_⟩, ?_⟩
  · intro h; exact h2.simp.no_edge _ _ h (of_decide_eq_true e23)
  · intro h; exact h2.simp.no_edge _ _ h (by rw [Finset.pair_comm]; exact of_decide_eq_true e23)
  · rintro ⟨l, hl, hne, hno⟩
    have hE : Sample.shield.E l 4 := ((h2.arcs l 4).1 hl).sub
    have : l = 2 ∨ l = 3 := (by decide : ∀ l, Sample.shield.E l 4 → l = 2 ∨ l = 3) l hE
    rcases this with rfl | rfl
    · exact hne rfl
    · have : P.hasEdgeOrArc 2 3 = true := PDAG.adj_true.2 (Or.inr (Or.inr (of_decide_eq_true e23)))
      rw [this] at hno; simp at hno

end Props
