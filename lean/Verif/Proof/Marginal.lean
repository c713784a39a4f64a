import Verif.Model.Marginal
import Verif.Proof.Marg
import Verif.Proof.Maximal

/-! # `marginal_mag` -/

namespace Model.DAG

universe u
variable {α : Type u} [DecidableEq α] {D : DAG α} {L : Finset α}
open Relation Spec

/-- The DAG as a mixed graph. -/
def asMixed (D : DAG α) : Mixed α := ⟨D.E, fun _ _ => False, fun _ _ => False⟩

theorem asMixed_nice (hD : D.Valid) : D.asMixed.Nice :=
  ⟨⟨fun _ _ k => k, fun _ _ k => k, fun _ _ _ k => k.elim, fun _ _ k hi => hi.elim
    (fun hi => hD.acyclic.asymm k hi) id⟩,
    ⟨hD.acyclic, fun _ _ k => k.elim, fun _ _ _ k => k.elim⟩, fun _ _ => id⟩

omit [DecidableEq α] in
theorem asMixed_mg (D : DAG α) : D.asMixed.mg = mg D.E := by
  unfold Mixed.mg mg
  congr 1
  · funext a b; simp [Mixed.Adj, asMixed, Adj]
  · funext a b; simp [Mixed.Into, asMixed]

/-- The DAG as an object of class `AncestralGraph`. -/
def asAG (D : DAG α) : AG α := ⟨D.nodes, D.arcs, ∅, ∅, fun _ => ∅, fun _ => ∅, D.parents, D.children, D.neighbors⟩

theorem asAG_good (hD : D.Valid) : D.asAG.Good := by
  refine ⟨⟨hD.parents_iff, hD.children_iff, by simp [asAG], by simp [asAG], ?_, ?_, by simp [asAG], by simp [asAG], ?_,
    by simp [asAG], by simp [asAG]⟩, ⟨?_, by simp [asAG], by simp [asAG], by simp [asAG], by simp [asAG]⟩⟩
  · intro i j; simp [asAG, hD.neighbors_iff]
  · intro i hi; exact hD.acyclic i (.single hi)
  · intro i j h; exact ⟨hD.fst_mem i j h, hD.snd_mem i j h⟩
  · intro i j h h'; exact hD.acyclic.asymm h h'

theorem asAG_mixed (D : DAG α) : D.asAG.mixed = D.asMixed := by
  unfold AG.mixed asMixed
  congr 1
  · funext a b; simp [asAG]
  · funext a b; simp [asAG]

theorem asAG_new (hD : D.Valid) (o : SetOrder (Fin 3) (α × α)) : AG.new o D.nodes D.arcs ∅ ∅ = (D.asAG, none) :=
  AG.new_ok (asAG_good hD) o ∅ ∅ rfl rfl

/-- The graph during the loop over pairs. -/
structure Growing (D : DAG α) (L : Finset α) (A : AG α) : Prop where
  good : A.Good
  nodes : A.nodes = D.nodes
  no_un : A.undirected = ∅
  sub : D.arcs ⊆ A.directed
  dir : ∀ i j, (i, j) ∈ A.directed → D.asMixed.IndL L i j ∧ Path D.E i j
  bi : ∀ i j, {i, j} ∈ A.bidirected → D.asMixed.IndL L i j ∧ ¬ Path D.E i j ∧ ¬ Path D.E j i

theorem Growing.path0 {A : AG α} (h : Growing D L A) (x y : α) : Path0 A.mixed.dir x y ↔ Path0 D.E x y := by
  constructor
  · intro k
    induction k with
    | refl => exact .refl
    | tail _ k ih => exact ReflTransGen.trans ih (h.dir _ _ k).2.to_reflTransGen
  · exact path0_mono fun a b k => h.sub k

theorem Growing.adj {A : AG α} (h : Growing D L A) {i j : α} (k : D.asMixed.Adj i j) : A.mixed.Adj i j := by
  rcases k with k | k | k | k
  · exact Or.inl (h.sub k)
  · exact Or.inr (Or.inl (h.sub k))
  · exact k.elim
  · exact k.elim

theorem Growing.into {A : AG α} (hD : D.Valid) (h : Growing D L A) {i j : α} (k : A.mixed.Adj i j) :
    A.mixed.Into i j ↔ ¬ Path D.E j i := by
  constructor
  · rintro (k' | k') hp
    · exact hD.acyclic i ((h.dir _ _ k').2.trans hp)
    · exact (h.bi _ _ k').2.2 hp
  · intro hp
    rcases k with k | k | k | k
    · exact Or.inl k
    · exact absurd (h.dir _ _ k).2 hp
    · exact Or.inr k
    · change _ ∈ A.undirected at k
      rw [h.no_un] at k; simp at k

theorem Growing.shortcut {A : AG α} (hD : D.Valid) (h : Growing D L A) : Mixed.Shortcut D.asMixed A.mixed L := by
  refine ⟨?_, fun i j k => h.into hD k⟩
  rintro i j (k | k | k | k)
  · exact (h.dir _ _ k).1
  · exact (h.dir _ _ k).1.symm (asMixed_nice hD)
  · exact (h.bi _ _ k).1
  · change _ ∈ A.undirected at k
    rw [h.no_un] at k; simp at k

theorem Growing.msep {A : AG α} (hD : D.Valid) (h : Growing D L A) {X Y C : Set α} (hC : Disjoint C (L : Set α))
    (hXC : Disjoint X C) : A.mixed.MSep X Y C ↔ D.asMixed.MSep X Y C :=
  Mixed.hybrid_msep (asMixed_nice hD) h.good.mg_ok (h.shortcut hD) (fun _ _ => h.adj) h.path0 hC hXC

/-- One pair. -/
theorem margPair_spec (hD : D.Valid) {anc : α → Finset α} (hanc : ∀ v ∈ D.nodes, ∀ x, x ∈ anc v ↔ Path D.E x v)
    (o : α × α → SepOracle α) {A : AG α} (h : Growing D L A) {i j : α} (hij : i ≠ j) (hi : i ∈ D.nodes \ L)
    (hj : j ∈ D.nodes \ L) :
    ∃ B, margPair L anc o A (i, j) = some (B, none) ∧ Growing D L B ∧ (D.asMixed.IndL L i j → B.mixed.Adj i j) ∧
      ∀ x y, A.mixed.Adj x y → B.mixed.Adj x y := by
  rw [Finset.mem_sdiff] at hi hj
  have hn := asMixed_nice hD
  unfold margPair
  by_cases hE : A.hasAnyEdge i j = true
  · rw [if_pos hE]
    exact ⟨A, rfl, h, fun _ => AG.hasAnyEdge_iff.1 hE, fun _ _ => id⟩
  · rw [if_neg hE]
    rw [AG.hasAnyEdge_iff] at hE
    dsimp only
    set S := ((anc i ∪ anc j) \ {i, j}) \ L with hS
    have hSmem : ∀ x, x ∈ (S : Set α) ↔ x ∉ (L : Set α) ∧ x ≠ i ∧ x ≠ j ∧ (Path D.E x i ∨ Path D.E x j) := by
      intro x
      rw [Finset.mem_coe, Finset.mem_coe, hS]
      simp only [Finset.mem_sdiff, Finset.mem_union, hanc i hi.1, hanc j hj.1, Finset.mem_insert, Finset.mem_singleton, not_or]
      tauto
    have hSL : Disjoint (S : Set α) (L : Set α) := Set.disjoint_left.2 fun x hx => ((hSmem x).1 hx).1
    have hiS : i ∉ (S : Set α) := fun k => ((hSmem i).1 k).2.1 rfl
    obtain ⟨r, hr, hr'⟩ := AG.msep_decides h.good (o (i, j)) {i} {j} S (by simpa using hiS)
    have hr2 : r = true ↔ ¬ D.asMixed.IndL L i j := by
      rw [hr', h.msep hD hSL (by simpa using hiS)]
      simp only [Finset.coe_singleton]
      constructor
      · intro hs hI
        exact Mixed.marg_not_sep hn hij hi.2 hj.2 hI hSL hiS hs
      · intro hI
        exact Mixed.marg_sep hn hij hi.2 hj.2 hI hSmem
    rw [hr, Option.map_some]
    have nb : ∀ v, A.neighbors v = ∅ := by
      intro v
      rw [Finset.eq_empty_iff_forall_notMem]
      intro x hx
      rw [h.good.1.neighbors_iff, h.no_un] at hx
      simp at hx
    have nadj : ∀ {a b}, ¬ A.mixed.Adj a b → a ∉ A.adjacent b := by
      intro a b hab k
      rw [h.good.1.adjacent_iff] at k
      exact hab (by unfold Mixed.Adj AG.mixed; tauto)
    have hE' : ¬ A.mixed.Adj j i := fun k => hE (h.good.mg_ok.symm _ _ k)
    have addDir : ∀ {a b}, a ≠ b → a ∈ D.nodes → b ∈ D.nodes → ¬ A.mixed.Adj a b → D.asMixed.IndL L a b → Path D.E a b →
        ∃ B, A.addDirectedRaw a b = (B, none) ∧ Growing D L B ∧ B.mixed.Adj a b ∧
          ∀ x y, A.mixed.Adj x y → B.mixed.Adj x y := by
      intro a b hab ha hb hna hI hp
      have hnone : (A.addDirectedRaw a b).2 = none := by
        unfold AG.addDirectedRaw
        split_ifs with c1 c2 c3
        · rfl
        · rw [nb b] at c2; simp at c2
        · exact absurd c3 (nadj hna)
        · rfl
      obtain ⟨g, s, -⟩ := AG.addDirectedRaw_spec h.good hab
      obtain ⟨s1, s2, s3, s4⟩ := s hnone
      generalize A.addDirectedRaw a b = r at *
      obtain ⟨B, e⟩ := r
      dsimp only at *
      subst hnone
      refine ⟨B, rfl, ⟨g, ?_, by rw [s4, h.no_un], ?_, ?_, ?_⟩, Or.inl ?_, ?_⟩
      · rw [s2, h.nodes]; simp [ha, hb]
      · rw [s1]; exact h.sub.trans (Finset.subset_insert _ _)
      · intro x y k
        rw [s1, Finset.mem_insert, Prod.mk.injEq] at k
        rcases k with ⟨rfl, rfl⟩ | k
        · exact ⟨hI, hp⟩
        · exact h.dir x y k
      · rw [s3]; exact h.bi
      · change _ ∈ B.directed; rw [s1]; simp
      · intro x y k
        unfold Mixed.Adj AG.mixed at k ⊢
        rw [s1, s3, s4]
        simp only [Finset.mem_insert]
        tauto
    cases hrv : r with
    | true => exact ⟨A, rfl, h, fun k => absurd k (hr2.1 hrv), fun _ _ => id⟩
    | false =>
      have hI : D.asMixed.IndL L i j := by
        by_contra hc; rw [hr2.2 hc] at hrv; cases hrv
      simp only [Bool.false_eq_true, if_false]
      have q1 : i ∈ anc j ↔ Path D.E i j := hanc j hj.1 i
      have q2 : j ∈ anc i ↔ Path D.E j i := hanc i hi.1 j
      by_cases p1 : Path D.E i j
      · rw [if_pos (q1.2 p1)]
        obtain ⟨B, b1, b2, b3, b4⟩ := addDir hij hi.1 hj.1 hE hI p1
        exact ⟨B, by rw [b1], b2, fun _ => b3, b4⟩
      · rw [if_neg (mt q1.1 p1)]
        by_cases p2 : Path D.E j i
        · rw [if_pos (q2.2 p2)]
          obtain ⟨B, b1, b2, b3, b4⟩ := addDir hij.symm hj.1 hi.1 hE' (hI.symm hn) p2
          exact ⟨B, by rw [b1], b2, fun _ => b2.good.mg_ok.symm _ _ b3, b4⟩
        · rw [if_neg (mt q2.1 p2)]
          have hnone : (A.addBidirectedRaw i j).2 = none := by
            unfold AG.addBidirectedRaw
            split_ifs with c1 c2 c3 c4
            · rfl
            · rw [nb] at c2; simp at c2
            · rw [nb] at c3; simp at c3
            · exact absurd c4 (nadj hE)
            · rfl
          obtain ⟨g, s, -⟩ := AG.addBidirectedRaw_spec h.good hij
          obtain ⟨s1, s2, s3, s4⟩ := s hnone
          generalize A.addBidirectedRaw i j = r at *
          obtain ⟨B, e⟩ := r
          dsimp only at *
          subst hnone
          refine ⟨B, rfl, ⟨g, ?_, by rw [s4, h.no_un], ?_, ?_, ?_⟩, fun _ => Or.inr (Or.inr (Or.inl ?_)), ?_⟩
          · rw [s2, h.nodes]; simp [hi.1, hj.1]
          · rw [s3]; exact h.sub
          · rw [s3]; exact h.dir
          · intro x y k
            rw [s1, Finset.mem_insert] at k
            rcases k with k | k
            · rcases PDAG.pair_eq_iff.1 k with ⟨rfl, rfl⟩ | ⟨rfl, rfl⟩
              · exact ⟨hI, p1, p2⟩
              · exact ⟨hI.symm hn, p2, p1⟩
            · exact h.bi x y k
          · change _ ∈ B.bidirected; rw [s1]; simp
          · intro x y k
            unfold Mixed.Adj AG.mixed at k ⊢
            rw [s1, s3, s4]
            simp only [Finset.mem_insert]
            exact k.imp_right (Or.imp_right (Or.imp_left Or.inr))

theorem margLoop_spec (hD : D.Valid) {anc : α → Finset α} (hanc : ∀ v ∈ D.nodes, ∀ x, x ∈ anc v ↔ Path D.E x v)
    (o : α × α → SepOracle α) : ∀ (ps : List (α × α)) (A : AG α), Growing D L A →
    (∀ p ∈ ps, p.1 ≠ p.2 ∧ p.1 ∈ D.nodes \ L ∧ p.2 ∈ D.nodes \ L) →
    ∃ B, margLoop L anc o ps A = some (B, none) ∧ Growing D L B ∧
      (∀ p ∈ ps, D.asMixed.IndL L p.1 p.2 → B.mixed.Adj p.1 p.2) ∧ ∀ x y, A.mixed.Adj x y → B.mixed.Adj x y := by
  intro ps
  induction ps with
  | nil => intro A h _; exact ⟨A, rfl, h, by simp, fun _ _ => id⟩
  | cons p ps ih =>
    intro A h hp
    obtain ⟨i, j⟩ := p
    obtain ⟨k1, k2, k3⟩ := hp _ List.mem_cons_self
    obtain ⟨B, b1, b2, b3, b4⟩ := margPair_spec hD hanc o h k1 k2 k3
    obtain ⟨C, c1, c2, c3, c4⟩ := ih B b2 fun p h => hp p (List.mem_cons_of_mem _ h)
    refine ⟨C, ?_, c2, ?_, fun x y k => c4 x y (b4 x y k)⟩
    · rw [margLoop, b1, Option.bind_some]; exact c1
    · intro p hp hI
      rw [List.mem_cons] at hp
      rcases hp with rfl | hp
      · exact c4 _ _ (b3 hI)
      · exact c3 p hp hI

/-- `marginal_mag` returns the marginal graph. -/
theorem marginalMag_spec (hD : D.Valid) (w : MargOracle α) (L : Finset α) :
    ∃ A, marginalMag D w L = some (A, none) ∧ A.Good ∧ A.nodes = D.nodes \ L ∧ A.mixed = D.asMixed.marg L := by
  have hn := asMixed_nice hD
  have gr : Growing D L D.asAG := by
    refine ⟨asAG_good hD, rfl, rfl, fun _ => id, ?_, by simp [asAG]⟩
    intro i j k
    exact ⟨Mixed.IndL.of_adj (Or.inl k), .single k⟩
  obtain ⟨anc, ha, hanc⟩ := AG.ancestorDict_spec (asAG_good hD) (by rw [asAG_mixed]; exact hn.anc) w.top w.spouse w.kids
  rw [asAG_mixed] at hanc
  obtain ⟨B, b1, b2, b3, -⟩ := margLoop_spec hD (L := L) hanc w.sep (pairs (w.obs.ord () (D.nodes \ L))) _ gr (by
    rintro ⟨x, y⟩ hp
    have := (mem_pairs (w.obs.nodup _ _)).1 (Or.inl hp)
    rw [w.obs.mem_iff, w.obs.mem_iff] at this
    exact ⟨this.2.2, this.1, this.2.1⟩)
  obtain ⟨A, a1, a2, a3, a4, a5, a6⟩ := AG.forEach_ok
    (fun pre A => A.Good ∧ A.nodes = B.nodes \ pre.toFinset ∧
      (∀ i j, (i, j) ∈ A.directed ↔ (i, j) ∈ B.directed ∧ i ∉ pre ∧ j ∉ pre) ∧
      (∀ i j, {i, j} ∈ A.bidirected ↔ {i, j} ∈ B.bidirected ∧ i ∉ pre ∧ j ∉ pre) ∧ A.undirected = ∅)
    (fun A v => AG.removeNode true (w.adjKey v) (w.rem v) A v) (w.lat.ord () L) B
    ⟨b2.good, by simp, by simp, by simp, b2.no_un⟩ (by
      rintro pre x post A - ⟨k1, k2, k3, k4, k5⟩
      obtain ⟨s1, s2, s3, s4, s5, s6⟩ := AG.removeNode_spec k1 true (w.adjKey x) (w.rem x) x
      refine ⟨by rw [s6]; simp, s1, ?_, ?_, ?_, ?_⟩
      · rw [s2, k2]; ext y; simp; tauto
      · intro i j; rw [s3, k3]; simp; tauto
      · intro i j
        rw [s4, k4]
        simp only [Finset.mem_insert, Finset.mem_singleton, List.mem_append, List.mem_singleton, not_or]
        constructor
        · rintro ⟨⟨q1, q2, q3⟩, q4, q5⟩; exact ⟨q1, ⟨q2, Ne.symm q4⟩, q3, Ne.symm q5⟩
        · rintro ⟨q1, ⟨q2, q4⟩, q3, q5⟩; exact ⟨⟨q1, q2, q3⟩, Ne.symm q4, Ne.symm q5⟩
      · rw [Finset.eq_empty_iff_forall_notMem]; intro e he
        have := ((s5 e).1 he).1
        rw [k5] at this; simp at this)
  have adjOf : ∀ {i j}, i ∉ L → j ∉ L → i ≠ j → D.asMixed.IndL L i j → B.mixed.Adj i j := by
    intro i j hi hj hij hI
    have mem : i ∈ D.nodes ∧ j ∈ D.nodes := by
      obtain ⟨m, e, k⟩ := hI
      obtain ⟨⟨x, hx⟩, ⟨y, hy⟩⟩ := Mixed.Seg.ends k
      have := (b2.good.adj_mem (b2.adj hx)).1
      have := (b2.good.adj_mem (b2.adj hy)).2
      rw [b2.nodes] at *
      exact ⟨‹_›, ‹_›⟩
    rcases (mem_pairs (w.obs.nodup () (D.nodes \ L))).2 ⟨(w.obs.mem_iff _ _ _).2 (Finset.mem_sdiff.2 ⟨mem.1, hi⟩),
      (w.obs.mem_iff _ _ _).2 (Finset.mem_sdiff.2 ⟨mem.2, hj⟩), hij⟩ with k | k
    · exact b3 _ k hI
    · exact b2.good.mg_ok.symm _ _ (b3 _ k (hI.symm hn))
  refine ⟨A, ?_, a2, ?_, ?_⟩
  · unfold marginalMag
    rw [asAG_new hD]
    dsimp only
    rw [ha, Option.bind_some]
    change Option.map _ _ = _
    rw [b1, Option.map_some]
    change some (AG.forEach _ _ _) = _
    rw [a1]
  · rw [a3, b2.nodes]; ext x; simp [w.lat.mem_iff]
  · simp only [w.lat.mem_iff] at a4 a5
    unfold Mixed.marg
    have e1 : A.mixed.dir = (D.asMixed.marg L).dir := by
      funext i j
      refine propext ⟨fun k => ?_, fun k => ?_⟩
      · obtain ⟨k1, k2, k3⟩ := (a4 i j).1 k
        exact ⟨k2, k3, b2.dir _ _ k1⟩
      · obtain ⟨k1, k2, k3, k4⟩ := k
        have hadj := adjOf k1 k2 (by rintro rfl; exact hD.acyclic _ k4) k3
        refine (a4 i j).2 ⟨?_, k1, k2⟩
        have := (b2.into hD (b2.good.mg_ok.symm _ _ hadj)).not_left.2 k4
        rcases hadj with k | k | k | k
        · exact k
        · exact absurd (Or.inl k) this
        · exact absurd (Or.inr (b2.good.proper.bi_symm _ _ k)) this
        · change _ ∈ B.undirected at k
          rw [b2.no_un] at k; simp at k
    have e2 : A.mixed.bi = (D.asMixed.marg L).bi := by
      funext i j
      refine propext ⟨fun k => ?_, fun k => ?_⟩
      · obtain ⟨k1, k2, k3⟩ := (a5 i j).1 k
        exact ⟨k2, k3, b2.good.1.bi_ne k1, b2.bi _ _ k1⟩
      · obtain ⟨k1, k2, k3, k4, k5, k6⟩ := k
        have hadj := adjOf k1 k2 k3 k4
        refine (a5 i j).2 ⟨?_, k1, k2⟩
        rcases hadj with k | k | k | k
        · exact absurd (b2.dir _ _ k).2 k5
        · exact absurd (b2.dir _ _ k).2 k6
        · exact k
        · change _ ∈ B.undirected at k
          rw [b2.no_un] at k; simp at k
    have e3 : A.mixed.un = (D.asMixed.marg L).un := by
      funext i j
      refine propext ⟨fun k => ?_, fun k => k.elim⟩
      change _ ∈ A.undirected at k
      rw [a6] at k; simp at k
    change (⟨A.mixed.dir, A.mixed.bi, A.mixed.un⟩ : Mixed α) = ⟨(D.asMixed.marg L).dir, (D.asMixed.marg L).bi, (D.asMixed.marg L).un⟩
    rw [e1, e2, e3]

end Model.DAG

namespace Model.DAG

universe u
variable {α : Type u} [DecidableEq α] {D : DAG α} {L : Finset α}
open Relation Spec

omit [DecidableEq α] in
theorem asMixed_msep (D : DAG α) {A B C : Set α} : D.asMixed.MSep A B C ↔ DSep D.E A B C := by
  have hok : D.asMixed.mg.Ok := by rw [asMixed_mg]; exact mg_ok D.E
  rw [Mixed.msep_iff hok, dsep_iff, asMixed_mg]; rfl

theorem noneSep_spec (hD : D.Valid) (o : SepOracle α) {i j : α} : ∀ Ss : List (Finset α), (∀ S ∈ Ss, i ∉ S) →
    ∃ r, noneSep D o i j Ss = some r ∧ (r = true ↔ ∀ S ∈ Ss, ¬ DSep D.E {i} {j} (S : Set α)) := by
  intro Ss
  induction Ss with
  | nil => intro _; exact ⟨true, rfl, by simp⟩
  | cons S Ss ih =>
    intro hS
    obtain ⟨r, h1, h2⟩ := dsep_decides hD o {i} {j} S (by simpa using hS S List.mem_cons_self)
    obtain ⟨r', h3, h4⟩ := ih fun S hS' => hS S (List.mem_cons_of_mem _ hS')
    simp only [Finset.coe_singleton] at h2
    rw [noneSep, h1, Option.bind_some]
    cases r with
    | true => exact ⟨false, rfl, by simp [h2.1 rfl]⟩
    | false =>
      refine ⟨r', h3, ?_⟩
      rw [h4, List.forall_mem_cons]
      exact ⟨fun k => ⟨fun k' => by simpa using h2.2 k', k⟩, fun k => k.2⟩

/-- Inducing walks and separation by observed nodes. -/
theorem indL_iff (hD : D.Valid) {i j : α} (hij : i ≠ j) (hi : i ∉ L) (hj : j ∉ L) :
    D.asMixed.IndL L i j ↔ ∀ S : Finset α, S ⊆ (D.nodes \ {i, j}) \ L → ¬ DSep D.E {i} {j} (S : Set α) := by
  classical
  have hn := asMixed_nice hD
  constructor
  · intro hI S hS hs
    rw [← asMixed_msep D] at hs
    refine Mixed.marg_not_sep hn hij hi hj hI (Z := S) ?_ ?_ hs
    · refine Set.disjoint_left.2 fun x hx hxL => ?_
      have := hS hx
      simp at this; exact this.2 hxL
    · intro k; have := hS k; simp at this
  · intro h
    by_contra hI
    refine h (((D.nodes.filter fun x => Path D.E x i ∨ Path D.E x j) \ {i, j}) \ L) ?_ ?_
    · intro x hx; simp at hx ⊢; tauto
    · rw [← asMixed_msep D]
      refine Mixed.marg_sep hn hij hi hj hI ?_
      intro x
      have : Path D.E x i ∨ Path D.E x j → x ∈ D.nodes := by
        have key : ∀ y, Path D.E x y → x ∈ D.nodes := by
          intro y k
          obtain ⟨z, hz, -⟩ := TransGen.head'_iff.1 k
          exact hD.fst_mem _ _ hz
        rintro (k | k)
        · exact key _ k
        · exact key _ k
      simp only [Finset.mem_coe, Finset.mem_sdiff, Finset.mem_filter, Finset.mem_insert, Finset.mem_singleton, not_or]
      change _ ↔ _ ∧ _ ∧ _ ∧ (Path D.E x i ∨ Path D.E x j)
      tauto

theorem isAncestorOf_spec (hD : D.Consistent) (o : SetOrder (α × Finset α) α) (a d : α) :
    ∃ r, isAncestorOf D o a d = some r ∧ (r = true ↔ Path D.E a d) := by
  obtain ⟨s, hs, h⟩ := descendantsOf_spec hD o a
  unfold isAncestorOf
  split_ifs with hc
  · exact ⟨true, rfl, iff_of_true rfl (.single ((hD.children_iff _ _).1 hc))⟩
  · exact ⟨decide (d ∈ s), by simp [hs], by simp [h]⟩

/-- The old implementation returns the same object. -/
theorem marginalMagOld_spec (hD : D.Valid) (oc : SetOrder (Fin 3) (α × α)) (on : SetOrder Unit α) (o : SepOracle α)
    (oa : SetOrder (α × Finset α) α) (oS : SetOrder (α × α) α) {A : AG α} (hA : A.Good) (hAn : A.nodes = D.nodes \ L)
    (hAm : A.mixed = D.asMixed.marg L) : marginalMagOld D oc on o oa oS L = some (A, none) := by
  have hn := asMixed_nice hD
  have hdir : ∀ i j, (i, j) ∈ A.directed ↔ (D.asMixed.marg L).dir i j := fun i j => by rw [← hAm]; rfl
  have hbi : ∀ i j, {i, j} ∈ A.bidirected ↔ (D.asMixed.marg L).bi i j := fun i j => by rw [← hAm]; rfl
  obtain ⟨r, hr, h1, h2, h3⟩ := foldlM_option (f := margPairOld D L o oa oS)
    (fun pre r => (∀ i j, (i, j) ∈ r.1 → (i, j) ∈ A.directed) ∧ (∀ i j, (i, j) ∈ r.2 → {i, j} ∈ A.bidirected) ∧
      ∀ i j, (i, j) ∈ pre → ((i, j) ∈ A.directed → (i, j) ∈ r.1) ∧ ((j, i) ∈ A.directed → (j, i) ∈ r.1) ∧
        ({i, j} ∈ A.bidirected → (i, j) ∈ r.2))
    (pairs (on.ord () (D.nodes \ L))) (∅, ∅) ⟨by simp, by simp, by simp⟩ (by
      rintro pre ⟨i, j⟩ post r hl ⟨k1, k2, k3⟩
      have hp : (i, j) ∈ pairs (on.ord () (D.nodes \ L)) := by rw [hl]; simp
      have := (mem_pairs (on.nodup _ _)).1 (Or.inl hp)
      simp only [on.mem_iff, Finset.mem_sdiff] at this
      obtain ⟨⟨hi, hiL⟩, ⟨hj, hjL⟩, hij⟩ := this
      obtain ⟨b, b1, b2⟩ := noneSep_spec hD o (i := i) (j := j)
        (powerset (oS.ord (i, j) ((D.nodes \ {i, j}) \ L)) 0 none) (by
          intro S hS hi
          have := ((powerset_spec (oS.nodup _ _) 0 none).2 S).1 hS
          have := this.1 hi
          simp [oS.mem_iff] at this)
      have b3 : b = true ↔ D.asMixed.IndL L i j := by
        rw [b2, indL_iff hD hij hiL hjL]
        refine forall_congr' fun S => imp_congr ?_ Iff.rfl
        rw [(powerset_spec (oS.nodup _ _) 0 none).2 S]
        constructor
        · intro k x hx; have := k.1 hx; rwa [List.mem_toFinset, oS.mem_iff] at this
        · intro k
          refine ⟨fun x hx => ?_, by simp, by simp⟩
          rw [List.mem_toFinset, oS.mem_iff]; exact k hx
      unfold margPairOld
      dsimp only
      rw [b1, Option.bind_some]
      have ext : ∀ {P : α → α → Prop}, (∀ x y, (x, y) ∈ pre → P x y) → P i j → ∀ x y, (x, y) ∈ pre ++ [(i, j)] → P x y := by
        intro P hpre hP x y hxy
        simp only [List.mem_append, List.mem_singleton, Prod.mk.injEq] at hxy
        rcases hxy with hxy | ⟨rfl, rfl⟩
        · exact hpre x y hxy
        · exact hP
      by_cases hb : b = true
      · rw [if_pos hb]
        have hI := b3.1 hb
        obtain ⟨r1, r2, r3⟩ := isAncestorOf_spec hD.toConsistent oa i j
        obtain ⟨s1, s2, s3⟩ := isAncestorOf_spec hD.toConsistent oa j i
        rw [r2, Option.bind_some, s2, Option.map_some]
        by_cases hr1 : r1 = true
        · rw [if_pos hr1]
          have hp := r3.1 hr1
          refine ⟨_, rfl, ?_, k2, ext ?_ ?_⟩
          · intro x y hxy
            rw [Finset.mem_insert, Prod.mk.injEq] at hxy
            rcases hxy with ⟨rfl, rfl⟩ | hxy
            · exact (hdir _ _).2 ⟨hiL, hjL, hI, hp⟩
            · exact k1 _ _ hxy
          · intro x y hxy
            obtain ⟨q1, q2, q3⟩ := k3 x y hxy
            exact ⟨fun k => Finset.mem_insert_of_mem (q1 k), fun k => Finset.mem_insert_of_mem (q2 k), q3⟩
          · refine ⟨fun _ => Finset.mem_insert_self _ _, fun k => ?_, fun k => ?_⟩
            · exact absurd (hp.trans ((hdir _ _).1 k).2.2.2) (hD.acyclic i)
            · exact absurd hp ((hbi _ _).1 k).2.2.2.2.1
        · rw [if_neg hr1]
          have hp : ¬ Path D.E i j := fun k => hr1 (r3.2 k)
          by_cases hs1 : s1 = true
          · rw [if_pos hs1]
            have hq := s3.1 hs1
            refine ⟨_, rfl, ?_, k2, ext ?_ ?_⟩
            · intro x y hxy
              rw [Finset.mem_insert, Prod.mk.injEq] at hxy
              rcases hxy with ⟨rfl, rfl⟩ | hxy
              · exact (hdir _ _).2 ⟨hjL, hiL, hI.symm hn, hq⟩
              · exact k1 _ _ hxy
            · intro x y hxy
              obtain ⟨q1, q2, q3⟩ := k3 x y hxy
              exact ⟨fun k => Finset.mem_insert_of_mem (q1 k), fun k => Finset.mem_insert_of_mem (q2 k), q3⟩
            · refine ⟨fun k => ?_, fun _ => Finset.mem_insert_self _ _, fun k => ?_⟩
              · exact absurd ((hdir _ _).1 k).2.2.2 hp
              · exact absurd hq ((hbi _ _).1 k).2.2.2.2.2
          · rw [if_neg hs1]
            have hq : ¬ Path D.E j i := fun k => hs1 (s3.2 k)
            refine ⟨_, rfl, k1, ?_, ext ?_ ?_⟩
            · intro x y hxy
              rw [Finset.mem_insert, Prod.mk.injEq] at hxy
              rcases hxy with ⟨rfl, rfl⟩ | hxy
              · exact (hbi _ _).2 ⟨hiL, hjL, hij, hI, hp, hq⟩
              · exact k2 _ _ hxy
            · intro x y hxy
              obtain ⟨q1, q2, q3⟩ := k3 x y hxy
              exact ⟨q1, q2, fun k => Finset.mem_insert_of_mem (q3 k)⟩
            · refine ⟨fun k => ?_, fun k => ?_, fun _ => Finset.mem_insert_self _ _⟩
              · exact absurd ((hdir _ _).1 k).2.2.2 hp
              · exact absurd ((hdir _ _).1 k).2.2.2 hq
      · rw [if_neg hb]
        have hI : ¬ D.asMixed.IndL L i j := fun k => hb (b3.2 k)
        refine ⟨r, rfl, k1, k2, ext k3 ⟨fun k => ?_, fun k => ?_, fun k => ?_⟩⟩
        · exact absurd ((hdir _ _).1 k).2.2.1 hI
        · exact absurd (((hdir _ _).1 k).2.2.1.symm hn) hI
        · exact absurd ((hbi _ _).1 k).2.2.2.1 hI)
  have done : ∀ {i j}, i ∈ A.nodes → j ∈ A.nodes → i ≠ j →
      (i, j) ∈ pairs (on.ord () (D.nodes \ L)) ∨ (j, i) ∈ pairs (on.ord () (D.nodes \ L)) := by
    intro i j hi hj hij
    exact (mem_pairs (on.nodup _ _)).2 ⟨(on.mem_iff _ _ _).2 (hAn ▸ hi), (on.mem_iff _ _ _).2 (hAn ▸ hj), hij⟩
  have e1 : r.1 = A.directed := by
    ext ⟨i, j⟩
    refine ⟨h1 i j, fun k => ?_⟩
    have hm := hA.1.dir_mem i j k
    rcases done hm.1 hm.2 (by rintro rfl; exact hA.1.dir_ne _ k) with p | p
    · exact (h3 _ _ p).1 k
    · exact (h3 _ _ p).2.1 k
  have e2 : r.2.image (fun e => ({e.1, e.2} : Finset α)) = A.bidirected := by
    ext e
    simp only [Finset.mem_image, Prod.exists]
    constructor
    · rintro ⟨i, j, k, rfl⟩; exact h2 i j k
    · intro k
      obtain ⟨i, j, hij, rfl⟩ := hA.1.bi_pair e k
      have hm := hA.1.bi_mem _ k
      rcases done (hm (by simp)) (hm (by simp)) hij with p | p
      · exact ⟨i, j, (h3 _ _ p).2.2 k, rfl⟩
      · exact ⟨j, i, (h3 _ _ p).2.2 (by rwa [Finset.pair_comm]), Finset.pair_comm _ _⟩
  have e3 : A.undirected = ∅ := by
    rw [Finset.eq_empty_iff_forall_notMem]; intro e k
    obtain ⟨i, j, -, rfl⟩ := hA.1.un_pair e k
    have : A.mixed.un i j := k
    rw [hAm] at this; exact this
  unfold marginalMagOld
  rw [hr]
  change some (AG.new _ _ _ _ _) = _
  rw [e1, ← hAn, AG.new_ok hA oc r.2 ∅ e2 (by rw [e3]; rfl)]

end Model.DAG
