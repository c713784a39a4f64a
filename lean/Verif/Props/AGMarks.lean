import Verif.Proof.AGMec
import Verif.Proof.InvConn
import Verif.Props.AGEquiv

/-! # C97, C98, C99, C100: mark changes of `AncestralGraph` -/

namespace Props

open Model Relation Spec

universe u
variable {α : Type u} [DecidableEq α]

/-! ## C97 -/

/-- C97. On a directed maximal ancestral graph `legitimate_mark_changes()` terminates without raising. The first set
consists of the directed edges `i → j` for which the graph with `i ↔ j` instead is again a directed maximal ancestral
graph with the same m-separations; the second one of the pairs `(i, j)` with `i ↔ j` for which this holds of the graph with
`i → j` instead. -/
theorem C97_legitimate_mark_changes (A : AG α) (h : AG.Reachable A)
    (hd : A.mixed.DMAG {v | v ∈ A.nodes}) (w : MarkOracle α) :
    ∃ D B, A.legitimateMarkChanges w = pure (D, B) ∧
      (∀ i j, (i, j) ∈ D ↔ A.mixed.dir i j ∧ (A.mixed.toBi i j).DMAG {v | v ∈ A.nodes} ∧
        A.mixed.MarkovEquiv (A.mixed.toBi i j) {v | v ∈ A.nodes}) ∧
      ∀ i j, (i, j) ∈ B ↔ A.mixed.bi i j ∧ (A.mixed.toDir i j).DMAG {v | v ∈ A.nodes} ∧
        A.mixed.MarkovEquiv (A.mixed.toDir i j) {v | v ∈ A.nodes} := by
  have hun := AG.un_empty_of h.good hd.no_un
  obtain ⟨D, B, h1, h2, h3⟩ := AG.legitimateMarkChanges_spec h.good hd.anc hun w
  refine ⟨D, B, h1, fun i j => (h2 i j).trans (and_congr_right fun k => ?_), fun i j => (h3 i j).trans (and_congr_right fun k => ?_)⟩
  · exact AG.legit_toBi h.good hd.anc hd.max hun k
  · exact AG.legit_toDir h.good hd.anc hd.max hun k

/-- C97. On a graph with undirected edges `legitimate_mark_changes` raises `ValueError`, with both values of `strict`, and
so does `get_all_mec`. -/
theorem C97_undirected (A : AG α) (h : A.undirected ≠ ∅) (w : MarkOracle α) (w' : ℕ → MecOracle α) :
    A.legitimateMarkChanges w = throw .value ∧ A.looseMarkChanges w = throw .value ∧ A.getAllMec w' = throw .value := by
  have hne : A.undirected.Nonempty := Finset.nonempty_iff_ne_empty.2 h
  refine ⟨if_pos hne, if_pos hne, ?_⟩
  rw [AG.getAllMec, AG.mecLoop]
  dsimp only
  rw [AG.legitimateMarkChanges, if_pos hne]
  rfl

namespace Sample

theorem discNon_dmag : discNon.mixed.DMAG {v | v ∈ discNon.nodes} := ⟨by decide, discNon_ancestral, discNon_maximal⟩

end Sample

/-- In `0 → 1 ↔ 2 → 3`, `1 → 3` the mark change of `2 → 3` is refused because of the discriminating path, and indeed would
change the separations. -/
example (w : MarkOracle (Fin 4)) : ∃ D B, Sample.discNon.legitimateMarkChanges w = pure (D, B) ∧ (2, 3) ∉ D ∧
    Sample.discNon.mixed.dir 2 3 ∧ ¬ ((Sample.discNon.mixed.toBi 2 3).DMAG {v | v ∈ Sample.discNon.nodes} ∧
      Sample.discNon.mixed.MarkovEquiv (Sample.discNon.mixed.toBi 2 3) {v | v ∈ Sample.discNon.nodes}) := by
  obtain ⟨D, B, h1, h2, h3⟩ := C97_legitimate_mark_changes _ Sample.discNon_reachable Sample.discNon_dmag w
  have hd : Sample.discNon.mixed.dir 2 3 := by decide
  have hn : ¬ ((Sample.discNon.mixed.toBi 2 3).DMAG {v | v ∈ Sample.discNon.nodes} ∧
      Sample.discNon.mixed.MarkovEquiv (Sample.discNon.mixed.toBi 2 3) {v | v ∈ Sample.discNon.nodes}) := fun k =>
    ((AG.legit_toBi Sample.discNon_good Sample.discNon_ancestral Sample.discNon_maximal rfl hd).2 k).disc 0 [1] Sample.discNon_disc
  exact ⟨D, B, h1, fun k => hn ((h2 2 3).1 k).2, hd, hn⟩

/-- A graph with an undirected edge. -/
example : (_root_.Sample.mixed (n := 4) {(1, 2)} ∅ {{0, 1}}).undirected ≠ ∅ := by decide

/-! ## C98 -/

/-- C98. On an ancestral graph without undirected edges `legitimate_mark_changes(strict=False)` terminates without raising.
The first set consists of the directed edges `i → j` for which the graph with `i ↔ j` instead is ancestral and has the same
unshielded colliders; the second one of the pairs `(i, j)` with `i ↔ j` for which this holds of the graph with `i → j`
instead. -/
theorem C98_loose_mark_changes (A : AG α) (h : AG.Reachable A) (ha : A.mixed.Ancestral) (hun : A.undirected = ∅)
    (w : MarkOracle α) :
    ∃ D B, A.looseMarkChanges w = pure (D, B) ∧
      (∀ i j, (i, j) ∈ D ↔ A.mixed.dir i j ∧ (A.mixed.toBi i j).Ancestral ∧ A.mixed.SameColliders (A.mixed.toBi i j)) ∧
      ∀ i j, (i, j) ∈ B ↔ A.mixed.bi i j ∧ (A.mixed.toDir i j).Ancestral ∧ A.mixed.SameColliders (A.mixed.toDir i j) := by
  obtain ⟨D, B, h1, h2, h3⟩ := AG.looseMarkChanges_spec h.good ha hun w
  have hA := h.good.anc ha
  refine ⟨D, B, h1, fun i j => (h2 i j).trans (and_congr_right fun k => ?_), fun i j => (h3 i j).trans (and_congr_right fun k => ?_)⟩
  · exact ((Mixed.flip_toBi hA (AG.Good.un_empty hun) k).loose_N hA).symm
  · exact ((Mixed.flip_toDir hA (AG.Good.un_empty hun) k).loose_M hA).symm

/-- C98. The changes found with `strict=True` are among those found with `strict=False`. -/
theorem C98_strict_subset (A : AG α) (h : AG.Reachable A) (ha : A.mixed.Ancestral) (hun : A.undirected = ∅)
    (w w' : MarkOracle α) :
    ∃ D B D' B', A.legitimateMarkChanges w = pure (D, B) ∧ A.looseMarkChanges w' = pure (D', B') ∧ D ⊆ D' ∧ B ⊆ B' := by
  obtain ⟨D, B, h1, h2, h3⟩ := AG.legitimateMarkChanges_spec h.good ha hun w
  obtain ⟨D', B', k1, k2, k3⟩ := AG.looseMarkChanges_spec h.good ha hun w'
  refine ⟨D, B, D', B', h1, k1, ?_, ?_⟩
  · rintro ⟨i, j⟩ he
    exact (k2 i j).2 ⟨((h2 i j).1 he).1, ((h2 i j).1 he).2.toLoose⟩
  · rintro ⟨i, j⟩ he
    exact (k3 i j).2 ⟨((h3 i j).1 he).1, ((h3 i j).1 he).2.toLoose⟩

/-- With `strict=False` the mark change of `2 → 3` in `0 → 1 ↔ 2 → 3`, `1 → 3` is reported. -/
example (w : MarkOracle (Fin 4)) : ∃ D B, Sample.discNon.looseMarkChanges w = pure (D, B) ∧ (2, 3) ∈ D := by
  obtain ⟨D, B, h1, h2, -⟩ := AG.looseMarkChanges_spec Sample.discNon_good Sample.discNon_ancestral rfl w
  refine ⟨D, B, h1, (h2 2 3).2 ⟨by decide, by decide, by decide, fun c h1 h2 => ?_⟩⟩
  exact absurd h1 (by revert c; decide)

/-! ## C99 -/

/-- C99. On a directed maximal ancestral graph `get_all_mec()` terminates without raising, whatever the iteration orders; the
first graph of the returned list is the graph itself, and the graphs in the list are exactly the directed maximal ancestral
graphs with the same nodes and the same m-separations. -/
theorem C99_get_all_mec (A : AG α) (h : AG.Reachable A) (hd : A.mixed.DMAG {v | v ∈ A.nodes}) (w : ℕ → MecOracle α) :
    ∃ r, A.getAllMec w = pure (A :: r) ∧ ∀ C, C ∈ A :: r ↔ C.Consistent ∧ C.Simple ∧ C.nodes = A.nodes ∧
      C.mixed.DMAG {v | v ∈ A.nodes} ∧ A.mixed.MarkovEquiv C.mixed {v | v ∈ A.nodes} := by
  have hA : AG.IsMag A.nodes A := ⟨h.good, rfl, AG.un_empty_of h.good hd.no_un, hd.anc, hd.max⟩
  obtain ⟨r, h1, h2⟩ := AG.getAllMec_spec hA w
  refine ⟨r, h1, fun C => (h2 C).trans ?_⟩
  constructor
  · intro k
    have hC := AG.isMag_of_reach hA k
    obtain ⟨-, -, -, k4⟩ := (AG.reach_iff hA (w 0)).1 k
    exact ⟨hC.good.1, hC.good.2, hC.nodes, ⟨AG.Good.un_empty hC.un, hC.anc, hC.max⟩, AG.markSteps_equiv k4⟩
  · rintro ⟨c1, c2, c3, c4, c5⟩
    have gC : C.Good := ⟨c1, c2⟩
    refine (AG.reach_iff hA (w 0)).2 ⟨gC, c3, AG.un_empty_of gC c4.no_un, ?_⟩
    refine Mixed.Mag.connected ⟨h.good.anc hd.anc, hd.no_un, fun x y k => (h.good.adj_mem k).1, hd.max⟩
      ⟨gC.anc c4.anc, c4.no_un, fun x y k => ?_, c4.max⟩ c5
    rw [← c3]; exact (gC.adj_mem k).1

/-- The theorem of Zhang and Spirtes behind it: two directed maximal ancestral graphs with the same m-separations are connected
by single mark changes through such graphs. -/
theorem C99_connected (A C : AG α) (h : AG.Reachable A) (h' : AG.Reachable C) (hn : C.nodes = A.nodes)
    (hd : A.mixed.DMAG {v | v ∈ A.nodes}) (hd' : C.mixed.DMAG {v | v ∈ A.nodes})
    (he : A.mixed.MarkovEquiv C.mixed {v | v ∈ A.nodes}) :
    ReflTransGen (Mixed.MarkStep {v | v ∈ A.nodes}) A.mixed C.mixed :=
  Mixed.Mag.connected ⟨h.good.anc hd.anc, hd.no_un, fun _ _ k => (h.good.adj_mem k).1, hd.max⟩
    ⟨h'.good.anc hd'.anc, hd'.no_un, fun _ _ k => by rw [← hn]; exact (h'.good.adj_mem k).1, hd'.max⟩ he

/-- The graph `0 → 1 ↔ 2 → 3`, `1 → 3` is such a graph. -/
example : AG.Reachable Sample.discNon ∧ Sample.discNon.mixed.DMAG {v | v ∈ Sample.discNon.nodes} :=
  ⟨Sample.discNon_reachable, Sample.discNon_dmag⟩

/-! ## C100 -/

namespace Sample

/-- Two separate edges. -/
def twoDD : AG (Fin 4) := _root_.Sample.mixed {(0, 1), (2, 3)} ∅ ∅
def twoBD : AG (Fin 4) := _root_.Sample.mixed {(2, 3)} {{0, 1}} ∅
def twoDB : AG (Fin 4) := _root_.Sample.mixed {(0, 1)} {{2, 3}} ∅
def twoBB : AG (Fin 4) := _root_.Sample.mixed ∅ {{0, 1}, {2, 3}} ∅

theorem twoDD_good : twoDD.Good := _root_.Sample.mixed_good (by decide) (by decide) (by decide) (by decide) (by decide)
theorem twoBD_good : twoBD.Good := _root_.Sample.mixed_good (by decide) (by decide) (by decide) (by decide) (by decide)
theorem twoDB_good : twoDB.Good := _root_.Sample.mixed_good (by decide) (by decide) (by decide) (by decide) (by decide)
theorem twoBB_good : twoBB.Good := _root_.Sample.mixed_good (by decide) (by decide) (by decide) (by decide) (by decide)

theorem twoDD_mag : AG.IsMag Finset.univ twoDD :=
  ⟨twoDD_good, rfl, rfl, _root_.Sample.mixed_ancestral {(0, 1), (2, 3)} (by decide) (by decide) (by decide) (by decide),
    _root_.Sample.mixed_maximal twoDD_good {(0, 1), (2, 3)} ∅ (by decide) (by decide) (by decide) (by decide) (by decide)⟩
theorem twoBD_mag : AG.IsMag Finset.univ twoBD :=
  ⟨twoBD_good, rfl, rfl, _root_.Sample.mixed_ancestral {(2, 3)} (by decide) (by decide) (by decide) (by decide),
    _root_.Sample.mixed_maximal twoBD_good {(2, 3)} ∅ (by decide) (by decide) (by decide) (by decide) (by decide)⟩
theorem twoDB_mag : AG.IsMag Finset.univ twoDB :=
  ⟨twoDB_good, rfl, rfl, _root_.Sample.mixed_ancestral {(0, 1)} (by decide) (by decide) (by decide) (by decide),
    _root_.Sample.mixed_maximal twoDB_good {(0, 1)} ∅ (by decide) (by decide) (by decide) (by decide) (by decide)⟩
theorem twoBB_mag : AG.IsMag Finset.univ twoBB :=
  ⟨twoBB_good, rfl, rfl, _root_.Sample.mixed_ancestral ∅ (by decide) (by decide) (by decide) (by decide),
    _root_.Sample.mixed_maximal twoBB_good ∅ ∅ (by decide) (by decide) (by decide) (by decide) (by decide)⟩

/-- No discriminating path has a node with an arrowhead from both sides here. -/
theorem two_equiv {A B : AG (Fin 4)} (hA : AG.IsMag Finset.univ A) (hB : AG.IsMag Finset.univ B)
    (h1 : ∀ u v, A.mixed.Adj u v ↔ B.mixed.Adj u v) (h2 : ∀ u v w, A.mixed.VStruct u v w ↔ B.mixed.VStruct u v w)
    (h3 : ∀ q c, A.mixed.dir q c → ∀ u, u ≠ c → ¬ A.mixed.Into u q) :
    A.mixed.MarkovEquiv B.mixed {v | v ∈ (Finset.univ : Finset (Fin 4))} := by
  refine (Mixed.markovEquiv_iff (hA.good.anc hA.anc) (hB.good.anc hB.anc) hA.max hB.max (by simp) (by simp)).2
    ⟨h1, h2, fun x qs q b c h _ => ?_⟩
  exfalso
  have hn := h.nodup
  rw [show x :: (qs ++ [q] ++ [b, c]) = (x :: qs) ++ [q, b, c] by simp] at hn
  obtain ⟨u, hu⟩ : ∃ u, [u, q, b] <:+: x :: (qs ++ [q] ++ [b]) := by
    rcases List.eq_nil_or_concat qs with rfl | ⟨t, u, rfl⟩
    · exact ⟨x, ⟨[], [], by simp⟩⟩
    · exact ⟨u, ⟨x :: t, [], by simp⟩⟩
  refine h3 q c (h.parent q (by simp)) b ?_ (h.collider _ _ _ hu).2
  rintro rfl
  rw [List.nodup_append] at hn
  simp at hn

end Sample

/-- C100 is violated: whatever the iteration orders, `get_all_mec()` of the graph `0 → 1`, `2 → 3` returns a list in which some
graph occurs more than once. -/
theorem C100_violated (w : ℕ → MecOracle (Fin 4)) : ∃ A : AG (Fin 4), AG.Reachable A ∧ A.mixed.DMAG {v | v ∈ A.nodes} ∧
    ∃ r, A.getAllMec w = pure r ∧ ¬ r.Nodup := by
  have hA := Sample.twoDD_mag
  refine ⟨Sample.twoDD, _root_.Sample.mixed_reachable Sample.twoDD_good _root_.Sample.order ∅ ∅ rfl rfl,
    ⟨by decide, hA.anc, hA.max⟩, ?_⟩
  obtain ⟨r, h1, -⟩ := AG.getAllMec_spec hA w
  refine ⟨_, h1, AG.getAllMec_repeats (X := Sample.twoBD) (Y := Sample.twoDB) (Z := Sample.twoBB) hA ?_ ?_ ?_ ?_ ?_ ?_ ?_ ?_
    ?_ ?_ ?_ ?_ w h1⟩
  · exact ⟨Sample.twoBD_mag, Sample.two_equiv Sample.twoDD_mag Sample.twoBD_mag (by decide) (by decide) (by decide),
      Or.inl ⟨0, 1, by decide, by decide, by decide⟩⟩
  · exact ⟨Sample.twoDB_mag, Sample.two_equiv Sample.twoDD_mag Sample.twoDB_mag (by decide) (by decide) (by decide),
      Or.inl ⟨2, 3, by decide, by decide, by decide⟩⟩
  · exact fun e => absurd (congrArg AG.bidirected e) (by decide)
  · exact fun e => absurd (congrArg AG.bidirected e) (by decide)
  · exact fun e => absurd (congrArg AG.bidirected e) (by decide)
  · exact fun e => absurd (congrArg AG.bidirected e) (by decide)
  · exact fun e => absurd (congrArg AG.bidirected e) (by decide)
  · exact fun e => absurd (congrArg AG.bidirected e) (by decide)
  · exact ⟨Sample.twoBB_mag, Sample.two_equiv Sample.twoBD_mag Sample.twoBB_mag (by decide) (by decide) (by decide),
      Or.inl ⟨2, 3, by decide, by decide, by decide⟩⟩
  · exact ⟨Sample.twoBB_mag, Sample.two_equiv Sample.twoDB_mag Sample.twoBB_mag (by decide) (by decide) (by decide),
      Or.inl ⟨0, 1, by decide, by decide, by decide⟩⟩
  · exact ⟨Sample.twoBD_mag, Sample.two_equiv Sample.twoBB_mag Sample.twoBD_mag (by decide) (by decide) (by decide),
      Or.inr ⟨2, 3, by decide, by decide, by decide⟩⟩
  · exact ⟨Sample.twoDB_mag, Sample.two_equiv Sample.twoBB_mag Sample.twoDB_mag (by decide) (by decide) (by decide),
      Or.inr ⟨0, 1, by decide, by decide, by decide⟩⟩

/-- What holds of C100: every directed maximal ancestral graph with the same m-separations is listed at least once, and no other
graph is listed. -/
theorem C100_listed_once_partial [DecidableEq (AG α)] (A : AG α) (h : AG.Reachable A) (hd : A.mixed.DMAG {v | v ∈ A.nodes})
    (w : ℕ → MecOracle α) : ∃ r, A.getAllMec w = pure r ∧ ∀ C, 1 ≤ r.count C ↔ C.Consistent ∧ C.Simple ∧ C.nodes = A.nodes ∧
      C.mixed.DMAG {v | v ∈ A.nodes} ∧ A.mixed.MarkovEquiv C.mixed {v | v ∈ A.nodes} := by
  obtain ⟨r, h1, h2⟩ := C99_get_all_mec A h hd w
  exact ⟨_, h1, fun C => List.one_le_count_iff.trans (h2 C)⟩

/-- Two graphs as in `C99_connected` that differ in two marks. -/
example : Sample.twoDD.mixed.DMAG {v | v ∈ Sample.twoDD.nodes} ∧ Sample.twoBB.mixed.DMAG {v | v ∈ Sample.twoDD.nodes} ∧
    Sample.twoDD.mixed.MarkovEquiv Sample.twoBB.mixed {v | v ∈ Sample.twoDD.nodes} :=
  ⟨⟨by decide, Sample.twoDD_mag.anc, Sample.twoDD_mag.max⟩, ⟨by decide, Sample.twoBB_mag.anc, Sample.twoBB_mag.max⟩,
    Sample.two_equiv Sample.twoDD_mag Sample.twoBB_mag (by decide) (by decide) (by decide)⟩

end Props
