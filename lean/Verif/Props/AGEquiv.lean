import Verif.Proof.AGEquiv
import Verif.Props.Maximal

/-! # C94, C95, C96: discriminating paths and Markov equivalence of `AncestralGraph` -/

namespace Sample

open Model Relation Spec

section Decidable
variable {β : Type*} [DecidableEq β] (A : AG β) (u v w : β)

instance : Decidable (A.mixed.dir u v) := inferInstanceAs (Decidable ((u, v) ∈ A.directed))
instance : Decidable (A.mixed.bi u v) := inferInstanceAs (Decidable ({u, v} ∈ A.bidirected))
instance : Decidable (A.mixed.un u v) := inferInstanceAs (Decidable ({u, v} ∈ A.undirected))
instance : Decidable (A.mixed.Adj u v) := inferInstanceAs (Decidable (_ ∨ _ ∨ _ ∨ _))
instance : Decidable (A.mixed.Into u v) := inferInstanceAs (Decidable (_ ∨ _))
instance : Decidable (A.mixed.Collider u v w) := inferInstanceAs (Decidable (_ ∧ _))
instance : Decidable (A.mixed.VStruct u v w) := inferInstanceAs (Decidable (_ ∧ _ ∧ _))

end Decidable

variable {n : ℕ} {d : Finset (Fin n × Fin n)} {b : Finset (Finset (Fin n))}

theorem mixed_path {t : Finset (Fin n × Fin n)} (h1 : ∀ x ∈ d, x ∈ t) (h2 : ∀ x ∈ t, ∀ y ∈ t, x.2 = y.1 → (x.1, y.2) ∈ t)
    {x y : Fin n} (h : Path (mixed d b ∅).mixed.dir x y) : (x, y) ∈ t := by
  induction h with
  | single h => exact h1 _ h
  | tail _ h ih => exact h2 _ ih _ (h1 _ h) rfl

/-- `t` contains the transitive closure of the arcs. -/
theorem mixed_ancestral (t : Finset (Fin n × Fin n)) (h1 : ∀ x ∈ d, x ∈ t)
    (h2 : ∀ x ∈ t, ∀ y ∈ t, x.2 = y.1 → (x.1, y.2) ∈ t) (h3 : ∀ i, (i, i) ∉ t)
    (h4 : ∀ i j, ({i, j} : Finset (Fin n)) ∈ b → (i, j) ∉ t) : (mixed d b ∅).mixed.Ancestral := by
  refine ⟨fun v h => h3 v (mixed_path h1 h2 h), fun u v hb h => h4 u v hb (mixed_path h1 h2 h), fun u v w h => ?_⟩
  simp [AG.mixed, mixed] at h

/-- `R` contains `(i, j, v)` for the nodes `v` reached by inducing paths from `i` relative to `j`. -/
theorem mixed_maximal (g : (mixed d b ∅).Good) (t : Finset (Fin n × Fin n)) (R : Finset (Fin n × Fin n × Fin n)) (h1 : ∀ x ∈ d, x ∈ t)
    (h2 : ∀ x ∈ t, ∀ y ∈ t, x.2 = y.1 → (x.1, y.2) ∈ t)
    (h3 : ∀ i j v, (i ≠ j ∧ (i, j) ∉ d ∧ (j, i) ∉ d ∧ ({i, j} : Finset (Fin n)) ∉ b) ∧
      ((i, v) ∈ d ∨ {i, v} ∈ b) ∧ ((v, i) ∈ t ∨ (v, j) ∈ t) → (i, j, v) ∈ R)
    (h4 : ∀ x ∈ R, ∀ w, ({x.2.2, w} : Finset (Fin n)) ∈ b → ((w, x.1) ∈ t ∨ (w, x.2.1) ∈ t) → (x.1, x.2.1, w) ∈ R)
    (h5 : ∀ x ∈ R, (x.2.1, x.2.2) ∉ d ∧ {x.2.1, x.2.2} ∉ b) :
    (mixed d b ∅).mixed.Maximal {v | v ∈ (mixed d b ∅).nodes} := by
  rw [g.maximal_iff]
  rintro i - j - hij hadj ⟨v, w, k1, k2, k3, k4⟩
  have tr : ∀ {x}, (mixed d b ∅).mixed.Anc2 i j x → (x, i) ∈ t ∨ (x, j) ∈ t :=
    fun h => h.imp (mixed_path h1 h2) (mixed_path h1 h2)
  have : (i, j, w) ∈ R := by
    clear k4
    induction k3 with
    | refl =>
      exact h3 i j _ ⟨⟨hij, fun h => hadj (Or.inl h), fun h => hadj (Or.inr (Or.inl h)),
        fun h => hadj (Or.inr (Or.inr (Or.inl h)))⟩, k1, tr k2⟩
    | tail _ h ih => exact h4 _ ih _ h.1 (tr h.2)
  exact k4.elim (h5 _ this).1 (h5 _ this).2

end Sample

namespace Props

open Model Relation Spec

universe u
variable {α : Type u} [DecidableEq α]

/-! ## C94 -/

/-- C94. On every ancestral graph `discriminating_paths()` terminates without raising, for all iteration orders. The keys
of the returned dictionary are exactly the discriminating paths of the graph, each written from its first node to its last,
and a path is labelled `'c'` exactly if the node before the last is a collider on it. -/
theorem C94_discriminating_paths (A : AG α) (h : AG.Reachable A) (ha : A.mixed.Ancestral) (o : DiscOracle α) :
    ∃ d, A.discriminatingPaths o = pure d ∧
      (∀ l, d.lookup l ≠ none ↔
        ∃ x qs q b c, l = x :: (qs ++ [q, b, c]) ∧ A.mixed.Discriminating x (qs ++ [q]) b c) ∧
      ∀ x qs q b c, A.mixed.Discriminating x (qs ++ [q]) b c →
        (d.lookup (x :: (qs ++ [q, b, c])) = some true ↔ A.mixed.Collider q b c) :=
  AG.discriminatingPaths_spec h.good ha o

/-- C94. The triples returned by `vstructures()` are the unshielded colliders, each once, with the two outer nodes in the
order in which `sorted` puts them. -/
theorem C94_vstructures (A : AG α) (h : AG.Reachable A) (o : SetOrder α α) (srt : Unpack α) (u v w : α) :
    A.mixed.VStruct u v w ↔
      ((u, v, w) ∈ A.vstructures o srt ∧ srt.fn {u, w} = (u, w) ∨ (w, v, u) ∈ A.vstructures o srt ∧ srt.fn {w, u} = (w, u)) := by
  have hg := h.good
  rw [AG.mem_vstructures hg, AG.mem_vstructures hg]
  constructor
  · intro k
    rcases srt.spec u w k.1 with e | e
    · exact Or.inl ⟨⟨k, e⟩, e⟩
    · rw [Finset.pair_comm] at e
      exact Or.inr ⟨⟨AG.vstruct_symm hg.proper k, e⟩, e⟩
  · rintro (⟨⟨k, -⟩, -⟩ | ⟨⟨k, -⟩, -⟩)
    · exact k
    · exact AG.vstruct_symm hg.proper k

namespace Sample

/-- `0 → 1 ↔ 2 ↔ 3`, `1 → 3`: `0, 1, 2, 3` is a discriminating path for the collider `2`. -/
def discCol : AG (Fin 4) := _root_.Sample.mixed {(0, 1), (1, 3)} {{1, 2}, {2, 3}} ∅

/-- The same with `2 → 3`: now `2` is no collider. -/
def discNon : AG (Fin 4) := _root_.Sample.mixed {(0, 1), (1, 3), (2, 3)} {{1, 2}} ∅

theorem discCol_good : discCol.Good :=
  _root_.Sample.mixed_good (by decide) (by decide) (by decide) (by decide) (by decide)

theorem discNon_good : discNon.Good :=
  _root_.Sample.mixed_good (by decide) (by decide) (by decide) (by decide) (by decide)

theorem discCol_reachable : AG.Reachable discCol :=
  _root_.Sample.mixed_reachable discCol_good _root_.Sample.order {(1, 2), (2, 3)} ∅ (by decide) rfl

theorem discNon_reachable : AG.Reachable discNon :=
  _root_.Sample.mixed_reachable discNon_good _root_.Sample.order {(1, 2)} ∅ (by decide) rfl

theorem discCol_ancestral : discCol.mixed.Ancestral :=
  _root_.Sample.mixed_ancestral {(0, 1), (1, 3), (0, 3)} (by decide) (by decide) (by decide) (by decide)

theorem discNon_ancestral : discNon.mixed.Ancestral :=
  _root_.Sample.mixed_ancestral {(0, 1), (1, 3), (0, 3), (2, 3)} (by decide) (by decide) (by decide) (by decide)

theorem discCol_maximal : discCol.mixed.Maximal {v | v ∈ discCol.nodes} :=
  _root_.Sample.mixed_maximal discCol_good {(0, 1), (1, 3), (0, 3)}
    {(0, 3, 1)} (by decide) (by decide) (by decide) (by decide) (by decide)

theorem discNon_maximal : discNon.mixed.Maximal {v | v ∈ discNon.nodes} :=
  _root_.Sample.mixed_maximal discNon_good {(0, 1), (1, 3), (0, 3), (2, 3)}
    {(0, 3, 1), (0, 3, 2)} (by decide) (by decide) (by decide) (by decide) (by decide)

theorem infix3 {u v w a b c : Fin 4} (h : [u, v, w] <:+: [a, b, c]) : u = a ∧ v = b ∧ w = c := by
  have := h.eq_of_length rfl
  simpa using this

theorem discCol_disc : discCol.mixed.Discriminating 0 [1] 2 3 := by
  refine ⟨by simp, by decide, ?_, ?_, fun u v w hi => ?_, ?_⟩
  · decide
  · intro q hq; simp at hq; subst hq; change (_, _) ∈ discCol.directed; decide
  · obtain ⟨rfl, rfl, rfl⟩ := infix3 hi
    exact ⟨Or.inl (by change (_, _) ∈ discCol.directed; decide), Or.inr (by change _ ∈ discCol.bidirected; decide)⟩
  · exact Or.inr (Or.inr (Or.inl (by change _ ∈ discCol.bidirected; decide)))

theorem discNon_disc : discNon.mixed.Discriminating 0 [1] 2 3 := by
  refine ⟨by simp, by decide, ?_, ?_, fun u v w hi => ?_, ?_⟩
  · decide
  · intro q hq; simp at hq; subst hq; change (_, _) ∈ discNon.directed; decide
  · obtain ⟨rfl, rfl, rfl⟩ := infix3 hi
    exact ⟨Or.inl (by change (_, _) ∈ discNon.directed; decide), Or.inr (by change _ ∈ discNon.bidirected; decide)⟩
  · exact Or.inl (by change _ ∈ discNon.directed; decide)

theorem discCol_collider : discCol.mixed.Collider 1 2 3 :=
  ⟨Or.inr (by change _ ∈ discCol.bidirected; decide), Or.inr (by change _ ∈ discCol.bidirected; decide)⟩

theorem discNon_collider : ¬ discNon.mixed.Collider 1 2 3 := by
  rintro ⟨-, h⟩
  revert h
  change ¬ (_ ∨ _); unfold AG.mixed; decide

end Sample

/-- A discriminating path found with label `'c'`. -/
example (o : DiscOracle (Fin 4)) : ∃ d, Sample.discCol.discriminatingPaths o = pure d ∧ d.lookup [0, 1, 2, 3] = some true := by
  obtain ⟨d, h1, -, h2⟩ := C94_discriminating_paths _ Sample.discCol_reachable Sample.discCol_ancestral o
  exact ⟨d, h1, (h2 0 [] 1 2 3 Sample.discCol_disc).2 Sample.discCol_collider⟩

/-- `0, 1, 2` is an unshielded collider. -/
example (o : SetOrder (Fin 4) (Fin 4)) (srt : Unpack (Fin 4)) (h : srt.fn {0, 2} = (0, 2)) :
    (0, 1, 2) ∈ Sample.discCol.vstructures o srt := by
  rcases (C94_vstructures _ Sample.discCol_reachable o srt 0 1 2).1 ⟨by decide,
    ⟨Or.inl (by change _ ∈ Sample.discCol.directed; decide), Or.inr (by change _ ∈ Sample.discCol.bidirected; decide)⟩,
    by decide⟩ with k | k
  · exact k.1
  · have := k.2; rw [Finset.pair_comm, h] at this; simp at this

/-! ## C95 -/

/-- C95. For maximal ancestral graphs on the same nodes `markov_equivalent` terminates without raising, for all iteration
orders, and returns `True` exactly if the two graphs have the same m-separations. -/
theorem C95_markov_equivalent (A B : AG α) (hA : AG.Reachable A) (hB : AG.Reachable B) (aA : A.mixed.Ancestral)
    (aB : B.mixed.Ancestral) (mA : A.mixed.Maximal {v | v ∈ A.nodes}) (mB : B.mixed.Maximal {v | v ∈ B.nodes})
    (hn : A.nodes = B.nodes) (o1 o2 : DiscOracle α) (srt : Unpack α) :
    ∃ r, A.markovEquivalent o1 o2 srt B = pure ⟨r⟩ ∧
      (r = true ↔ A.mixed.MarkovEquiv B.mixed {v | v ∈ A.nodes}) :=
  AG.markovEquivalent_spec hA.good hB.good aA aB mA mB hn o1 o2 srt

/-- Two maximal ancestral graphs with the same adjacencies and unshielded colliders that are told apart. -/
example (o1 o2 : DiscOracle (Fin 4)) (srt : Unpack (Fin 4)) :
    Sample.discCol.markovEquivalent o1 o2 srt Sample.discNon = pure ⟨false⟩ ∧
      ¬ Sample.discCol.mixed.MarkovEquiv Sample.discNon.mixed {v | v ∈ Sample.discCol.nodes} := by
  obtain ⟨r, h1, h2⟩ := C95_markov_equivalent _ _ Sample.discCol_reachable Sample.discNon_reachable Sample.discCol_ancestral
    Sample.discNon_ancestral Sample.discCol_maximal Sample.discNon_maximal rfl o1 o2 srt
  obtain ⟨r', h1', h3⟩ := AG.markovEquivalent_marks Sample.discCol_good Sample.discNon_good Sample.discCol_ancestral
    Sample.discNon_ancestral o1 o2 srt
  have e : r = r' := by
    have := h1.symm.trans h1'
    have := congrArg ExceptT.run this
    simpa using this
  subst e
  have : r = false := by
    rw [Bool.eq_false_iff, Ne, h3]
    intro hs
    exact Sample.discNon_collider ((hs.disc 0 [] 1 2 3 Sample.discCol_disc Sample.discNon_disc).1 Sample.discCol_collider)
  subst this
  exact ⟨h1, by rw [← h2]; simp⟩

/-! ## C96 -/

namespace Sample

/-- `2 ↔ 0 ↔ 1 ↔ 3`, `0 → 3`, `1 → 2`: ancestral, not maximal. -/
def nonMax : AG (Fin 4) := _root_.Sample.mixed {(0, 3), (1, 2)} {{0, 2}, {0, 1}, {1, 3}} ∅

/-- A DAG with the same adjacencies. -/
def sameSkel : AG (Fin 4) := _root_.Sample.mixed {(0, 1), (0, 2), (0, 3), (1, 2), (1, 3)} ∅ ∅

theorem nonMax_good : nonMax.Good :=
  _root_.Sample.mixed_good (by decide) (by decide) (by decide) (by decide) (by decide)

theorem sameSkel_good : sameSkel.Good :=
  _root_.Sample.mixed_good (by decide) (by decide) (by decide) (by decide) (by decide)

theorem nonMax_reachable : AG.Reachable nonMax :=
  _root_.Sample.mixed_reachable nonMax_good _root_.Sample.order {(0, 2), (0, 1), (1, 3)} ∅ (by decide) rfl

theorem sameSkel_reachable : AG.Reachable sameSkel :=
  _root_.Sample.mixed_reachable sameSkel_good _root_.Sample.order ∅ ∅ rfl rfl

theorem nonMax_ancestral : nonMax.mixed.Ancestral :=
  _root_.Sample.mixed_ancestral {(0, 3), (1, 2)} (by decide) (by decide) (by decide) (by decide)

theorem sameSkel_ancestral : sameSkel.mixed.Ancestral :=
  _root_.Sample.mixed_ancestral {(0, 1), (0, 2), (0, 3), (1, 2), (1, 3)} (by decide) (by decide) (by decide) (by decide)

theorem sameSkel_maximal : sameSkel.mixed.Maximal {v | v ∈ sameSkel.nodes} :=
  _root_.Sample.mixed_maximal sameSkel_good {(0, 1), (0, 2), (0, 3), (1, 2), (1, 3)} ∅ (by decide) (by decide) (by decide)
    (by decide) (by decide)

theorem nonMax_adj : ¬ nonMax.mixed.Adj 2 3 := by
  decide

theorem nonMax_ind : nonMax.mixed.Ind 2 3 := by
  refine ⟨0, 1, Or.inr (by unfold AG.mixed; decide), Or.inr (.single (by unfold AG.mixed; decide)),
    .single ⟨by unfold AG.mixed; decide, Or.inl (.single (by unfold AG.mixed; decide))⟩, Or.inr (by unfold AG.mixed; decide)⟩

theorem nonMax_sameMarks : nonMax.mixed.SameMarks sameSkel.mixed := by
  refine ⟨?_, ?_, fun x qs q b c h0 h => ?_⟩
  · decide
  · decide
  · exfalso
    have hp := h.parent q (by simp)
    obtain ⟨u, hu, hne⟩ : ∃ u, [u, q, b] <:+: x :: (qs ++ [q] ++ [b]) ∧ u ≠ b := by
      have hnd := h.nodup
      rcases List.eq_nil_or_concat qs with rfl | ⟨t, u, rfl⟩
      · refine ⟨x, ⟨[], [], by simp⟩, ?_⟩
        rintro rfl; simp at hnd
      · refine ⟨u, ⟨x :: t, [], by simp⟩, ?_⟩
        rintro rfl; simp [List.nodup_append] at hnd
    have hc := h.collider _ _ _ hu
    clear h0 h hu
    revert u q b c
    decide

end Sample

/-- C96 is violated in both directions when the graphs need not be maximal. `2 ↔ 0 ↔ 1 ↔ 3`, `0 → 3`, `1 → 2` is reported
equivalent to the DAG `0 → 1`, `0 → 2`, `0 → 3`, `1 → 2`, `1 → 3`, which separates `2` and `3` given `0`, `1` while no set
separates them in the first graph. And it is reported not equivalent to what `to_maximal()` makes of it, which has the same
m-separations. -/
theorem C96_violated (o1 o2 : DiscOracle (Fin 4)) (srt : Unpack (Fin 4)) (w : ℕ → AG.MaxOracle (Fin 4)) :
    ∃ A B C : AG (Fin 4), AG.Reachable A ∧ A.mixed.Ancestral ∧ AG.Reachable B ∧ B.mixed.Ancestral ∧
      A.nodes = B.nodes ∧
      A.markovEquivalent o1 o2 srt B = pure ⟨true⟩ ∧ ¬ A.mixed.MarkovEquiv B.mixed {v | v ∈ A.nodes} ∧
      A.toMaximal w 0 = some (C, none) ∧ C.mixed.Ancestral ∧ A.nodes = C.nodes ∧
      A.markovEquivalent o1 o2 srt C = pure ⟨false⟩ ∧ A.mixed.MarkovEquiv C.mixed {v | v ∈ A.nodes} := by
  obtain ⟨r, h1, h2⟩ := AG.markovEquivalent_marks Sample.nonMax_good Sample.sameSkel_good Sample.nonMax_ancestral
    Sample.sameSkel_ancestral o1 o2 srt
  rw [h2.2 Sample.nonMax_sameMarks] at h1
  obtain ⟨C, k1, k2, k3, k4, -, k5, -, -, k6, k7⟩ := C75_to_maximal _ Sample.nonMax_reachable Sample.nonMax_ancestral w
  have ins : ∀ Z ⊆ {v | v ∈ Sample.nonMax.nodes} \ {2, 3}, ¬ Sample.nonMax.mixed.MSep {2} {3} Z :=
    (Mixed.ind_iff Sample.nonMax_good.proper (AG.hV Sample.nonMax_good) (by decide) Sample.nonMax_adj).1 Sample.nonMax_ind
  obtain ⟨r', g1, g2⟩ := AG.markovEquivalent_marks Sample.nonMax_good ⟨k2, k3⟩ Sample.nonMax_ancestral k4 o1 o2 srt
  have hr' : r' = false := by
    rw [Bool.eq_false_iff, Ne, g2]
    intro hs
    exact Sample.nonMax_adj ((hs.adj 2 3).2 (Or.inr (Or.inr (Or.inl ((k6 _).2 (Or.inr ⟨2, 3, rfl,
      by simp [Sample.nonMax, _root_.Sample.mixed], by simp [Sample.nonMax, _root_.Sample.mixed], by decide, Sample.nonMax_adj, ins⟩))))))
  rw [hr'] at g1
  refine ⟨_, _, C, Sample.nonMax_reachable, Sample.nonMax_ancestral, Sample.sameSkel_reachable, Sample.sameSkel_ancestral, rfl,
    h1, ?_, k1, k4, k5.symm, g1, fun S T Z _ _ _ _ hd _ => (k7 S T Z hd).symm⟩
  intro he
  obtain ⟨Z, hZ, hs⟩ := Sample.sameSkel_maximal 2 (by simp [Sample.sameSkel, _root_.Sample.mixed]) 3
    (by simp [Sample.sameSkel, _root_.Sample.mixed]) (by decide) (by decide)
  refine ins Z hZ ((he {2} {3} Z ?_ ?_ ?_ ?_ ?_ ?_).2 hs)
  · intro x _; simp [Sample.nonMax, _root_.Sample.mixed]
  · intro x _; simp [Sample.nonMax, _root_.Sample.mixed]
  · intro x _; simp [Sample.nonMax, _root_.Sample.mixed]
  · simp
  · exact Set.disjoint_singleton_left.2 fun k => (hZ k).2 (by simp)
  · exact Set.disjoint_singleton_left.2 fun k => (hZ k).2 (by simp)

/-- What holds of C96 (the whole property: for all ancestral graphs with the same nodes `A.markov_equivalent(B)` returns
`True` exactly if they have the same m-separations): it is so after both graphs have been made maximal with `to_maximal()`. -/
theorem C96_partial (A B : AG α) (hA : AG.Reachable A) (hB : AG.Reachable B) (aA : A.mixed.Ancestral)
    (aB : B.mixed.Ancestral) (hn : A.nodes = B.nodes) (w1 w2 : ℕ → AG.MaxOracle α) (o1 o2 : DiscOracle α) (srt : Unpack α) :
    ∃ A' B', A.toMaximal w1 0 = some (A', none) ∧ B.toMaximal w2 0 = some (B', none) ∧
      ∃ r, A'.markovEquivalent o1 o2 srt B' = pure ⟨r⟩ ∧
        (r = true ↔ A.mixed.MarkovEquiv B.mixed {v | v ∈ A.nodes}) := by
  obtain ⟨A', a1, a2, a3, a4, a5, a6, -, -, -, a7⟩ := C75_to_maximal A hA aA w1
  obtain ⟨B', b1, b2, b3, b4, b5, b6, -, -, -, b7⟩ := C75_to_maximal B hB aB w2
  refine ⟨A', B', a1, b1, ?_⟩
  obtain ⟨r, h1, h2⟩ := AG.markovEquivalent_spec ⟨a2, a3⟩ ⟨b2, b3⟩ a4 b4 a5 b5 (by rw [a6, b6, hn]) o1 o2 srt
  refine ⟨r, h1, h2.trans ?_⟩
  rw [a6]
  constructor
  · intro h S T C h1 h2 h3 d1 d2 d3
    rw [← a7 S T C d2, ← b7 S T C d2]; exact h S T C h1 h2 h3 d1 d2 d3
  · intro h S T C h1 h2 h3 d1 d2 d3
    rw [a7 S T C d2, b7 S T C d2]; exact h S T C h1 h2 h3 d1 d2 d3

/-- A graph that is not maximal and one with the same adjacencies. -/
example : AG.Reachable Sample.nonMax ∧ AG.Reachable Sample.sameSkel ∧ Sample.nonMax.mixed.Ancestral ∧
    Sample.sameSkel.mixed.Ancestral ∧ Sample.nonMax.nodes = Sample.sameSkel.nodes :=
  ⟨Sample.nonMax_reachable, Sample.sameSkel_reachable, Sample.nonMax_ancestral, Sample.sameSkel_ancestral, rfl⟩

end Props
