import Verif.Model.AGDistance
import Verif.Props.AGEquiv

/-! # C245: `shd_skeleton` and `as_hashed` of ancestral graphs -/

namespace Props

open Model Spec

universe u
variable {α : Type u} [DecidableEq α] {A B C : AG α}

open scoped Classical in
/-- C245. `shd_skeleton` counts the pairs of nodes that are adjacent in exactly one of the two graphs. -/
theorem C245_shd_skeleton (hA : A.Good) (hB : B.Good) :
    A.shdSkeleton B = (((A.nodes ∪ B.nodes).powersetCard 2).filter fun e =>
      ∃ u v, e = {u, v} ∧ ¬ (A.mixed.Adj u v ↔ B.mixed.Adj u v)).card := by
  have hmem : ∀ {A : AG α}, A.Good → ∀ e ∈ A.skeleton, e ⊆ A.nodes ∧ e.card = 2 := by
    intro A hA e he
    obtain ⟨u, v, rfl⟩ := AG.skeleton_pair hA he
    rw [AG.mem_skeleton hA] at he
    have hne : u ≠ v := by
      rintro rfl
      rcases he with h | h | h | h
      · exact hA.1.dir_ne _ h
      · exact hA.1.dir_ne _ h
      · exact hA.1.bi_ne h rfl
      · exact hA.1.un_ne h rfl
    refine ⟨?_, Finset.card_pair hne⟩
    have hu : u ∈ A.nodes ∧ v ∈ A.nodes := by
      rcases he with h | h | h | h
      · exact hA.1.dir_mem _ _ h
      · exact (hA.1.dir_mem _ _ h).symm
      · exact ⟨hA.1.bi_mem _ h (by simp), hA.1.bi_mem _ h (by simp)⟩
      · exact ⟨hA.1.un_mem _ h (by simp), hA.1.un_mem _ h (by simp)⟩
    simp [Finset.insert_subset_iff, hu]
  rw [AG.shdSkeleton]
  congr 1
  ext e
  simp only [Finset.mem_union, Finset.mem_sdiff, Finset.mem_filter, Finset.mem_powersetCard]
  constructor
  · rintro (⟨h1, h2⟩ | ⟨h1, h2⟩)
    · have := hmem hA e h1
      obtain ⟨u, v, rfl⟩ := AG.skeleton_pair hA h1
      rw [AG.mem_skeleton hA] at h1
      rw [AG.mem_skeleton hB] at h2
      exact ⟨⟨this.1.trans Finset.subset_union_left, this.2⟩, u, v, rfl, by tauto⟩
    · have := hmem hB e h1
      obtain ⟨u, v, rfl⟩ := AG.skeleton_pair hB h1
      rw [AG.mem_skeleton hB] at h1
      rw [AG.mem_skeleton hA] at h2
      exact ⟨⟨this.1.trans Finset.subset_union_right, this.2⟩, u, v, rfl, by tauto⟩
  · rintro ⟨-, u, v, rfl, h⟩
    rw [AG.mem_skeleton hA, AG.mem_skeleton hB]
    tauto

/-- C245. It is zero iff the graphs have the same adjacencies, in particular if `markov_equivalent` answers `True`; it is symmetric and
satisfies the triangle inequality. -/
theorem C245_metric (hA : A.Good) (hB : B.Good) :
    (A.shdSkeleton B = 0 ↔ ∀ u v, A.mixed.Adj u v ↔ B.mixed.Adj u v) ∧ A.shdSkeleton B = B.shdSkeleton A ∧
      (∀ C : AG α, A.shdSkeleton C ≤ A.shdSkeleton B + B.shdSkeleton C) ∧
      ∀ o1 o2 srt, A.mixed.Ancestral → B.mixed.Ancestral → A.markovEquivalent o1 o2 srt B = pure ⟨true⟩ → A.shdSkeleton B = 0 := by
  have h0 : A.shdSkeleton B = 0 ↔ ∀ u v, A.mixed.Adj u v ↔ B.mixed.Adj u v := by
    rw [← AG.skeleton_eq_iff hA hB, AG.shdSkeleton, Finset.card_eq_zero, Finset.union_eq_empty, Finset.sdiff_eq_empty_iff_subset,
      Finset.sdiff_eq_empty_iff_subset]
    exact ⟨fun h => h.1.antisymm h.2, fun h => h ▸ ⟨subset_rfl, subset_rfl⟩⟩
  refine ⟨h0, ?_, fun C => ?_, fun o1 o2 srt aA aB h => ?_⟩
  · rw [AG.shdSkeleton, AG.shdSkeleton, Finset.union_comm]
  · refine le_trans (Finset.card_le_card ?_) (Finset.card_union_le _ _)
    intro e
    simp only [Finset.mem_union, Finset.mem_sdiff]
    tauto
  · obtain ⟨r, h1, h2⟩ := AG.markovEquivalent_marks hA hB aA aB o1 o2 srt
    obtain rfl : true = r := by
      have := congrArg ExceptT.run (h.symm.trans h1)
      simpa using this
    exact h0.2 (h2.1 rfl).1

/-- C245. Two graphs with the same nodes and the same `as_hashed()` are the same in every respect. -/
theorem C245_as_hashed (hA : A.Good) (hB : B.Good) (hn : A.nodes = B.nodes) (h : A.asHashed = B.asHashed) : A = B := by
  obtain ⟨h1, h2⟩ := Prod.mk.inj h
  obtain ⟨h2, h3⟩ := Prod.mk.inj h2
  have e1 : A.neighbors = B.neighbors := funext fun v => Finset.ext fun u => by rw [hA.1.neighbors_iff, hB.1.neighbors_iff, h3]
  have e2 : A.spouses = B.spouses := funext fun v => Finset.ext fun u => by rw [hA.1.spouses_iff, hB.1.spouses_iff, h2]
  have e3 : A.parents = B.parents := funext fun v => Finset.ext fun u => by rw [hA.1.parents_iff, hB.1.parents_iff, h1]
  have e4 : A.children = B.children := funext fun v => Finset.ext fun u => by rw [hA.1.children_iff, hB.1.children_iff, h1]
  have e5 : A.adjacent = B.adjacent := funext fun v => Finset.ext fun u => by rw [hA.1.adjacent_iff, hB.1.adjacent_iff, h1, h2, h3]
  cases A
  cases B
  simp_all

example : (Sample.mixed (n := 3) {(0, 1)} {{1, 2}} ∅).shdSkeleton (Sample.mixed {(1, 0), (0, 2)} ∅ ∅) = 2 := by
  decide +kernel

-- the two graphs meet the hypotheses of the theorems
example : (Sample.mixed (n := 3) {(0, 1)} {{1, 2}} ∅).Good ∧ (Sample.mixed (n := 3) {(1, 0), (0, 2)} ∅ ∅).Good :=
  ⟨Sample.mixed_good (by decide) (by decide) (by decide) (by decide) (by decide),
    Sample.mixed_good (by decide) (by decide) (by decide) (by decide) (by decide)⟩

end Props
