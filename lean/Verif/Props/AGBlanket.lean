import Verif.Proof.AGBlanket
import Verif.Props.AG

/-! # C170: `AncestralGraph.markov_blanket_of` -/

namespace Props

universe u

open Spec Model Relation

variable {α : Type u} [DecidableEq α]

/-- C170. `markov_blanket_of(v, flat=True)` returns a set with `v` that is contained, but for `v`, in every set of nodes that separates
`v` from all others. If `v` has no children and no undirected edges, the set itself separates `v` from all others. Missing: it does so for
all nodes. -/
theorem C170_markov_blanket_partial (A : AG α) (h : AG.Reachable A) (o : SetOrder (α × Finset α) α) (v : α) (hv : v ∈ A.nodes) :
    ∃ S, A.markovBlanketFlat o v = some S ∧ v ∈ S ∧ S ⊆ A.nodes ∧
      (∀ Z : Set α, v ∉ Z → A.mixed.MSep {v} ({x | x ∈ A.nodes} \ (Z ∪ {v})) Z → ∀ x ∈ S, x ≠ v → x ∈ Z) ∧
      ((∀ x, (v, x) ∉ A.directed) → (∀ x, {v, x} ∉ A.undirected) →
        A.mixed.MSep {v} {x | x ∈ A.nodes ∧ x ∉ S} {x | x ∈ S ∧ x ≠ v}) := by
  obtain ⟨S, h1, h2⟩ := AG.markovBlanketFlat_spec h.good o hv
  have hV : ∀ x y, A.mixed.Adj x y → x ∈ {x | x ∈ A.nodes} := by
    rintro x y (k | k | k | k)
    · exact (h.good.1.dir_mem _ _ k).1
    · exact (h.good.1.dir_mem _ _ k).2
    · exact h.good.1.bi_mem _ k (by simp)
    · exact h.good.1.un_mem _ k (by simp)
  refine ⟨S, h1, (h2 v).2 (.inl .refl), fun x hx => ?_, fun Z hvZ hZ x hx hxv => ?_, fun hch hnb => ?_⟩
  · rcases (h2 x).1 hx with k | ⟨d, -, k⟩
    · rcases ReflTransGen.cases_tail k with rfl | ⟨y, -, k⟩
      · exact hv
      · exact h.good.1.bi_mem _ k (by simp)
    · exact (h.good.1.dir_mem _ _ k).1
  · exact Mixed.mb_least h.good.proper hV hvZ hZ ((h2 x).1 hx) hxv
  · exact Mixed.mb_separates h.good.proper hch hnb (fun x hx hxv => ⟨(h2 x).2 hx, hxv⟩) fun b hb => fun hm => hb.2 ((h2 b).2 hm)

/-- C170. Without `flat`, the keys of the dictionary are the district of `v`, and the values are the parents. -/
theorem C170_dictionary (A : AG α) (h : AG.Reachable A) (o : SetOrder (α × Finset α) α) (v : α) (hv : v ∈ A.nodes) :
    ∃ D, A.markovBlanketOf o v = some D ∧
      (∀ d, (∃ P, (d, P) ∈ D) ↔ ReflTransGen (fun a b => {a, b} ∈ A.bidirected) v d) ∧
      ∀ d P, (d, P) ∈ D → ∀ x, x ∈ P ↔ (x, d) ∈ A.directed := by
  obtain ⟨N, h1, h2⟩ := AG.districtOfIn_spec h.good o hv
  refine ⟨N.image fun d => (d, A.parents d), by rw [AG.markovBlanketOf, AG.districtOf, h1]; rfl, fun d => ?_, fun d P hd x => ?_⟩
  · have : (∃ P, (d, P) ∈ N.image fun d => (d, A.parents d)) ↔ d ∈ N := by
      simp only [Finset.mem_image, Prod.mk.injEq]
      exact ⟨fun ⟨_, y, hy, e, _⟩ => e ▸ hy, fun h => ⟨_, d, h, rfl, rfl⟩⟩
    rw [this, h2]
    clear this
    refine ⟨fun h => ?_, fun k => ?_⟩
    · induction h with
      | refl => exact .refl
      | tail _ hs ih => exact ih.tail hs.1
    · induction k with
      | refl => exact .refl
      | @tail b c _ hs ih => exact ih.tail ⟨hs, h.good.1.bi_mem _ hs (by simp)⟩
  · simp only [Finset.mem_image, Prod.mk.injEq] at hd
    obtain ⟨y, -, rfl, rfl⟩ := hd
    exact h.good.1.parents_iff x y

/-- C170 fails for nodes with children: in `0 → 1` the blanket of 0 is `{0}`, which does not separate 0 from 1. -/
theorem C170_violated : ∃ A : AG (Fin 2), AG.Reachable A ∧ A.mixed.Ancestral ∧ ∀ o, A.markovBlanketFlat o 0 = some {0} ∧
    ¬ A.mixed.MSep {0} {x | x ∈ A.nodes ∧ x ∉ ({0} : Finset (Fin 2))} {x | x ∈ ({0} : Finset (Fin 2)) ∧ x ≠ 0} := by
  have g : (Sample.mixed (n := 2) {(0, 1)} ∅ ∅).Good := Sample.mixed_good (by decide) (by decide) (by decide)
    (by decide) (by decide)
  refine ⟨_, Sample.mixed_reachable g Sample.order ∅ ∅ (by decide) rfl, ⟨?_, ?_, ?_⟩, fun o => ⟨?_, ?_⟩⟩
  · exact Sample.acyclic_of_lt (by unfold AG.mixed; decide)
  · intro u v h; simp [AG.mixed, Sample.mixed] at h
  · intro u v w h; simp [AG.mixed, Sample.mixed] at h
  · obtain ⟨S, h1, h2⟩ := AG.markovBlanketFlat_spec g o (v := 0) (by decide)
    rw [h1]
    congr 1
    ext x
    rw [h2, Finset.mem_singleton]
    have hdis : ∀ d, (Sample.mixed (n := 2) {(0, 1)} ∅ ∅).mixed.Dis 0 d → d = 0 := by
      intro d hd
      rcases ReflTransGen.cases_head hd with rfl | ⟨y, hy, -⟩
      · rfl
      · simp [AG.mixed, Sample.mixed] at hy
    constructor
    · rintro (k | ⟨d, k, k'⟩)
      · exact hdis x k
      · rw [hdis d k] at k'
        revert k'; revert x
        unfold AG.mixed
        decide
    · rintro rfl
      exact .inl .refl
  · intro h
    refine h 0 rfl 1 ⟨by decide, by decide⟩ [0, 1] ⟨rfl, rfl, by decide, ?_, ?_⟩
    · intro u v h
      have := h.eq_of_length rfl
      simp only [List.cons.injEq, and_true] at this
      obtain ⟨rfl, rfl⟩ := this
      exact .inl (by unfold AG.mixed; decide)
    · intro u v w h
      have := h.length_le
      simp at this

/-- The hypotheses can be met: in `0 → 1 ↔ 2` the node 2 has no children, and 0 is in its blanket. -/
example (o : SetOrder ((Fin 3) × Finset (Fin 3)) (Fin 3)) : ∃ (A : AG (Fin 3)) (S : Finset (Fin 3)), AG.Reachable A ∧ A.markovBlanketFlat o 2 = some S ∧ 0 ∈ S ∧
    A.mixed.MSep {2} {x | x ∈ A.nodes ∧ x ∉ S} {x | x ∈ S ∧ x ≠ 2} := by
  have g : (Sample.mixed (n := 3) {(0, 1)} {{1, 2}} ∅).Good := Sample.mixed_good (by decide) (by decide) (by decide)
    (by decide) (by decide)
  have hr := Sample.mixed_reachable g Sample.order {(1, 2)} ∅ (by decide) rfl
  obtain ⟨S, h1, -, -, -, h2⟩ := C170_markov_blanket_partial _ hr o 2 (by decide)
  obtain ⟨S', h1', h3⟩ := AG.markovBlanketFlat_spec g o (v := 2) (by decide)
  rw [h1] at h1'
  cases h1'
  refine ⟨_, S, hr, h1, (h3 0).2 (.inr ⟨1, .single ?_, ?_⟩), h2 (by decide) (by decide)⟩
  · unfold AG.mixed; decide
  · unfold AG.mixed; decide

end Props
