import Verif.Props.Complete
import Verif.Proof.CoreUtils

/-! # C54, C55: `powerset`, `powerset_predicate`, `possible_parents` -/

namespace Props

open Model
universe u
variable {α : Type u} [DecidableEq α]

/-- C54, first part. `powerset(s, r_min, r_max)` yields each subset of `s` of size between `r_min` and `r_max` exactly
once; without `r_max` there is no upper bound. `l` is the order in which `s` is iterated. -/
theorem C54_powerset (l : List α) (hl : l.Nodup) (rMin : ℕ) (rMax : Option ℕ) :
    (powerset l rMin rMax).Nodup ∧
      ∀ s, s ∈ powerset l rMin rMax ↔ s ⊆ l.toFinset ∧ rMin ≤ s.card ∧ ∀ m, rMax = some m → s.card ≤ m :=
  powerset_spec hl rMin rMax

example : ({2, 5} : Finset ℕ) ∈ powerset [5, 7, 2] 1 (some 2) ∧ ({2, 5, 7} : Finset ℕ) ∉ powerset [5, 7, 2] 1 (some 2) := by
  have h := (C54_powerset [5, 7, 2] (by decide) 1 (some 2)).2
  rw [h, h]
  decide

/-- C54, second part. `powerset_predicate(s, p)` only yields subsets that satisfy `p` and no subset twice; if `p` is
closed under taking subsets, it yields all of them. -/
theorem C54_powerset_predicate (l : List α) (hl : l.Nodup) (p : Finset α → Bool) :
    (powersetPredicate l fun t => p t.toFinset).Nodup ∧
      (∀ s ∈ powersetPredicate l fun t => p t.toFinset, s ⊆ l.toFinset ∧ p s = true) ∧
      ((∀ s t, s ⊆ t → p t = true → p s = true) →
        ∀ s, s ∈ (powersetPredicate l fun t => p t.toFinset) ↔ s ⊆ l.toFinset ∧ p s = true) := by
  have hsub := powersetPredicateFrom_sublist l (fun t => p t.toFinset) (List.range (l.length + 1))
  refine ⟨hsub.nodup (nodup_flat hl _ _ List.nodup_range), fun s hs => ?_, fun hp =>
    (powersetPredicate_spec hl _ (fun s => p s = true) (fun t _ => Iff.rfl) hp).2⟩
  have := hsub.subset hs
  simp only [List.mem_map, List.mem_flatMap, List.mem_filter, mem_combinations] at this
  obtain ⟨t, ⟨r, _, ⟨h1, _⟩, h3⟩, rfl⟩ := this
  exact ⟨fun x hx => List.mem_toFinset.2 (h1.subset (List.mem_toFinset.1 hx)), h3⟩

/-- Sets of numbers without two consecutive members, a predicate closed under subsets. -/
example : ({1, 3} : Finset ℕ) ∈ powersetPredicate [1, 2, 3] (fun t => decide (∀ x ∈ t.toFinset, x + 1 ∉ t.toFinset)) := by
  refine ((C54_powerset_predicate [1, 2, 3] (by decide) fun t => decide (∀ x ∈ t, x + 1 ∉ t)).2.2 ?_ _).2 (by decide)
  intro s t hst h
  simp only [decide_eq_true_eq] at h ⊢
  exact fun x hx hy => h x (hst hx) (hst hy)

/-- C55. `possible_parents(v)` yields each set of undirected neighbors of `v` that are pairwise joined by undirected
edges exactly once. -/
theorem C55_possible_parents (P : PDAG α) (hP : P.Consistent) (o : SetOrder Unit α) (v : α) :
    (P.possibleParents o v).Nodup ∧ ∀ s, s ∈ P.possibleParents o v ↔
      (∀ i ∈ s, ({i, v} : Finset α) ∈ P.edges) ∧ ∀ i ∈ s, ∀ j ∈ s, i ≠ j → ({i, j} : Finset α) ∈ P.edges := by
  have h := powersetPredicate_spec (o.nodup () (P.undirected v)) P.isEdgeClique
    (fun s => ∀ i ∈ s, ∀ j ∈ s, i ≠ j → P.hasEdge i j = true)
    (fun t ht => P.isEdgeClique_spec (ht.nodup (o.nodup _ _)))
    (fun s t hst h i hi j hj => h i (hst hi) j (hst hj))
  refine ⟨h.1, fun s => ?_⟩
  unfold PDAG.possibleParents
  rw [h.2]
  have : s ⊆ (o.ord () (P.undirected v)).toFinset ↔ ∀ i ∈ s, ({i, v} : Finset α) ∈ P.edges := by
    rw [Finset.subset_iff]
    exact forall₂_congr fun i _ => by rw [List.mem_toFinset, o.mem_iff, hP.undirected_iff]
  rw [this]
  simp [PDAG.hasEdge]

/-- In `0 → 1 - 2` the possible parents of `1` are `∅` and `{2}`. -/
example : ({2} : Finset (Fin 3)) ∈ Sample.partly.possibleParents _root_.Sample.order 1 ∧
    ({0} : Finset (Fin 3)) ∉ Sample.partly.possibleParents _root_.Sample.order 1 := by
  obtain ⟨hc, ha, he⟩ := Sample.partly_spec
  have h := (C55_possible_parents Sample.partly hc _root_.Sample.order 1).2
  rw [h, h, he]
  decide

end Props
