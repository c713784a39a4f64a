import Verif.Props.Sample

/-! # C01, C02, C05: topological sort and the constructor -/

namespace Props

open Model Model.DAG Spec
universe u
variable {α : Type u} [DecidableEq α]

/-- C01. On an acyclic graph `topological_sort()` returns a linear extension, for every iteration order. -/
theorem C01_topological_sort (G : DAG α) (hG : G.Valid) (o : SetOrder (Option α) α) :
    ∃ l, (topologicalSort G o).run = some (.ok l) ∧ LinearExtension {v | v ∈ G.nodes} G.E l :=
  topologicalSort_ok G o hG

example : ∃ l, (topologicalSort Sample.diamond Sample.order).run = some (.ok l) ∧
    LinearExtension {v | v ∈ Sample.diamond.nodes} Sample.diamond.E l :=
  C01_topological_sort _ Sample.diamond_valid _

/-- C02. `topological_sort()` raises `CycleError` iff the arcs contain a cycle; it raises nothing else and
always terminates; the reported cycle is a walk along arcs that returns to one of its nodes. -/
theorem C02_cycle_error (G : DAG α) (hG : G.Consistent) (o : SetOrder (Option α) α) :
    ((∃ l, (topologicalSort G o).run = some (.error (.cycle l))) ↔ ∃ v, Path G.E v v) ∧
    (∀ l, (topologicalSort G o).run = some (.error (.cycle l)) → IsClosingWalk G.E l) ∧
    (∀ e, (topologicalSort G o).run = some (.error e) → ∃ l, e = .cycle l) ∧
    (topologicalSort G o).run ≠ none := by
  by_cases ha : Acyclic G.E
  · obtain ⟨l, hl, _⟩ := topologicalSort_ok G o ⟨hG, ha⟩
    refine ⟨⟨?_, ?_⟩, ?_, ?_, ?_⟩
    · rintro ⟨l', h⟩; rw [hl] at h; simp at h
    · rintro ⟨v, hv⟩; exact absurd hv (ha v)
    · intro l' h; rw [hl] at h; simp at h
    · intro e h; rw [hl] at h; simp at h
    · rw [hl]; simp
  · obtain ⟨l, hl, hw⟩ := topologicalSort_error G o hG ha
    refine ⟨⟨?_, ?_⟩, ?_, ?_, ?_⟩
    · rintro _; by_contra hc; push Not at hc; exact ha hc
    · rintro _; exact ⟨l, hl⟩
    · intro l' h; rw [hl] at h; simp at h; exact h ▸ hw
    · intro e h; rw [hl] at h; simp at h; exact ⟨l, h.symm⟩
    · rw [hl]; simp

example : ∃ l, (topologicalSort Sample.triangle Sample.order).run = some (.error (.cycle l)) :=
  ((C02_cycle_error _ Sample.triangle_consistent _).1).2 (by
    by_contra hc; push Not at hc; exact Sample.triangle_cyclic hc)

/-- C05. The constructor succeeds with exactly the given arcs (and their endpoints among the nodes) if the arcs
are acyclic, and raises an exception otherwise. -/
theorem C05_constructor (o : SetOrder (Option α) α) (oa : SetOrder Bool (α × α)) (nodes : Finset α)
    (arcs : Finset (α × α)) :
    ((∀ v, ¬ Path (fun i j => (i, j) ∈ arcs) v v) →
      ∃ G, DAG.new o oa nodes arcs = some (G, none) ∧ G.Consistent ∧ G.arcs = arcs ∧
        ∀ v, v ∈ G.nodes ↔ v ∈ nodes ∨ ∃ a ∈ arcs, v = a.1 ∨ v = a.2) ∧
    ((∃ v, Path (fun i j => (i, j) ∈ arcs) v v) →
      ∃ G e, DAG.new o oa nodes arcs = some (G, some e)) := by
  constructor
  · intro h
    obtain ⟨G, h1, h2, h3, h4⟩ := new_ok o oa nodes arcs h
    refine ⟨G, h1, h2.toConsistent, h3, fun v => ?_⟩
    rw [h4]
    simp only [Finset.mem_union, Finset.mem_image]
    constructor
    · rintro ((h | ⟨a, h, rfl⟩) | ⟨a, h, rfl⟩)
      · exact Or.inl h
      · exact Or.inr ⟨a, h, Or.inl rfl⟩
      · exact Or.inr ⟨a, h, Or.inr rfl⟩
    · rintro (h | ⟨a, h, rfl | rfl⟩)
      · exact Or.inl (Or.inl h)
      · exact Or.inl (Or.inr ⟨a, h, rfl⟩)
      · exact Or.inr ⟨a, h, rfl⟩
  · rintro ⟨v, hv⟩
    exact new_error o oa nodes arcs (fun h => h v hv)

example : ∃ G, DAG.new Sample.order Sample.order {7} ({(0, 1), (1, 2)} : Finset (ℕ × ℕ)) = some (G, none) := by
  obtain ⟨G, h, _⟩ := (C05_constructor Sample.order Sample.order {7} ({(0, 1), (1, 2)} : Finset (ℕ × ℕ))).1 (by
    intro v hv
    have : ∀ a b, Path (fun i j => (i, j) ∈ ({(0, 1), (1, 2)} : Finset (ℕ × ℕ))) a b → a < b := by
      intro a b h
      induction h with
      | single h => simp at h; omega
      | tail _ h ih => simp at h; omega
    exact lt_irrefl _ (this v v hv))
  exact ⟨G, h⟩

end Props
